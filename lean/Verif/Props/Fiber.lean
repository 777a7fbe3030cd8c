import Verif.FiberSpec

/-!
# Fibers: join, handles, lifetime (C38, C39, C40)

`handles tr` is what each `fiber` object refers to according to the interface, `inCall tr f` the call fiber `f` is
in; both are computed from the observed calls and returns (`Verif/FiberSpec.lean`).
-/

namespace Verif.Fib

theorem over_ret {a : List Obs} {g : Fid} (hr : Runs Spec.init a) (h : (replay a).over g = true) : .returned g ∈ a := by
  obtain ⟨ws, hm⟩ := (replay_over a g).1 h
  obtain ⟨a1, a2, rfl⟩ := List.append_of_mem hm
  have := (Runs.split hr).2
  have := (replay_ret a1 g).1 this.1
  simp [this]

theorem Runs.left {sp : Spec} {a b : List Obs} (h : Runs sp (a ++ b)) : Runs sp a := by
  induction a generalizing sp with
  | nil => trivial
  | cons x l ih => exact ⟨h.1, ih h.2⟩

/-- The call a fiber is in is the last one it made. -/
theorem inCall_called {tr : List Obs} {f : Fid} {op : Op} {x : Option Fid} (h : inCall tr f = some (op, x)) :
    ∃ a b, tr = a ++ .called f op x :: b ∧ ∀ op' x' r, .called f op' x' ∉ b ∧ .ret f op' x' r ∉ b := by
  rw [← List.reverse_reverse tr] at h ⊢
  generalize tr.reverse = l at h ⊢
  induction l with
  | nil => simp [inCall, replay, Spec.init] at h
  | cons y l ih =>
    simp only [List.reverse_cons] at h ⊢
    have e : inCall (l.reverse ++ [y]) f = ((replay l.reverse).after y).pend f := by
      rw [inCall, replay_append]; rfl
    rw [e] at h
    have key : inCall l.reverse f = some (op, x) → (∀ op' x' r, y ≠ .called f op' x' ∧ y ≠ .ret f op' x' r) →
        ∃ a b, l.reverse ++ [y] = a ++ .called f op x :: b ∧ ∀ op' x' r, .called f op' x' ∉ b ∧ .ret f op' x' r ∉ b := by
      intro h1 h2
      obtain ⟨a, b, hab, hb⟩ := ih h1
      refine ⟨a, b ++ [y], by rw [hab]; simp, ?_⟩
      intro op' x' r
      have h3 := hb op' x' r
      have h4 := h2 op' x' r
      simp only [List.mem_append, List.mem_singleton, not_or]
      exact ⟨⟨h3.1, h4.1.symm⟩, h3.2, h4.2.symm⟩
    cases y with
    | called f' op' x' =>
      simp only [Spec.after, upd_apply] at h
      split at h
      · rename_i hf
        simp only [Option.some.injEq, Prod.mk.injEq] at h
        obtain ⟨rfl, rfl⟩ := h
        subst hf
        exact ⟨_, [], rfl, by simp⟩
      · rename_i hf
        refine key h ?_
        intro _ _ _; simp; intro h; exact absurd h.symm hf
    | ret f' op' x' r =>
      simp only [Spec.after, upd_apply] at h
      split at h
      · simp at h
      · rename_i hf
        refine key h ?_
        intro _ _ _; simp; intro h; exact absurd h.symm hf
    | returned | terminated | left | freed | abort | ub => exact key h (by simp)

/-! ## C38: join -/

/-- `join` returns normally only after the function of the joined fiber has returned; the joined fiber is the one the
handle referred to when `join` was called, and is not the caller. -/
theorem join_returns_after_function {s : State} {tr a b : List Obs} {f : Fid} {h : Hid} {x : Option Fid}
    (hr : Reach step init s tr) (ht : tr = a ++ .ret f (.join h) x .ok :: b) :
    ∃ g, x = some g ∧ g ≠ f ∧ .returned g ∈ a ∧
      ∃ a1 a2, a = a1 ++ .called f (.join h) (some g) :: a2 ∧ handles a1 h = some (some g) ∧
        ∀ op' x' r, .called f op' x' ∉ a2 ∧ .ret f op' x' r ∉ a2 := by
  subst ht
  have hR := (reach_sim hr).1
  obtain ⟨-, h1, h2⟩ := Runs.split hR
  cases x with
  | none => simp [Spec.allowed] at h2
  | some g =>
    simp only [Spec.allowed] at h2
    split at h2
    · simp at h2
    · rename_i hg
      obtain ⟨a1, a2, rfl, ha2⟩ := inCall_called h1
      refine ⟨g, rfl, hg, over_ret hR.left h2.2, a1, a2, rfl, ?_, ha2⟩
      have hR' := hR.left
      exact (Runs.split hR').2.2

/-- When a fiber finishes, exactly the fibers that are inside `join` of it are made runnable, each once. -/
theorem finish_releases_joiners {s : State} {tr a b : List Obs} {g : Fid} {ws : List Fid}
    (hr : Reach step init s tr) (ht : tr = a ++ .terminated g ws :: b) :
    .returned g ∈ a ∧ ws.Nodup ∧ ∀ f, f ∈ ws ↔ ∃ h, inCall a f = some (.join h, some g) := by
  subst ht
  obtain ⟨-, h1, -, h3, h4⟩ := Runs.split (reach_sim hr).1
  exact ⟨(replay_ret _ _).1 h1, h3, h4⟩

/-- Once a fiber has finished, every fiber inside `join` of it can run, and when it runs `join` returns. -/
theorem joiners_return {s : State} {tr : List Obs} {f g : Fid} {h : Hid} {ws : List Fid}
    (hr : Reach step init s tr) (hn : ∀ f op, .abort f op ∉ tr) (ht : .terminated g ws ∈ tr)
    (hf : inCall tr f = some (.join h, some g)) :
    ∃ s1 o1, step s (.run f) = some (s1, o1) ∧
      (.ret f (.join h) (some g) .ok ∈ o1 ∨
        o1 = [] ∧ ∃ s2 o2, step s1 (.run f) = some (s2, o2) ∧ .ret f (.join h) (some g) .ok ∈ o2) := by
  obtain ⟨-, hw, -⟩ := reach_inv hr
  obtain ⟨hc, -⟩ := reach_inv hr
  obtain ⟨-, sim⟩ := reach_sim hr
  have ha : s.aborted = false := by
    cases e : s.aborted with
    | false => rfl
    | true =>
      rw [← sim.abo, replay_aborted] at e
      obtain ⟨f, op, e⟩ := e; exact absurd e (hn f op)
  have hterm : s.term g = true := by
    rw [hc.trm, ← sim.over, replay_over]; exact ⟨ws, ht⟩
  have hp : pendOf (s.pc f) = some (.join h, some g) := by rw [← sim.pend ha]; exact hf
  have hjoined : ∀ s1 : State, s1.aborted = false → s1.pc f = .joined h g →
      ∃ s2 o2, step s1 (.run f) = some (s2, o2) ∧ Obs.ret f (.join h) (some g) .ok ∈ o2 := by
    intro s1 h1 h2
    simp only [step, h1, run, h2]
    cases h3 : s1.hd h with
    | none => exact ⟨_, _, rfl, by simp⟩
    | some y => cases y <;> exact ⟨_, _, rfl, by simp⟩
  cases e : s.pc f <;> simp only [e, pendOf, reduceCtorEq, Option.some.injEq, Prod.mk.injEq, Op.join.injEq] at hp
  · obtain ⟨rfl, rfl⟩ := hp
    have hrd := (hw.rd _ _ _ _ e).2 hterm
    refine ⟨_, [], by simp only [step, ha, run, e, hrd]; rfl, .inr ⟨rfl, ?_⟩⟩
    exact hjoined _ rfl (by simp)
  · obtain ⟨rfl, rfl⟩ := hp
    obtain ⟨s2, o2, h1, h2⟩ := hjoined s ha e
    exact ⟨s2, o2, h1, .inl h2⟩

/-- No joiner is stranded: when nothing in the library can go on, a fiber inside `join` waits for a fiber whose
function has not returned. -/
theorem joiner_not_stranded {s : State} {tr : List Obs} {f g : Fid} {h : Hid}
    (hr : Reach step init s tr) (hn : ∀ f op, .abort f op ∉ tr) (hq : ∀ f, step s (.run f) = none)
    (hf : inCall tr f = some (.join h, some g)) : .returned g ∉ tr := by
  intro hg
  obtain ⟨hc, -, -⟩ := reach_inv hr
  obtain ⟨-, sim⟩ := reach_sim hr
  have ha : s.aborted = false := by
    cases e : s.aborted with
    | false => rfl
    | true =>
      rw [← sim.abo, replay_aborted] at e
      obtain ⟨f, op, e⟩ := e; exact absurd e (hn f op)
  have hd : (s.pc g).done = true := by rw [← sim.ret, replay_ret]; exact hg
  have : ∃ ws, .terminated g ws ∈ tr := by
    rw [← replay_over, sim.over]
    cases e : s.pc g <;> simp only [e, Pc.done, Bool.false_eq_true] at hd
    · have := hq g
      cases hl : s.live g <;> simp [step, ha, run, e, hl] at this
    all_goals rfl
  obtain ⟨ws, hws⟩ := this
  obtain ⟨s1, o1, h1, -⟩ := joiners_return hr hn hws hf
  rw [hq f] at h1; cases h1

/-- Joining a fiber that has finished does not block: the caller is not suspended, and `join` returns. -/
theorem join_finished_does_not_block {s s1 : State} {tr o : List Obs} {f g : Fid} {h : Hid} {ws : List Fid}
    (hr : Reach step init s tr) (ht : .terminated g ws ∈ tr) (hh : handles tr h = some (some g)) (hfg : f ≠ g)
    (hs : step s (.call f (.join h)) = some (s1, o)) :
    ∃ s2 o2, step s1 (.run f) = some (s2, .ret f (.join h) (some g) .ok :: o2) := by
  obtain ⟨hc, -, -⟩ := reach_inv hr
  obtain ⟨-, sim⟩ := reach_sim hr
  have hterm : s.term g = true := by
    rw [hc.trm, ← sim.over, replay_over]; exact ⟨ws, ht⟩
  have hk : s.hd h = some (some g) := by rw [← sim.obj]; exact hh
  have hlive : s.live g = true := (hc.liv g).2 (by rw [hc.held h g hk]; omega)
  simp only [step] at hs
  split at hs <;> try (simp only [reduceCtorEq] at hs; done)
  rename_i ha
  split at hs <;> try (simp only [reduceCtorEq] at hs; done)
  simp only [call, hk, hfg.symm, if_false, hlive, if_true, hterm] at hs
  simp only [Option.some.injEq, Prod.mk.injEq] at hs
  obtain ⟨rfl, rfl⟩ := hs
  have : s.aborted = false := by simpa using ha
  simp only [step, run, this, upd_same, hk]
  exact ⟨_, _, rfl⟩

/-! ## C39: handles -/

/-- At most one handle refers to a fiber. -/
theorem one_handle_per_fiber {s : State} {tr : List Obs} {h h' : Hid} {g : Fid} (hr : Reach step init s tr)
    (h1 : handles tr h = some (some g)) (h2 : handles tr h' = some (some g)) : h = h' := by
  obtain ⟨hc, -, -⟩ := reach_inv hr
  obtain ⟨-, sim⟩ := reach_sim hr
  have : handles tr = s.hd := sim.obj
  rw [this] at h1 h2
  exact hc.uniq _ _ _ h1 h2

/-- `joinable` is true exactly when the handle refers to a fiber: one given to it by construction, move or swap, and
not taken from it by join, detach, move or swap since (this is `handles`). -/
theorem joinable_tells {s s' : State} {tr o : List Obs} {f : Fid} {h : Hid} (hr : Reach step init s tr)
    (hs : step s (.call f (.joinable h)) = some (s', o)) :
    s' = s ∧ ∃ x, handles tr h = some x ∧ o = [.called f (.joinable h) x, .ret f (.joinable h) x (.bool x.isSome)] := by
  obtain ⟨-, sim⟩ := reach_sim hr
  have : handles tr = s.hd := sim.obj
  simp only [step] at hs
  split at hs <;> try (simp only [reduceCtorEq] at hs; done)
  split at hs <;> try (simp only [reduceCtorEq] at hs; done)
  simp only [call] at hs
  split at hs <;> try (simp only [reduceCtorEq] at hs; done)
  rename_i x hx
  simp only [ret, Option.some.injEq, Prod.mk.injEq] at hs
  obtain ⟨rfl, rfl⟩ := hs
  exact ⟨rfl, x, by rw [this, hx], rfl⟩

/-- Joining oneself throws `resource_deadlock_would_occur` and changes nothing. -/
theorem join_self_throws {s s' : State} {tr o : List Obs} {f : Fid} {h : Hid} (hr : Reach step init s tr)
    (hh : handles tr h = some (some f)) (hs : step s (.call f (.join h)) = some (s', o)) :
    s' = s ∧ o = [.called f (.join h) (some f), .ret f (.join h) (some f) .deadlock] := by
  obtain ⟨-, sim⟩ := reach_sim hr
  have hk : s.hd h = some (some f) := by rw [← sim.obj]; exact hh
  simp only [step] at hs
  split at hs <;> try (simp only [reduceCtorEq] at hs; done)
  split at hs <;> try (simp only [reduceCtorEq] at hs; done)
  simp only [call, hk, if_true, ret, Option.some.injEq, Prod.mk.injEq] at hs
  exact ⟨hs.1.symm, hs.2.symm⟩

/-- Joining or detaching through a handle that refers to nothing throws `invalid_argument` and changes nothing. -/
theorem not_joinable_throws {s s' : State} {tr o : List Obs} {f : Fid} {h : Hid} {op : Op} (hr : Reach step init s tr)
    (hop : op = .join h ∨ op = .detach h) (hh : handles tr h = some none) (hs : step s (.call f op) = some (s', o)) :
    s' = s ∧ o = [.called f op none, .ret f op none .invalid] := by
  obtain ⟨-, sim⟩ := reach_sim hr
  have hk : s.hd h = some none := by rw [← sim.obj]; exact hh
  simp only [step] at hs
  split at hs <;> try (simp only [reduceCtorEq] at hs; done)
  split at hs <;> try (simp only [reduceCtorEq] at hs; done)
  rcases hop with rfl | rfl
  all_goals
    simp only [call, hk, ret, Option.some.injEq, Prod.mk.injEq] at hs
    exact ⟨hs.1.symm, hs.2.symm⟩

/-- `join` fails in no other case: any result but these two means the joined fiber is another one, and has finished. -/
theorem join_results {s : State} {tr a b : List Obs} {f : Fid} {h : Hid} {x : Option Fid} {r : Res}
    (hr : Reach step init s tr) (ht : tr = a ++ .ret f (.join h) x r :: b) :
    (x = none ∧ r = .invalid) ∨ (x = some f ∧ r = .deadlock) ∨ (∃ g, x = some g ∧ g ≠ f ∧ r = .ok) := by
  subst ht
  obtain ⟨-, h1, h2⟩ := Runs.split (reach_sim hr).1
  cases x with
  | none => exact .inl ⟨rfl, h2⟩
  | some g =>
    simp only [Spec.allowed] at h2
    split at h2
    · subst_vars; exact .inr (.inl ⟨rfl, rfl⟩)
    · rename_i hg; exact .inr (.inr ⟨g, rfl, hg, h2.1⟩)

/-- The calls that would lose a running fiber: destroying, or assigning over, a handle that refers to one. -/
def loses (obj : Hid → Option (Option Fid)) : Op → Prop
  | .destroy h => ∃ g, obj h = some (some g)
  | .moveAssign _ h' => ∃ g, obj h' = some (some g)
  | _ => False

/-- Exactly these calls end the program. -/
theorem abort_iff_loses {s s' : State} {tr o : List Obs} {f : Fid} {op : Op} (hr : Reach step init s tr)
    (hs : step s (.call f op) = some (s', o)) : .abort f op ∈ o ↔ loses (handles tr) op := by
  obtain ⟨-, sim⟩ := reach_sim hr
  have : handles tr = s.hd := sim.obj
  rw [this]
  have hrel : ∀ s1 g, Obs.abort f op ∉ (release s1 g).2 := by
    intro s1 g; unfold release; (repeat' split) <;> simp
  simp only [step] at hs
  split at hs <;> try (simp only [reduceCtorEq] at hs; done)
  split at hs <;> try (simp only [reduceCtorEq] at hs; done)
  cases op <;> simp only [call] at hs <;> repeat' split at hs
  all_goals try (simp only [reduceCtorEq] at hs; done)
  all_goals
    simp only [ret, abort, Option.some.injEq, Prod.mk.injEq] at hs
    obtain ⟨rfl, rfl⟩ := hs
    simp_all [loses]
  · rename_i h; exact Option.isSome_iff_exists.1 h
  · rename_i h; exact Option.isSome_iff_exists.1 h

/-- Nothing else ends the program … -/
theorem abort_only_by_call {s s' : State} {tr o : List Obs} {e : Event} {f : Fid} {op : Op} (hr : Reach step init s tr)
    (hs : step s e = some (s', o)) (ho : .abort f op ∈ o) : e = .call f op := by
  obtain ⟨hc, hw, -⟩ := reach_inv hr
  have hrel : ∀ s1 g, Obs.abort f op ∉ (release s1 g).2 := by
    intro s1 g; unfold release; (repeat' split) <;> simp
  simp only [step] at hs
  split at hs <;> try (simp only [reduceCtorEq] at hs; done)
  cases e with
  | call f' op' =>
    simp only at hs
    split at hs <;> try (simp only [reduceCtorEq] at hs; done)
    have : ∀ s1 g, Obs.abort f op ∉ (release s1 g).2 := hrel
    cases op' <;> simp only [call] at hs <;> repeat' split at hs
    all_goals try (simp only [reduceCtorEq] at hs; done)
    all_goals
      simp only [ret, abort, Option.some.injEq, Prod.mk.injEq] at hs
      obtain ⟨rfl, rfl⟩ := hs
      simp_all
  | run f' =>
    simp only [run] at hs
    repeat' split at hs
    all_goals try (simp only [reduceCtorEq] at hs; done)
    all_goals
      simp only [Option.some.injEq, Prod.mk.injEq] at hs
      obtain ⟨rfl, rfl⟩ := hs
      simp_all
  | thread | finish | elsewhere =>
    simp only at hs
    split at hs <;> try (simp only [reduceCtorEq] at hs; done)
    simp only [Option.some.injEq, Prod.mk.injEq] at hs
    obtain ⟨rfl, rfl⟩ := hs
    simp at ho
  | reap f' =>
    simp only at hs
    split at hs <;> try (simp only [reduceCtorEq] at hs; done)
    simp only [Option.some.injEq] at hs
    have := hrel { s with pc := upd s.pc f' .reaped } f'
    rw [hs] at this
    exact absurd ho this

/-- … and nothing happens afterwards. -/
theorem nothing_after_abort {s : State} {tr : List Obs} {f : Fid} {op : Op} (hr : Reach step init s tr)
    (ho : .abort f op ∈ tr) (e : Event) : step s e = none := by
  obtain ⟨-, sim⟩ := reach_sim hr
  have : s.aborted = true := by rw [← sim.abo, replay_aborted]; exact ⟨f, op, ho⟩
  simp [step, this]

/-! ## C40: lifetime -/

/-- The memory of a fiber is freed at most once. -/
theorem freed_once {s : State} {tr a b : List Obs} {g : Fid} (hr : Reach step init s tr) (ht : tr = a ++ .freed g :: b) :
    .freed g ∉ a ∧ .freed g ∉ b := by
  subst ht
  have hR := (reach_sim hr).1
  refine ⟨?_, ?_⟩
  · intro h
    have := (Runs.split hR).2.2.1
    have h2 := (replay_freed a g).2 h
    rw [replay] at h2; simp_all
  · intro h
    obtain ⟨b1, b2, rfl⟩ := List.append_of_mem h
    have hR' : Runs Spec.init ((a ++ .freed g :: b1) ++ .freed g :: b2) := by simpa using hR
    have := (Runs.split hR').2.2.1
    have h2 := (replay_freed (a ++ .freed g :: b1) g).2 (by simp)
    rw [replay] at h2; simp_all

/-- It is freed only after the function of the fiber has returned, the fiber has terminated and left its stack, and
when no handle refers to it; no handle ever refers to it again. -/
theorem freed_after_end {s : State} {tr a b : List Obs} {g : Fid} (hr : Reach step init s tr) (ht : tr = a ++ .freed g :: b) :
    .returned g ∈ a ∧ (∃ ws, .terminated g ws ∈ a) ∧ .left g ∈ a ∧ (∀ h, handles a h ≠ some (some g)) ∧
      ∀ h, handles tr h ≠ some (some g) := by
  have hR := (reach_sim hr).1
  have hf : .freed g ∈ tr := by rw [ht]; simp
  have hfin : ∀ h, handles tr h ≠ some (some g) := by
    obtain ⟨hc, -, -⟩ := reach_inv hr
    obtain ⟨-, sim⟩ := reach_sim hr
    intro h hh
    have hk : s.hd h = some (some g) := by rw [← sim.obj]; exact hh
    have := (replay_freed tr g).2 hf
    rw [sim.freed] at this
    have h1 := (hc.liv g).2 (by rw [hc.held h g hk]; omega)
    simp [h1] at this
  subst ht
  obtain ⟨-, h1, -, h3⟩ := Runs.split hR
  have hl := (replay_left a g).1 h1
  have hover : (replay a).over g = true := by
    obtain ⟨a1, a2, rfl⟩ := List.append_of_mem hl
    have := (Runs.split hR.left).2.1
    obtain ⟨ws, hws⟩ := (replay_over a1 g).1 this
    rw [replay_over]; exact ⟨ws, by simp [hws]⟩
  exact ⟨over_ret hR.left hover, (replay_over a g).1 hover, hl, h3, hfin⟩

/-- It is freed at the latest when the dispatcher has nothing left to do: a fiber whose function has returned and which
no handle refers to does not leak. -/
theorem no_leak {s : State} {tr : List Obs} {g : Fid} (hr : Reach step init s tr) (hn : ∀ f op, .abort f op ∉ tr)
    (hq : ∀ f, step s (.run f) = none ∧ step s (.reap f) = none) (hg : .returned g ∈ tr)
    (hh : ∀ h, handles tr h ≠ some (some g)) : .freed g ∈ tr := by
  obtain ⟨hc, -, -⟩ := reach_inv hr
  obtain ⟨-, sim⟩ := reach_sim hr
  have ha : s.aborted = false := by
    cases e : s.aborted with
    | false => rfl
    | true =>
      rw [← sim.abo, replay_aborted] at e
      obtain ⟨f, op, e⟩ := e; exact absurd e (hn f op)
  have hobj : handles tr = s.hd := sim.obj
  rw [hobj] at hh
  have hd : (s.pc g).done = true := by rw [← sim.ret, replay_ret]; exact hg
  have hq1 := (hq g).1
  have hq2 := (hq g).2
  rw [← replay_freed, sim.freed]
  cases e : s.pc g <;> simp only [e, Pc.done, Bool.false_eq_true] at hd
  · cases hl : s.live g <;> simp [step, ha, run, e, hl] at hq1
  · cases hl : s.live g <;> simp [step, ha, run, e, hl] at hq1
  · simp [step, ha, e] at hq2
  · have hmn : s.main g = false := by
      cases hm : s.main g with
      | false => rfl
      | true => have := (hc.mn g hm).2.2.2; rw [hc.trm, e] at this; simp [Pc.over] at this
    have h1 := hc.free g (by simp [e]) hmn hh
    rw [e] at h1
    have h2 : s.live g = false := by
      cases hl : s.live g with
      | false => rfl
      | true => have := (hc.liv g).1 hl; rw [h1] at this; exact absurd this (by decide)
    simp [h2]

/-- The library never uses the memory of a fiber that was freed, and never frees a stack that is in use. -/
theorem memory_safe {s : State} {tr : List Obs} {f : Fid} (hr : Reach step init s tr) : .ub f ∉ tr := (reach_inv hr).2.2 f

/-! ## Concrete runs -/

/-- Fibers 0 (main) and 2 join fiber 1 through the same handle. -/
def twoJoiners : List Event :=
  [.thread 0, .call 0 (.spawn 0 1), .call 0 (.spawn 1 2), .call 0 (.join 0), .call 2 (.join 0), .elsewhere 1 3, .finish 1,
   .run 1, .run 2, .run 0, .run 0, .run 2, .run 1, .reap 1]

def twoJoinersTrace : List Obs :=
  [.called 0 (.spawn 0 1) (some 1), .ret 0 (.spawn 0 1) (some 1) .ok,
   .called 0 (.spawn 1 2) (some 2), .ret 0 (.spawn 1 2) (some 2) .ok,
   .called 0 (.join 0) (some 1), .called 2 (.join 0) (some 1), .returned 1, .terminated 1 [0, 2],
   .ret 0 (.join 0) (some 1) .ok, .ret 2 (.join 0) (some 1) .ok, .left 1, .freed 1]

theorem twoJoiners_reach : ∃ s, Reach step init s twoJoinersTrace := ⟨_, reach_of_exec (es := twoJoiners) rfl⟩

-- join_returns_after_function, finish_releases_joiners, freed_once, freed_after_end apply to this run
example : ∃ a b, twoJoinersTrace = a ++ .ret 2 (.join 0) (some 1) .ok :: b := ⟨twoJoinersTrace.take 9, _, rfl⟩
example : ∃ a b, twoJoinersTrace = a ++ .terminated 1 [0, 2] :: b := ⟨twoJoinersTrace.take 7, _, rfl⟩
example : ∃ a b, twoJoinersTrace = a ++ .freed 1 :: b := ⟨twoJoinersTrace.take 11, _, rfl⟩

-- joiners_return: fiber 1 has finished, fibers 0 and 2 are inside join
example : ∃ s tr, Reach step init s tr ∧ (∀ f op, .abort f op ∉ tr) ∧ .terminated 1 [0, 2] ∈ tr ∧
    inCall tr 0 = some (.join 0, some 1) ∧ inCall tr 2 = some (.join 0, some 1) :=
  ⟨_, _, reach_of_exec (es := twoJoiners.take 8) rfl, by simp, by decide, rfl, rfl⟩

-- joiner_not_stranded: fiber 1 is still running, nothing else can go on
example : ∃ s tr, Reach step init s tr ∧ (∀ f op, .abort f op ∉ tr) ∧ (∀ f, step s (.run f) = none) ∧
    inCall tr 0 = some (.join 0, some 1) := by
  refine ⟨_, _, reach_of_exec (es := twoJoiners.take 5) rfl, by simp, ?_, rfl⟩
  intro g
  by_cases h0 : g = 0
  · subst h0; rfl
  by_cases h1 : g = 1
  · subst h1; rfl
  by_cases h2 : g = 2
  · subst h2; rfl
  simp [step, run, upd, h0, h1, h2, init]

-- join_finished_does_not_block
example : ∃ s tr s1 o, Reach step init s tr ∧ .terminated 1 [] ∈ tr ∧ handles tr 0 = some (some 1) ∧
    step s (.call 0 (.join 0)) = some (s1, o) :=
  ⟨_, _, _, _, reach_of_exec (es := [.thread 0, .call 0 (.spawn 0 1), .finish 1, .run 1]) rfl, by decide, rfl, rfl⟩

/-- Handles move: fiber 1 is created through handle 0, moved to 1, swapped to 2, assigned back to 0. -/
def moves : List Event :=
  [.thread 0, .call 0 (.spawn 0 1), .call 0 (.move 0 1), .call 0 (.mkEmpty 2), .call 0 (.swap 1 2),
   .call 0 (.moveAssign 2 0), .call 0 (.destroy 1)]

example : ∃ s tr, Reach step init s tr ∧ handles tr 0 = some (some 1) ∧ handles tr 1 = none ∧ handles tr 2 = some none :=
  ⟨_, _, reach_of_exec (es := moves) rfl, rfl, rfl, rfl⟩

-- joinable_tells
example : ∃ s tr s' o, Reach step init s tr ∧ handles tr 0 = some (some 1) ∧ step s (.call 0 (.joinable 0)) = some (s', o) ∧
    .ret 0 (.joinable 0) (some 1) (.bool true) ∈ o := by
  refine ⟨_, _, _, _, reach_of_exec (es := moves) rfl, rfl, rfl, by decide⟩
example : ∃ s tr s' o, Reach step init s tr ∧ handles tr 2 = some none ∧ step s (.call 0 (.joinable 2)) = some (s', o) ∧
    .ret 0 (.joinable 2) none (.bool false) ∈ o := by
  refine ⟨_, _, _, _, reach_of_exec (es := moves) rfl, rfl, rfl, by decide⟩

-- join_self_throws: fiber 1 joins the handle that refers to it
example : ∃ s tr s' o, Reach step init s tr ∧ handles tr 0 = some (some 1) ∧ step s (.call 1 (.join 0)) = some (s', o) :=
  ⟨_, _, _, _, reach_of_exec (es := moves) rfl, rfl, rfl⟩

-- not_joinable_throws: joining twice
example : ∃ s tr s' o, Reach step init s tr ∧ handles tr 0 = some none ∧ step s (.call 0 (.join 0)) = some (s', o) :=
  ⟨_, _, _, _, reach_of_exec (es := twoJoiners) rfl, rfl, rfl⟩
example : ∃ s tr s' o, Reach step init s tr ∧ handles tr 2 = some none ∧ step s (.call 0 (.detach 2)) = some (s', o) :=
  ⟨_, _, _, _, reach_of_exec (es := moves) rfl, rfl, rfl⟩

-- abort_iff_loses, both ways; nothing_after_abort
example : ∃ s tr s' o, Reach step init s tr ∧ loses (handles tr) (.destroy 0) ∧
    step s (.call 0 (.destroy 0)) = some (s', o) ∧ .abort 0 (.destroy 0) ∈ o :=
  ⟨_, _, _, _, reach_of_exec (es := moves) rfl, ⟨1, rfl⟩, rfl, by decide⟩
example : ∃ s tr s' o, Reach step init s tr ∧ loses (handles tr) (.moveAssign 2 0) ∧
    step s (.call 0 (.moveAssign 2 0)) = some (s', o) ∧ .abort 0 (.moveAssign 2 0) ∈ o :=
  ⟨_, _, _, _, reach_of_exec (es := moves) rfl, ⟨1, rfl⟩, rfl, by decide⟩
example : ∃ s tr s' o, Reach step init s tr ∧ ¬ loses (handles tr) (.destroy 2) ∧ step s (.call 0 (.destroy 2)) = some (s', o) :=
  ⟨_, _, _, _, reach_of_exec (es := moves) rfl, (by rintro ⟨g, h⟩; cases h), rfl⟩
example : ∃ s tr, Reach step init s tr ∧ .abort 0 (.destroy 0) ∈ tr :=
  ⟨_, _, reach_of_exec (es := moves ++ [.call 0 (.destroy 0)]) rfl, by decide⟩

/-- A detached fiber is freed when the dispatcher releases it. -/
def detached : List Event :=
  [.thread 0, .call 0 (.spawn 0 1), .call 0 (.detach 0), .call 0 (.destroy 0), .finish 1, .run 1, .run 1, .reap 1]

def detachedTrace : List Obs :=
  [.called 0 (.spawn 0 1) (some 1), .ret 0 (.spawn 0 1) (some 1) .ok, .called 0 (.detach 0) (some 1),
   .ret 0 (.detach 0) (some 1) .ok, .called 0 (.destroy 0) none, .ret 0 (.destroy 0) none .ok, .returned 1,
   .terminated 1 [], .left 1, .freed 1]

-- no_leak
example : ∃ s tr, Reach step init s tr ∧ (∀ f op, .abort f op ∉ tr) ∧
    (∀ f, step s (.run f) = none ∧ step s (.reap f) = none) ∧ .returned 1 ∈ tr ∧ (∀ h, handles tr h ≠ some (some 1)) ∧
    .freed 1 ∈ tr := by
  have hr : Reach step init _ detachedTrace := reach_of_exec (es := detached) rfl
  refine ⟨_, _, hr, by simp [detachedTrace], ?_, by decide, (freed_after_end hr (a := detachedTrace.take 9) (b := []) rfl).2.2.2.2, by decide⟩
  intro g
  by_cases h0 : g = 0
  · subst h0; exact ⟨rfl, rfl⟩
  by_cases h1 : g = 1
  · subst h1; exact ⟨rfl, rfl⟩
  simp [step, run, upd, h0, h1, init, release, Pc.off, notifyAll]

end Verif.Fib
