import Verif.FutureProv

/-!
# Specification of handles

Which result each promise, task and future object refers to, as the interface promises it: computed from the
sequence of calls alone.
-/

namespace Verif.Fut

variable {V E : Type}

structure HSpec where
  obj  : Hid → Option (Kind × Option Sid)   -- the objects that exist, their kind and the result they refer to
  next : Sid                                -- results created so far
  got  : Sid → Bool                         -- its future has been retrieved

def HSpec.init : HSpec := { obj := fun _ => none, next := 0, got := fun _ => false }

/-- The result an object refers to. -/
def HSpec.ref (a : HSpec) (h : Hid) : Option Sid := (a.obj h).bind (·.2)

/-- The effect of one call. -/
def HSpec.apply (a : HSpec) : Op V E → HSpec
  | .mkPromise h => { a with obj := upd a.obj h (some (.promise, some a.next)), next := a.next + 1 }
  | .mkTask h => { a with obj := upd a.obj h (some (.task, some a.next)), next := a.next + 1 }
  | .mkEmpty k h => { a with obj := upd a.obj h (some (k, none)) }
  | .getFuture h h' => match a.ref h with
    | some i =>
      { a with obj := fun k => if k = h' ∧ a.got i = false then some (.future, some i) else a.obj k, got := upd a.got i true }
    | none => a
  | .reset h => match a.ref h with
    | some _ => { a with obj := upd a.obj h (some (.task, some a.next)), next := a.next + 1 }
    | none => a
  | .move h h' => { a with obj := upd (upd a.obj h' (a.obj h)) h ((a.obj h).map fun x => (x.1, none)) }
  | .share h h' => { a with obj := upd (upd a.obj h' (some (.shared, a.ref h))) h (some (.future, none)) }
  | .moveAssign h h' =>
    { a with obj := fun k =>
        if h = h' then a.obj k
        else if k = h then (a.obj h).map fun x => (x.1, none)
        else if k = h' then (a.obj h').map fun y => (y.1, a.ref h)
        else a.obj k }
  | .swap h h' => { a with obj := upd (upd a.obj h (a.obj h')) h' (a.obj h) }
  | .copy h h' | .copyAssign h h' => { a with obj := upd a.obj h' (a.obj h) }
  | .destroy h => { a with obj := upd a.obj h none }
  | .get h =>      -- a future is used up, a shared future is not
    { a with obj := fun k => if k = h ∧ (a.obj h).map (·.1) = some .future then some (.future, none) else a.obj k }
  | .setValue _ _ | .setExc _ _ | .invoke _ _ | .wait _ | .waitUntil _ _ | .getExc _ | .valid _ => a

def HSpec.obs (a : HSpec) : Obs V E → HSpec
  | .called _ op _ => a.apply op
  | _ => a

/-- The effect of the calls made so far. -/
def handles (tr : List (Obs V E)) : HSpec := tr.foldl HSpec.obs HSpec.init

/-- What a handle object looks like from outside. -/
def Handle.view (x : Handle) : Kind × Option Sid := (x.kind, x.st)

structure HSim (s : State V E) (a : HSpec) : Prop where
  obj  : ∀ h, a.obj h = (s.hd h).map Handle.view
  next : a.next = s.next
  got  : ∀ h x i, s.hd h = some x → x.kind.provider = true → x.st = some i → x.obtained = a.got i
  frs  : ∀ i, s.next ≤ i → a.got i = false

theorem HSim.objF {s : State V E} {a : HSpec} (h : HSim s a) : a.obj = fun k => (s.hd k).map Handle.view :=
  funext h.obj

theorem handles_append (t1 t2 : List (Obs V E)) : handles (t1 ++ t2) = t2.foldl HSpec.obs (handles t1) :=
  List.foldl_append

theorem foldl_quiet {a : HSpec} {o : List (Obs V E)} (h : ∀ f op i, .called f op i ∉ o) : o.foldl HSpec.obs a = a := by
  induction o generalizing a with
  | nil => rfl
  | cons x l ih =>
    have hx : a.obs x = a := by
      unfold HSpec.obs; split
      · exact absurd (List.mem_cons_self ..) (h _ _ _)
      · rfl
    rw [List.foldl_cons, hx]
    exact ih fun f op i hm => h f op i (List.mem_cons_of_mem _ hm)

set_option maxHeartbeats 2000000 in
theorem hsim_call {s s' : State V E} {a : HSpec} {f : Fid} {op : Op V E} {o : List (Obs V E)} (h : HSim s a)
    (hp : Prov s a.got) (hc : Core s none) (hs : call false s f op = some (s', o)) : HSim s' (a.apply op) := by
  obtain ⟨ho, hn, hg, hf⟩ := h
  have hlt : ∀ h x i, s.hd h = some x → x.st = some i → i < s.next := by
    intro h x i h1 h2; exact hc.hold_lt (o := .inl h) (by simp [holdOf, State.stOf, h1, h2])
  have hnu := hp.null
  have hun := hp.uniq
  clear hp hc
  simp only [call] at hs
  split at hs
  · rename_i hnone
    cases op <;> simp only [reduceCtorEq, ret, create] at hs
    all_goals (try split at hs) <;> try (simp only [reduceCtorEq] at hs; done)
    all_goals
      simp only [Option.some.injEq, Prod.mk.injEq] at hs
      obtain ⟨rfl, rfl⟩ := hs
      simp only [Op.subject] at hnone
      constructor <;> simp only [HSpec.apply, upd] <;> grind [Handle.view]
  · rename_i x hx
    generalize hk : op.subject = k at hs hx
    obtain ⟨xk, xo, xs⟩ := x
    have hax : a.obj k = some (xk, xs) := by rw [ho, hx]; rfl
    have hay : ∀ k y, s.hd k = some y → a.obj k = some (y.kind, y.st) := by intro k y hy; rw [ho, hy]; rfl
    cases xs <;> cases op <;> simp only [Op.subject] at hk <;> subst hk <;>
      simp only [callOn, ret, start, discard, create] at hs
    all_goals (repeat' split at hs) <;> try (simp only [reduceCtorEq] at hs; done)
    all_goals
      simp only [Option.some.injEq, Prod.mk.injEq] at hs
      obtain ⟨rfl, rfl⟩ := hs
    all_goals (try (rename_i heq2; (repeat' split at heq2) <;> simp only [Option.some.injEq, Prod.mk.injEq] at heq2 <;>
      obtain ⟨rfl, rfl⟩ := heq2))
    all_goals
      simp only [HSpec.apply, HSpec.ref, hax, Option.map_some, Option.bind_some]
    all_goals
      constructor <;> (try simp only [upd, release_hd, addRef_hd, release_next, addRef_next])
    all_goals first
      | assumption
      | grind [Handle.view, prov_promise, prov_task, prov_future, prov_shared]

theorem no_called_run {s s' : State V E} {f : Fid} {o : List (Obs V E)} (hs : run s f = some (s', o)) :
    ∀ g op i, .called g op i ∉ o := by
  have hrel : ∀ (s : State V E) i g op j, .called g op j ∉ (release s i).2 := by
    intro s i g op j; unfold release; split <;> (try split) <;> simp
  have hfin : ∀ {s2 : State V E} {op : Op V E} {u : Use} {i : Sid} {r : Res V E} {q : List (Obs V E)},
      finish s2 f op u i r q = some (s', o) → (∀ g op i, .called g op i ∉ q) → ∀ g op i, .called g op i ∉ o := by
    intro s2 op u i r q h1 h2
    cases u <;> simp only [finish, Option.some.injEq, Prod.mk.injEq] at h1 <;> obtain ⟨rfl, rfl⟩ := h1 <;> simp [h2, hrel]
  simp only [run] at hs
  split at hs
  · simp at hs
  · split at hs
    · unfold runLive at hs
      repeat' split at hs
      all_goals first
        | (simp only [reduceCtorEq] at hs; done)
        | exact hfin hs (by simp)
        | (simp only [Option.some.injEq, Prod.mk.injEq] at hs; obtain ⟨rfl, rfl⟩ := hs; simp; done)
    · simp only [Option.some.injEq, Prod.mk.injEq] at hs
      obtain ⟨rfl, rfl⟩ := hs
      simp

theorem no_called_call {s s' : State V E} {lax : Bool} {f : Fid} {op : Op V E} {o : List (Obs V E)}
    (hs : call lax s f op = some (s', o)) : ∀ g op i, .called g op i ∉ o := by
  have hrel : ∀ (s : State V E) i g op j, .called g op j ∉ (release s i).2 := by
    intro s i g op j; unfold release; split <;> (try split) <;> simp
  have hadd : ∀ (s : State V E) i g op j, .called g op j ∉ (addRef s i).2 := by
    intro s i g op j; unfold addRef; split <;> simp
  simp only [call] at hs
  split at hs
  · cases op <;> simp only [reduceCtorEq, ret, create] at hs
    all_goals (try split at hs) <;> try (simp only [reduceCtorEq] at hs; done)
    all_goals
      simp only [Option.some.injEq, Prod.mk.injEq] at hs
      obtain ⟨rfl, rfl⟩ := hs
      simp
  · generalize hk : op.subject = k at hs
    cases op <;> simp only [callOn, ret, start, discard] at hs
    all_goals (repeat' split at hs) <;> try (simp only [reduceCtorEq] at hs; done)
    all_goals
      simp only [Option.some.injEq, Prod.mk.injEq] at hs
      obtain ⟨rfl, rfl⟩ := hs
    all_goals (try (rename_i heq2; (repeat' split at heq2) <;> simp only [Option.some.injEq, Prod.mk.injEq] at heq2 <;>
      obtain ⟨rfl, rfl⟩ := heq2))
    all_goals simp [hrel, hadd]

theorem reach_handles {s : State V E} {tr : List (Obs V E)} (h : Reach (step false) init s tr) : HSim s (handles tr) := by
  refine Reach.inv (fun s tr => HSim s (handles tr)) ?_ ?_ h
  · constructor <;> simp [handles, HSpec.init, init]
  · intro s tr e s' o hr ih hs
    rw [handles_append]
    cases e with
    | call f op =>
      simp only [step] at hs
      split at hs <;> try (simp only [reduceCtorEq] at hs; done)
      split at hs
      · simp at hs
      · rename_i s2 o2 h2
        simp only [Option.some.injEq, Prod.mk.injEq] at hs
        obtain ⟨rfl, rfl⟩ := hs
        obtain ⟨sp, -, hsim⟩ := reach_sim hr
        have hp : Prov s (handles tr).got :=
          ⟨hsim.prov.uniq, ih.got, hsim.prov.recv, hsim.prov.null, ih.frs⟩
        rw [List.foldl_cons, foldl_quiet (no_called_call h2)]
        exact hsim_call ih hp (reach_core hr) h2
    | run f =>
      rw [foldl_quiet (no_called_run hs)]
      obtain ⟨e1, e2, -⟩ := run_prov hs
      exact ⟨by rw [e1]; exact ih.obj, by rw [e2]; exact ih.next, by rw [e1]; exact ih.got, by rw [e2]; exact ih.frs⟩
    | timer f =>
      simp only [step] at hs
      repeat' split at hs
      all_goals try (simp only [reduceCtorEq] at hs; done)
      simp only [Option.some.injEq, Prod.mk.injEq] at hs
      obtain ⟨rfl, rfl⟩ := hs
      exact ⟨ih.obj, ih.next, ih.got, ih.frs⟩
    | tick n =>
      simp only [step, Option.some.injEq, Prod.mk.injEq] at hs
      obtain ⟨rfl, rfl⟩ := hs
      exact ⟨ih.obj, ih.next, ih.got, ih.frs⟩
    | elsewhere f n =>
      simp only [step] at hs
      split at hs <;> try (simp only [reduceCtorEq] at hs; done)
      simp only [Option.some.injEq, Prod.mk.injEq] at hs
      obtain ⟨rfl, rfl⟩ := hs
      exact ⟨ih.obj, ih.next, ih.got, ih.frs⟩

theorem called_head {s s' : State V E} {e : Event V E} {o : List (Obs V E)} (hs : step false s e = some (s', o)) :
    (∀ g op i, .called g op i ∉ o) ∨
      ∃ f op o', e = .call f op ∧ o = .called f op (sidOf s op) :: o' ∧ ∀ g op i, .called g op i ∉ o' := by
  cases e with
  | call f op =>
    right
    simp only [step] at hs
    split at hs <;> try (simp only [reduceCtorEq] at hs; done)
    split at hs
    · simp at hs
    · rename_i s2 o2 h2
      simp only [Option.some.injEq, Prod.mk.injEq] at hs
      obtain ⟨rfl, rfl⟩ := hs
      exact ⟨f, op, o2, rfl, rfl, no_called_call h2⟩
  | run f => exact .inl (no_called_run hs)
  | timer f =>
    left
    simp only [step] at hs
    repeat' split at hs
    all_goals try (simp only [reduceCtorEq] at hs; done)
    simp only [Option.some.injEq, Prod.mk.injEq] at hs
    obtain ⟨rfl, rfl⟩ := hs
    simp
  | tick n =>
    left
    simp only [step, Option.some.injEq, Prod.mk.injEq] at hs
    obtain ⟨rfl, rfl⟩ := hs
    simp
  | elsewhere f n =>
    left
    simp only [step] at hs
    split at hs <;> try (simp only [reduceCtorEq] at hs; done)
    simp only [Option.some.injEq, Prod.mk.injEq] at hs
    obtain ⟨rfl, rfl⟩ := hs
    simp

/-- The state in which a call of the trace was made. -/
theorem reach_called {s : State V E} {a b : List (Obs V E)} {f : Fid} {op : Op V E} {i : Option Sid}
    (h : Reach (step false) init s (a ++ .called f op i :: b)) :
    ∃ s0 s1 o, Reach (step false) init s0 a ∧ step false s0 (.call f op) = some (s1, o) ∧ i = sidOf s0 op := by
  generalize hl : a ++ .called f op i :: b = l at h
  induction h generalizing b with
  | refl => have := congrArg List.length hl; simp at this
  | tail e hr hs ih =>
    rename_i s1 s2 tr o
    rcases List.append_eq_append_iff.1 hl with ⟨c, rfl, h2⟩ | ⟨c, rfl, h2⟩
    · cases c with
      | nil =>
        simp only [List.nil_append] at h2
        subst h2
        rcases called_head hs with h3 | ⟨f', op', o', rfl, h3, -⟩
        · exact absurd (List.mem_cons_self ..) (h3 _ _ _)
        · simp only [List.cons.injEq, Obs.called.injEq] at h3
          obtain ⟨⟨rfl, rfl, rfl⟩, rfl⟩ := h3
          exact ⟨s1, s2, _, by simpa using hr, hs, rfl⟩
      | cons x c =>
        simp only [List.cons_append, List.cons.injEq] at h2
        obtain ⟨rfl, rfl⟩ := h2
        exact ih rfl
    · rcases called_head hs with h3 | ⟨f', op', o', rfl, h3, h4⟩
      · exact absurd (by rw [h2]; simp) (h3 f op i)
      · rw [h3] at h2
        cases c with
        | nil =>
          simp only [List.nil_append, List.cons.injEq, Obs.called.injEq] at h2
          obtain ⟨⟨rfl, rfl, rfl⟩, rfl⟩ := h2
          exact ⟨s1, s2, _, by simpa using hr, hs, rfl⟩
        | cons x c =>
          simp only [List.cons_append, List.cons.injEq] at h2
          obtain ⟨-, rfl⟩ := h2
          exact absurd (by simp) (h4 f op i)

end Verif.Fut
