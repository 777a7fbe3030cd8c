import Verif.SetAlgo

/-!
# Changing the algorithm keeps all ready fibers (C46)
-/

namespace Verif.SetAlgo

open Verif.Sch (Cx)
open Verif.Multi (pinned)

variable {s s' : State} {tr : List Obs} {old new : Kind} {q sh : List Cx}

/-- The order in which the old algorithm would run the fibers. -/
def order (old : Kind) (q sh : List Cx) : List Cx :=
  match old with
  | .rr | .steal => q
  | .shared => sh ++ q

/-- The fibers handed over, in order. -/
def moved : List Obs → List Cx
  | [] => []
  | .moved x :: r => x :: moved r
  | _ :: r => moved r

theorem moved_append (a b : List Obs) : moved (a ++ b) = moved a ++ moved b := by
  induction a with
  | nil => rfl
  | cons o a ih => cases o <;> simp [moved, ih]

/-! ## From `round_robin`: complete, whatever other threads do -/

theorem rr_step (h : s.old = .rr) (hp : s.pc = .move → s.oldQ ≠ []) (hd : s.pc = .done → s.oldQ = []) (hn : s.pc ≠ .dead)
    {e : Event} {o : List Obs} (hs : step s e = some (s', o)) :
    (s'.old = .rr ∧ (s'.pc = .move → s'.oldQ ≠ []) ∧ (s'.pc = .done → s'.oldQ = []) ∧ s'.pc ≠ .dead) ∧
    moved o ++ s'.oldQ = s.oldQ ∧ .null ∉ o ∧ (.finished ∈ o → s'.oldQ = [] ∧ s'.pc = .done) := by
  obtain ⟨old, new, pc, oq, nq, sq⟩ := s
  simp only at h hp hd hn
  subst h
  cases e with
  | go => cases pc <;> cases oq <;> cases new <;> simp_all [step, loop, ready, pick, awaken] <;> grind [moved]
  | found x => simp [step] at hs
  | take => cases sq <;> simp_all [step]; obtain ⟨rfl, rfl⟩ := hs; simp_all [moved]
  | thief => simp [step] at hs
  | put x =>
    simp only [step] at hs
    split at hs
    · simp at hs
    · simp only [Option.some.injEq, Prod.mk.injEq] at hs
      obtain ⟨rfl, rfl⟩ := hs
      simp_all [moved]

theorem rr_inv (h : Reach step (init .rr new q sh) s tr) :
    (s.old = .rr ∧ (s.pc = .move → s.oldQ ≠ []) ∧ (s.pc = .done → s.oldQ = []) ∧ s.pc ≠ .dead) ∧
    moved tr ++ s.oldQ = q ∧ .null ∉ tr ∧ (.finished ∈ tr → s.oldQ = []) := by
  induction h with
  | refl => simp [init, moved]
  | tail e _ hs ih =>
    obtain ⟨⟨h1, h2, h3, h4⟩, h5, h6, h7⟩ := ih
    have := rr_step h1 h2 h3 h4 hs
    refine ⟨this.1, ?_, by simp [h6, this.2.2.1], ?_⟩
    · rw [moved_append, List.append_assoc, this.2.1, h5]
    · intro hf
      rcases List.mem_append.1 hf with hf | hf
      · have h8 := h7 hf; have h9 := this.2.1; rw [h8] at h9; exact (List.append_eq_nil_iff.1 h9).2
      · exact (this.2.2.2 hf).1

/-- At every moment, with any new algorithm and whatever other threads do: the fibers handed over so far, followed by
those still queued, are the fibers that were ready, in order; `nullptr` is never handed over … -/
theorem from_rr (h : Reach step (init .rr new q sh) s tr) : moved tr ++ s.oldQ = q ∧ .null ∉ tr :=
  ⟨(rr_inv h).2.1, (rr_inv h).2.2.1⟩

/-- … when the change is finished all were handed over, once each and in order. -/
theorem from_rr_finished (h : Reach step (init .rr new q sh) s tr) (hf : .finished ∈ tr) : moved tr = q := by
  have := rr_inv h
  simpa [this.2.2.2 hf] using this.2.1

/-- What `set_algo` still has to do. -/
def left (s : State) : Nat :=
  match s.pc with
  | .test => 2 * s.oldQ.length + 1
  | .move => 2 * s.oldQ.length
  | _ => 0

/-- It does finish: each of its calls brings it nearer to the end, nothing that others do takes it away from it, and it
is never stuck. -/
theorem from_rr_progress (h : Reach step (init .rr new q sh) s tr) :
    (left s ≠ 0 → ∃ s' o, step s .go = some (s', o) ∧ left s' + 1 = left s) ∧
    (∀ e s' o, step s e = some (s', o) → left s' ≤ left s) ∧ (left s = 0 → s.pc = .done) := by
  obtain ⟨⟨h1, h2, h3, h4⟩, h5, -⟩ := rr_inv h
  clear h h5
  obtain ⟨old, new, pc, oq, nq, sq⟩ := s
  simp only at h1 h2 h3 h4
  subst h1
  refine ⟨?_, ?_, ?_⟩
  · intro _
    cases pc with
    | test => cases oq <;> simp_all [step, loop, ready, left]
    | move =>
      cases oq with
      | nil => simp at h2
      | cons x q =>
        simp only [step, loop, pick, Option.some.injEq, Prod.mk.injEq]
        refine ⟨_, _, ⟨rfl, rfl⟩, ?_⟩
        cases new <;> simp only [left, awaken, List.length_cons] <;> (try split) <;> (try simp only) <;> omega
    | done => simp_all [left]
    | dead => simp at h4
  · intro e s' o hs
    cases e with
    | go => cases pc <;> cases oq <;> cases new <;> simp_all [step, loop, ready, pick, awaken, left] <;> grind
    | found x => simp [step] at hs
    | take => cases sq <;> simp_all [step]; obtain ⟨rfl, rfl⟩ := hs; cases pc <;> simp [left]
    | thief => simp [step] at hs
    | put x =>
      simp only [step] at hs
      split at hs
      · simp at hs
      · simp only [Option.some.injEq, Prod.mk.injEq] at hs
        obtain ⟨rfl, rfl⟩ := hs
        cases pc <;> simp [left]
  · intro hz; cases pc <;> simp only [left] at hz <;> cases oq <;> simp_all

/-! ## From `shared_work` or `work_stealing` -/

theorem quiet {l : List Cx} (hn : old = .shared → new ≠ .shared) (ho : s.old = old) (hn' : s.new = new) (hp : s.pc = .test)
    (hl : order old s.oldQ s.shared = l) :
    ∃ s', exec step s (List.replicate (2 * l.length + 1) .go) = some (s', l.map .moved ++ [.finished]) := by
  induction l generalizing s with
  | nil =>
    have : ready s = false := by cases old <;> simp_all [ready, order]
    exact ⟨{ s with pc := .done }, by simp [exec, step, loop, hp, this]⟩
  | cons x l ih =>
    have hr : ready s = true := by
      cases old <;> simp_all [ready, order]
      cases hq : s.shared with
      | nil => right; intro h; simp [hq, h] at hl
      | cons => simp
    obtain ⟨s1, h1, h2, h3, h4⟩ : ∃ s1, pick { s with pc := .move } none = (some x, s1) ∧ s1.old = old ∧ s1.new = new ∧
        order old s1.oldQ s1.shared = l := by
      obtain ⟨old', new', pc, oq, nq, sq⟩ := s
      simp only at ho hn' hl
      subst ho hn'
      cases old' with
      | rr => simp only [order] at hl; subst hl; simp [pick, order]
      | steal => simp only [order] at hl; subst hl; simp [pick, order]
      | shared =>
        cases sq with
        | nil => simp only [order, List.nil_append] at hl; subst hl; simp [pick, order]
        | cons y sq => simp only [order, List.cons_append, List.cons.injEq] at hl; obtain ⟨rfl, rfl⟩ := hl; simp [pick, order]
    have h5 : order old (awaken s1 x).oldQ (awaken s1 x).shared = l := by
      cases new <;> simp only [awaken, h3] <;> (try exact h4)
      split
      · exact h4
      · cases old <;> simp_all [order]
    obtain ⟨s', h6⟩ := ih (s := { awaken s1 x with pc := .test }) (by simp only [awaken]; split <;> (try split) <;> exact h2)
      (by simp only [awaken]; split <;> (try split) <;> exact h3) rfl h5
    refine ⟨s', ?_⟩
    have e1 : step s .go = some ({ s with pc := .move }, []) := by simp [step, loop, hp, hr]
    have e2 : step { s with pc := .move } .go = some ({ awaken s1 x with pc := .test }, [.moved x]) := by simp [step, loop, h1]
    rw [show 2 * (x :: l).length + 1 = (2 * l.length + 1) + 1 + 1 by simp only [List.length_cons]; omega, List.replicate_succ, List.replicate_succ]
    simp only [exec, e1, e2, h6, List.map, List.nil_append, List.cons_append]

/-- If no other thread takes from the queues meanwhile, every change (except from `shared_work` to `shared_work`) hands
over every ready fiber, once each, in the order in which the old algorithm would have run them, and finishes.
Missing: other threads, and `shared_work` to `shared_work`, see below. -/
theorem keeps_all_partial (hn : old = .shared → new ≠ .shared) :
    ∃ s tr, Reach step (init old new q sh) s tr ∧ tr = (order old q sh).map .moved ++ [.finished] := by
  obtain ⟨s, h⟩ := quiet (s := init old new q sh) (l := order old q sh) hn rfl rfl rfl rfl
  exact ⟨s, _, reach_of_exec h, rfl⟩

/-- From `shared_work` to `shared_work` (`use_scheduling_algorithm< shared_work>()` called again) fibers are handed over
again and again, and the call never returns, if a worker fiber is in the shared queue: the old and the new algorithm
use the same queue. -/
theorem shared_to_shared (hs : ∀ x ∈ sh, pinned x = false) (hne : sh ≠ []) (k : Nat) :
    ∃ s tr, exec step (init .shared .shared q sh) (List.replicate k .go) = some (s, tr) ∧ .finished ∉ tr := by
  have key : ∀ (k : Nat) (s : State), s.old = .shared → s.new = .shared → s.shared ≠ [] → (∀ x ∈ s.shared, pinned x = false) →
      (s.pc = .test ∨ s.pc = .move) → ∃ s' tr, exec step s (List.replicate k .go) = some (s', tr) ∧ .finished ∉ tr := by
    intro k
    induction k with
    | zero => intro s _ _ _ _ _; exact ⟨s, [], rfl, by simp⟩
    | succ k ih =>
      intro s h1 h2 h3 h4 h5
      obtain ⟨old, new, pc, oq, nq, sq⟩ := s
      simp only at h1 h2 h3 h4 h5
      subst h1 h2
      cases sq with
      | nil => simp at h3
      | cons x sq =>
        rw [List.replicate_succ]
        rcases h5 with rfl | rfl
        · obtain ⟨s', tr, h6, h7⟩ := ih ⟨.shared, .shared, .move, oq, nq, x :: sq⟩ rfl rfl (by simp) h4 (.inr rfl)
          exact ⟨s', [] ++ tr, by simp [exec, step, loop, ready, h6], by simpa using h7⟩
        · have hx := h4 x (List.mem_cons_self ..)
          obtain ⟨s', tr, h6, h7⟩ := ih ⟨.shared, .shared, .test, oq, nq, sq ++ [x]⟩ rfl rfl (by simp)
            (fun y hy => by rcases List.mem_append.1 hy with hy | hy
                            · exact h4 y (List.mem_cons_of_mem _ hy)
                            · simp at hy; subst hy; exact hx) (.inl rfl)
          exact ⟨s', [.moved x] ++ tr, by simp [exec, step, loop, pick, awaken, hx, h6], by simpa using h7⟩
  exact key k _ rfl rfl hne hs (.inl rfl)

/-- For example, a single worker is handed over twice after four calls. -/
theorem shared_to_shared_twice :
    ∃ s, exec step (init .shared .shared [.disp 0] [.work 0]) (List.replicate 4 .go) = some (s, [.moved (.work 0), .moved (.work 0)]) :=
  ⟨_, rfl⟩

/-- From `shared_work`: another thread takes the last worker between `has_ready_fibers()` and `pick_next()`; the new
algorithm gets `nullptr`. -/
theorem shared_race : ∃ s tr, Reach step (init .shared .rr [] [.work 0]) s tr ∧ .null ∈ tr :=
  ⟨_, [.taken (.work 0), .null], reach_of_exec (es := [.go, .take, .go]) rfl, by decide⟩

/-- The same from `work_stealing`. -/
theorem steal_race : ∃ s tr, Reach step (init .steal .rr [.work 0] []) s tr ∧ .null ∈ tr :=
  ⟨_, [.taken (.work 0), .null], reach_of_exec (es := [.go, .thief, .go]) rfl, by decide⟩

/-! ## Examples -/

-- `from_rr`, `from_rr_finished`, `from_rr_progress`: from `round_robin` to `shared_work` while another thread takes what arrives there
example : ∃ s tr, Reach step (init .rr .shared [.disp 0, .work 0, .work 1] [.work 2]) s tr ∧ .finished ∈ tr ∧
    tr = [.moved (.disp 0), .taken (.work 2), .moved (.work 0), .taken (.work 0), .moved (.work 1), .finished] :=
  ⟨_, _, reach_of_exec (es := [.go, .go, .take, .go, .go, .take, .go, .go, .go]) rfl, by decide, rfl⟩

-- `keeps_all_partial`: from `shared_work` to `work_stealing`
example : (Kind.shared = .shared → Kind.steal ≠ .shared) ∧ order .shared [.disp 0, .main 0] [.work 1, .work 0] = [.work 1, .work 0, .disp 0, .main 0] :=
  ⟨fun _ => by decide, rfl⟩

-- `shared_to_shared`
example : (∀ x ∈ [Cx.work 0, .work 1], pinned x = false) ∧ [Cx.work 0, .work 1] ≠ [] := by decide

end Verif.SetAlgo
