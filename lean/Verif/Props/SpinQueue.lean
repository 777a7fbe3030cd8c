import Verif.SpinQueue

/-!
# The work-stealing ready queue is a FIFO queue (C50)

`spec` / `specRun` (`Verif/SpinQueue.lean`): the FIFO queue. Histories of any length, over any element type.
-/

namespace Verif.SpinQ

variable {α : Type} {pinned : α → Bool}

theorem run_rep {q : Q α} {l : List α} (h : Rep q l) (ops : List (Op α)) :
    (q.run pinned ops).2 = (specRun pinned l ops).2 ∧ Rep (q.run pinned ops).1 (specRun pinned l ops).1 := by
  induction ops generalizing q l with
  | nil => exact ⟨rfl, h⟩
  | cons op ops ih =>
    have h1 := step_rep (pinned := pinned) h op
    have h2 := ih h1.2
    simp only [Q.run, specRun]
    exact ⟨by rw [h1.1, h2.1], h2.2⟩

/-- For every initial capacity and every history the results are those of an unbounded FIFO queue (in particular
nothing undefined happens). -/
theorem is_fifo {cap : Nat} (h : 0 < cap) (ops : List (Op α)) :
    ((make α cap).run pinned ops).2 = (specRun pinned [] ops).2 :=
  (run_rep (rep_make h) ops).1

/-- A queue constructed with capacity 0 cannot be used. (The library always uses the default, 4096.) -/
theorem capacity_zero (x : α) : ((make α 0).run pinned [.push x]).2 = [.ub] := rfl

/-- The elements pushed / obtained in a history. -/
def pushed : List (Op α) → List α
  | [] => []
  | .push x :: ops => x :: pushed ops
  | _ :: ops => pushed ops

def taken : List (Res α) → List α
  | [] => []
  | .got x :: rs => x :: taken rs
  | _ :: rs => taken rs

theorem spec_conserves (l : List α) (ops : List (Op α)) :
    l ++ pushed ops = taken (specRun pinned l ops).2 ++ (specRun pinned l ops).1 := by
  induction ops generalizing l with
  | nil => simp [specRun, pushed, taken]
  | cons op ops ih =>
    cases op with
    | push x => simp only [specRun, spec, pushed, taken]; rw [← ih]; simp
    | pop => cases l with
      | nil => simp only [specRun, spec, pushed, taken]; rw [← ih]
      | cons x l => simp only [specRun, spec, pushed, taken, List.cons_append]; rw [← ih]
    | steal => cases l with
      | nil => simp only [specRun, spec, pushed, taken]; rw [← ih]
      | cons x l =>
        simp only [specRun, spec, pushed]
        split
        · simp only [taken]; rw [← ih]
        · simp only [taken, List.cons_append]; rw [← ih]
    | empty => simp only [specRun, spec, pushed, taken]; rw [← ih]

/-- Nothing is lost, duplicated or reordered: what was obtained, followed by what the queue still holds (the next pops
will return it), is what was pushed, in the same order. -/
theorem conserves {cap : Nat} (h : 0 < cap) (ops : List (Op α)) :
    ∃ rest, pushed ops = taken ((make α cap).run pinned ops).2 ++ rest ∧
      ((make α cap).run pinned (ops ++ List.replicate (rest.length + 1) .pop)).2 =
        ((make α cap).run pinned ops).2 ++ rest.map .got ++ [.none] := by
  refine ⟨(specRun pinned [] ops).1, ?_, ?_⟩
  · rw [is_fifo h]; exact spec_conserves [] ops
  · rw [is_fifo h, is_fifo h]
    have app : ∀ (l : List α) a b, (specRun pinned l (a ++ b)).2 = (specRun pinned l a).2 ++ (specRun pinned (specRun pinned l a).1 b).2 := by
      intro l a b
      induction a generalizing l with
      | nil => rfl
      | cons o a ih => simp only [List.cons_append, specRun, ih]
    rw [app, List.append_assoc]
    congr 1
    generalize (specRun pinned [] ops).1 = l
    induction l with
    | nil => rfl
    | cons x l ih => rw [List.length_cons, List.replicate_succ]; simp only [specRun, spec, ih]; rfl

/-- `steal` never returns a pinned element, and takes the front if that may migrate. -/
theorem steal_front {q : Q α} {x : α} {l : List α} (h : Rep q (x :: l)) :
    (q.step pinned .steal).2 = if pinned x then .none else .got x := by
  rw [(step_rep h .steal).1]; simp only [spec]; split <;> rfl

theorem steal_not_pinned {cap : Nat} (h : 0 < cap) (ops : List (Op α)) {x : α}
    (hs : (((make α cap).run pinned ops).1.step pinned .steal).2 = .got x) : pinned x = false := by
  have hr := (run_rep (pinned := pinned) (rep_make (α := α) h) ops).2
  rw [(step_rep hr .steal).1] at hs
  generalize (specRun pinned [] ops).1 = l at hs
  cases l with
  | nil => simp [spec] at hs
  | cons y l =>
    simp only [spec] at hs
    split at hs
    · simp at hs
    · rename_i hp
      simp only [Res.got.injEq] at hs; subst hs; exact Bool.eq_false_iff.2 hp

/-- Capacity 2: the queue grows twice, once when the contents wrap around; 9 is pinned. -/
example : ((make Nat 2).run (· == 9) [.push 1, .pop, .push 2, .push 9, .push 3, .push 4, .empty, .steal, .steal, .pop, .steal, .push 5, .pop, .pop, .pop, .empty]).2 =
    [.unit, .got 1, .unit, .unit, .unit, .unit, .bool false, .got 2, .none, .got 9, .got 3, .unit, .got 4, .got 5, .none, .bool true] := by decide

example : (((make Nat 2).run (· == 9) [.push 1, .pop, .push 2]).1.step (· == 9) .steal).2 = .got 2 := by decide

end Verif.SpinQ
