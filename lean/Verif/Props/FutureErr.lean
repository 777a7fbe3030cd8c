import Verif.FutureErr

/-!
# C127: the errors of futures can be told apart
-/

namespace Verif.Props.FutureErr
open Verif Verif.FutureErr

/-- The specification: why an operation on futures failed. -/
inductive Reason
  | abandoned       -- the promise was destroyed before a result was stored
  | retrieved       -- `get_future` was called twice
  | satisfied       -- a result was stored twice
  | noState         -- the object has no shared state
  deriving DecidableEq

/-- The reason an exception stands for. -/
def reason : Exc → Reason
  | .broken_promise => .abandoned
  | .future_already_retrieved => .retrieved
  | .promise_already_satisfied => .satisfied
  | .future_uninitialized | .promise_uninitialized | .packaged_task_uninitialized => .noState

/-- The reason an enumerator stands for. -/
def meaning : Errc → Reason
  | .broken_promise => .abandoned
  | .future_already_retrieved => .retrieved
  | .promise_already_satisfied => .satisfied
  | .no_state => .noState

theorem defaultCond_eq (v : Int) : defaultCond v = ⟨v, .future⟩ := by
  simp only [defaultCond, Errc.toInt]; repeat' split
  all_goals simp_all

/-- A code of futures, of any value, equals a condition of futures, of any value, exactly if the values are equal. -/
theorem eq_iff (W : World) (v w : Int) : eqCond W ⟨v, .future⟩ ⟨w, .future⟩ = true ↔ v = w := by
  simp [eqCond, equivalentInt, equivalentCode, defaultCond_eq]

/-- Comparing the code of an exception with an enumerator tells why the operation failed. -/
theorem told_apart (W : World) (x : Exc) (e : Errc) : eqCond W x.code (makeCond e) = true ↔ reason x = meaning e := by
  cases x <;> cases e <;> simp [Exc.code, makeCode, makeCond, eq_iff, Errc.toInt, reason, meaning]

/-- A code of another category with the same value is not taken for an error of futures, unless this category says so. -/
theorem not_confused (W : World) (n : Nat) (v w : Int) (h : W.equivInt n v ⟨w, .future⟩ = false) : eqCond W ⟨v, .other n⟩ ⟨w, .future⟩ = false := by
  simp [eqCond, equivalentInt, equivalentCode, h]

/-- An error of futures is not taken for a condition of another category, unless this category says so. -/
theorem not_foreign (W : World) (n : Nat) (v w : Int) (h : W.equivCode n ⟨v, .future⟩ w = false) : eqCond W ⟨v, .future⟩ ⟨w, .other n⟩ = false := by
  simp [eqCond, equivalentInt, equivalentCode, defaultCond_eq, h]

/-- Messages of different reasons are different, and no value that is not an error of futures has one of these messages. -/
theorem message_tells (e : Errc) (v : Int) : message v = message e.toInt ↔ v = e.toInt := by
  constructor
  · intro h
    by_cases h1 : v = 1
    · subst h1; revert h; cases e <;> decide
    by_cases h2 : v = 2
    · subst h2; revert h; cases e <;> decide
    by_cases h3 : v = 3
    · subst h3; revert h; cases e <;> decide
    by_cases h4 : v = 4
    · subst h4; revert h; cases e <;> decide
    have hm : message v = "unspecified future_errc value\n" := by simp [message, h1, h2, h3, h4]
    rw [hm] at h; exfalso; revert h; cases e <;> decide
  · intro h; rw [h]

/-! ## Examples -/

/-- A category like `std::generic_category`: equal if the values and categories are. -/
def plain : World := { equivInt := fun n v c => c = ⟨v, .other n⟩, equivCode := fun n c v => c = ⟨v, .other n⟩ }

-- `not_confused`, `not_foreign`: `EPERM` has the value of `broken_promise`
example : plain.equivInt 0 1 (makeCond .broken_promise) = false ∧ plain.equivCode 0 (makeCode .broken_promise) 1 = false ∧
    eqCond plain ⟨1, .other 0⟩ ⟨1, .other 0⟩ = true := by decide

-- `told_apart`, `eq_iff`, `message_tells`
example : eqCond plain Exc.broken_promise.code (makeCond .broken_promise) = true ∧ eqCond plain Exc.broken_promise.code (makeCond .no_state) = false ∧
    message 7 ≠ message Errc.no_state.toInt := by decide

end Verif.Props.FutureErr
