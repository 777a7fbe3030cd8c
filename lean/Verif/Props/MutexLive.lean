import Verif.MutexLive

/-!
# Property C115: `try_lock`, `unlock` and timed attempts on a mutex return

`Run` and `Run.Fair` (whoever can go on goes on) are in `Verif/Fair.lean`. `r.Fair Event.timer`: the scheduler wakes fibers whose deadline has
passed.
-/

namespace Verif.Props.MutexLive

open Verif.Mutex

variable {k : Kind} {r : Verif.Run (step k) init}

/-- **C115.** `try_lock()` returns, or reports that the caller has the mutex already. -/
theorem try_lock_returns (hf : r.Fair Event.run) {i : Nat} {f : Fid} (hc : .called f .tryLock ∈ r.ob i) :
    ∃ j, i < j ∧ ((∃ b, .tryRet f b ∈ r.ob j) ∨ ∃ e, .threw f .tryLock e ∈ r.ob j) := by
  obtain ⟨j, hj, h⟩ := call_ends hf (by simp) (by simp) hc
  exact ⟨j, hj, h.symm⟩

/-- **C115.** `unlock()` returns, or reports that the caller does not have the mutex. -/
theorem unlock_returns (hf : r.Fair Event.run) {i : Nat} {f : Fid} (hc : .called f .unlock ∈ r.ob i) :
    ∃ j, i < j ∧ ((∃ w, .unlockRet f w ∈ r.ob j) ∨ ∃ e, .threw f .unlock e ∈ r.ob j) := by
  obtain ⟨j, hj, h⟩ := call_ends hf (by simp) (by simp) hc
  exact ⟨j, hj, h.symm⟩

/-- **C115.** A timed attempt returns when its deadline has passed, if not before: even if whoever has the mutex never releases it, and even if
the caller has it. -/
theorem timed_attempt_returns (hf : r.Fair Event.run) (ht : r.Fair Event.timer) {i n : Nat} {f : Fid} {d : Nat} (hn : d ≤ (r.st n).now)
    (hc : .called f (.tryLockUntil d) ∈ r.ob i) : ∃ j, i < j ∧ ∃ b t, .untilRet f d b t ∈ r.ob j := by
  obtain ⟨j, hj, h | h⟩ := call_ends hf (by simp) (fun d' h => by cases h; exact ⟨ht, n, hn⟩) hc
  · obtain ⟨e, he⟩ := h
    exact absurd he (no_timed_throw (reach_inv (r.reach j)) (r.next j) f d e)
  · exact ⟨j, hj, h⟩

/-! ## The hypotheses can be met -/

/-- A finite history after which nobody can go on is the beginning of a fair execution. -/
theorem extend {pre : List Event} {t : List Obs} (h : ∃ s, exec (step k) init pre = some (s, t) ∧
      ∀ f, step k s (.run f) = none ∧ step k s (.timer f) = none) :
    ∃ r : Verif.Run (step k) init, r.Fair Event.run ∧ r.Fair Event.timer ∧ (∀ i, pre.length ≤ i → r.tr i = t) ∧
      (∀ s, exec (step k) init pre = some (s, t) → r.st pre.length = s) ∧ ∀ o ∈ t, ∃ i, o ∈ r.ob i := by
  obtain ⟨s, h0, hq⟩ := h
  obtain ⟨r, h1, h2⟩ := Verif.Run.rests (e0 := .tick 0) h0 (by cases s; simp [step])
  refine ⟨r, r.rests_fair h2 (fun f => (hq f).1), r.rests_fair h2 (fun f => (hq f).2), fun i hi => (h2 i hi).2.2, fun s' h' => ?_, fun o ho => ?_⟩
  · rw [h0] at h'; cases h'; exact (h2 _ (Nat.le_refl _)).2.1
  · have hm : ∀ i, o ∈ r.tr i → ∃ j, o ∈ r.ob j := by
      intro i
      induction i with
      | zero => intro h; cases h
      | succ i ih => intro h; exact (List.mem_append.1 h).elim ih (fun h => ⟨i, h⟩)
    exact hm pre.length (by rw [(h2 _ (Nat.le_refl _)).2.2]; exact ho)

/-- Fiber 1 takes the mutex and never releases it; fiber 2 fails in `try_lock()` and in a timed attempt, and fiber 1 in a timed attempt on
the mutex it has. -/
example : ∃ r : Verif.Run (step .timed) init, r.Fair Event.run ∧ r.Fair Event.timer ∧ (∃ i, .called 2 .tryLock ∈ r.ob i) ∧
    (∃ i, .called 2 (.tryLockUntil 5) ∈ r.ob i) ∧ (∃ i, .called 1 (.tryLockUntil 7) ∈ r.ob i) ∧ (∃ n, 7 ≤ (r.st n).now) ∧
    ∀ i w, .unlockRet 1 w ∉ r.ob i := by
  obtain ⟨r, h1, h2, h3, h4, h5⟩ := extend (k := .timed)
    (pre := [.call 1 .lock, .run 1, .call 2 .tryLock, .run 2, .run 2, .call 2 (.tryLockUntil 5), .run 2, .run 2, .call 1 (.tryLockUntil 7), .run 1,
      .run 1, .tick 7, .timer 2, .timer 1, .run 2, .run 2, .run 1, .run 1])
    (t := [.called 1 .lock, .lockRet 1, .called 2 .tryLock, .tryRet 2 false, .called 2 (.tryLockUntil 5), .blocks 2, .called 1 (.tryLockUntil 7),
      .blocks 1, .expired 2, .expired 1, .untilRet 2 5 false 7, .untilRet 1 7 false 7])
    ⟨_, rfl, fun f => by
      by_cases hf1 : f = 1
      · subst hf1; exact ⟨rfl, rfl⟩
      by_cases hf2 : f = 2
      · subst hf2; exact ⟨rfl, rfl⟩
      constructor <;> simp [step, run, upd, hf1, hf2, init]⟩
  refine ⟨r, h1, h2, h5 _ (by simp), h5 _ (by simp), h5 _ (by simp), ⟨_, by rw [h4 _ rfl]; decide⟩, fun i w h => ?_⟩
  obtain ⟨t, ht⟩ := r.tr_le (show i + 1 ≤ max (i + 1) 18 by omega)
  have := h3 (max (i + 1) 18) (by simp; omega)
  rw [ht] at this
  have hm : Obs.unlockRet 1 w ∈ r.tr (i + 1) ++ t := by simp [Verif.Run.tr, h]
  rw [this] at hm
  simp at hm

/-- An unlock that wakes somebody. -/
example : ∃ r : Verif.Run (step .recursive) init, r.Fair Event.run ∧ r.Fair Event.timer ∧ (∃ i, .called 1 .unlock ∈ r.ob i) ∧
    ∃ i, .unlockRet 1 (some 2) ∈ r.ob i := by
  obtain ⟨r, h1, h2, h3, h4, h5⟩ := extend (k := .recursive)
    (pre := [.call 1 .lock, .run 1, .call 2 .lock, .run 2, .call 1 .unlock, .run 1, .run 2, .run 2])
    (t := [.called 1 .lock, .lockRet 1, .called 2 .lock, .blocks 2, .called 1 .unlock, .unlockRet 1 (some 2), .lockRet 2])
    ⟨_, rfl, fun f => by
      by_cases hf1 : f = 1
      · subst hf1; exact ⟨rfl, rfl⟩
      by_cases hf2 : f = 2
      · subst hf2; exact ⟨rfl, rfl⟩
      constructor <;> simp [step, run, upd, hf1, hf2, init]⟩
  exact ⟨r, h1, h2, h5 _ (by simp), h5 _ (by simp)⟩

end Verif.Props.MutexLive
