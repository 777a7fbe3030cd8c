import Verif.MutexTurn

/-!
# Property C105: a fiber that waits for a mutex gets its turn

`Run.Fair`, `Run.Releases`, `Run.Untimed` and `Run.Overtaken` are in `Verif/MutexTurn.lean`; `notes` (who has been scheduled by an
`unlock()` and has not yet tried again) in `Verif/Props/Mutex.lean`.
-/

namespace Verif.Props.MutexTurn

open Verif.Mutex

variable {k : Kind}

/-- **C105 (what holds).** All four classes, every number of fibers and every schedule: if whoever can go on goes on, whoever has the
mutex releases it, and *after some time nobody takes the mutex while a fiber that `unlock()` has scheduled is about to take it*, then
every call of `lock()` ends (it returns with the mutex, or reports that the caller has it already).

Missing for C105: overtaking (`starves`), and timed attempts (a timed attempt that gives up keeps the wake-up that it got: C03). -/
theorem gets_its_turn_partial (r : Run k) (hf : r.Fair) (hr : r.Releases) (hu : r.Untimed) {N : Nat}
    (ho : ∀ i, N ≤ i → ¬ r.Overtaken i) {f : Fid} {i : Nat} (hc : Obs.called f .lock ∈ r.ob i) :
    ∃ j, i < j ∧ (Obs.lockRet f ∈ r.ob j ∨ ∃ e, Obs.threw f .lock e ∈ r.ob j) :=
  r.lock_ends hf hr hu ho hc

/-- **C105 (what holds).** If nobody is overtaken by a fiber that finds the mutex free, fibers get it in the order in which they ask:
if `f` waits and `g` calls `lock()` or `try_lock()` later, `g` does not take the mutex before `f` has got it. -/
theorem in_order_partial (r : Run k) (hu : r.Untimed) (ho : ∀ i, ¬ r.Overtaken i) {f g : Fid} {op : Op} {i j m : Nat} (hfg : g ≠ f)
    (hb : Obs.blocks f ∈ r.ob i) (hij : i < j) (hc : Obs.called g op ∈ r.ob j) (hjm : j < m)
    (h1 : (r.st m).m.owner = none) (h2 : (r.st (m + 1)).m.owner = some g) : ∃ n, i < n ∧ n < m ∧ Obs.lockRet f ∈ r.ob n :=
  r.in_order hu ho hfg hb hij hc hjm h1 h2

/-! ## Executions of two fibers -/

/-- A value for fiber 1, one for fiber 2, one for all the others. -/
def pick {α : Type} (a b c : α) (g : Fid) : α := if g = 1 then a else if g = 2 then b else c

@[simp] theorem pick_1 {α : Type} (a b c : α) : pick a b c 1 = a := rfl

@[simp] theorem pick_2 {α : Type} (a b c : α) : pick a b c 2 = b := rfl

theorem pick_3 {α : Type} (a b c : α) {g : Fid} (h1 : g ≠ 1) (h2 : g ≠ 2) : pick a b c g = c := by simp [pick, h1, h2]

@[simp] theorem upd_pick_1 {α : Type} (a b c v : α) : upd (pick a b c) 1 v = pick v b c := by
  funext g; simp only [upd_apply, pick]; split <;> simp_all

@[simp] theorem upd_pick_2 {α : Type} (a b c v : α) : upd (pick a b c) 2 v = pick a v c := by
  funext g; simp only [upd_apply, pick]
  by_cases h1 : g = 1 <;> by_cases h2 : g = 2 <;> simp_all

/-- Two fibers, 1 and 2. -/
def two (m : M) (q : List Waker) (p1 p2 : Pc) (e1 e2 : Nat) (r1 r2 : Bool) : State where
  m := m
  q := q
  c := { epoch := pick e1 e2 0, ready := pick r1 r2 false }
  pc := pick p1 p2 .idle
  now := 0

theorem init_two : init = two ⟨none, 0⟩ [] .idle .idle 0 0 false false := by
  simp only [init, two, Ctxs.init, State.mk.injEq, Ctxs.mk.injEq, true_and, and_true]
  exact ⟨⟨by funext g; simp [pick], by funext g; simp [pick]⟩, by funext g; simp [pick]⟩

/-- The mutex while `x` has it (once). -/
def own (k : Kind) (x : Fid) : M := ⟨some x, if k.isRec = true then 1 else 0⟩

def free : M := ⟨none, 0⟩

/-- Fiber 1 gets the mutex, fiber 2 has to wait. -/
def preSt (k : Kind) : Nat → State
  | 0 => two free [] .idle .idle 0 0 false false
  | 1 => two free [] .lockEntry .idle 0 0 false false
  | 2 => two (own k 1) [] .idle .idle 0 0 false false
  | _ => two (own k 1) [] .idle .lockEntry 0 0 false false

def preEv : Nat → Event
  | 0 => .call 1 .lock
  | 1 => .run 1
  | 2 => .call 2 .lock
  | _ => .run 2

def preOb : Nat → List Obs
  | 0 => [.called 1 .lock]
  | 1 => [.lockRet 1]
  | 2 => [.called 2 .lock]
  | _ => [.blocks 2]

/-- Then again and again: 1 unlocks, which schedules 2, and locks again at once; 2 runs, and has to wait again. -/
def starveSt (k : Kind) (n : Nat) : Nat → State
  | 0 => two (own k 1) [⟨2, 2 * n + 1⟩] .idle (.lockWait (2 * n + 1)) 0 (2 * n + 1) false false
  | 1 => two (own k 1) [⟨2, 2 * n + 1⟩] .unlockEntry (.lockWait (2 * n + 1)) 0 (2 * n + 1) false false
  | 2 => two free [] .idle (.lockWait (2 * n + 1)) 0 (2 * n + 2) false true
  | 3 => two free [] .lockEntry (.lockWait (2 * n + 1)) 0 (2 * n + 2) false true
  | 4 => two (own k 1) [] .idle (.lockWait (2 * n + 1)) 0 (2 * n + 2) false true
  | _ => two (own k 1) [] .idle .lockEntry 0 (2 * n + 2) false false

def starveEv : Nat → Event
  | 0 => .call 1 .unlock
  | 1 => .run 1
  | 2 => .call 1 .lock
  | 3 => .run 1
  | 4 => .run 2
  | _ => .run 2

def starveOb : Nat → List Obs
  | 0 => [.called 1 .unlock]
  | 1 => [.unlockRet 1 (some 2)]
  | 2 => [.called 1 .lock]
  | 3 => [.lockRet 1]
  | 4 => []
  | _ => [.blocks 2]

/-- Or again and again: 1 unlocks, which schedules 2, which takes the mutex; 1 has to wait; and the same the other way round. -/
def turnSt (k : Kind) (n : Nat) : Nat → State
  | 0 => two (own k 1) [⟨2, 2 * n + 1⟩] .idle (.lockWait (2 * n + 1)) (2 * n) (2 * n + 1) false false
  | 1 => two (own k 1) [⟨2, 2 * n + 1⟩] .unlockEntry (.lockWait (2 * n + 1)) (2 * n) (2 * n + 1) false false
  | 2 => two free [] .idle (.lockWait (2 * n + 1)) (2 * n) (2 * n + 2) false true
  | 3 => two free [] .idle .lockEntry (2 * n) (2 * n + 2) false false
  | 4 => two (own k 2) [] .idle .idle (2 * n) (2 * n + 2) false false
  | 5 => two (own k 2) [] .lockEntry .idle (2 * n) (2 * n + 2) false false
  | 6 => two (own k 2) [⟨1, 2 * n + 1⟩] (.lockWait (2 * n + 1)) .idle (2 * n + 1) (2 * n + 2) false false
  | 7 => two (own k 2) [⟨1, 2 * n + 1⟩] (.lockWait (2 * n + 1)) .unlockEntry (2 * n + 1) (2 * n + 2) false false
  | 8 => two free [] (.lockWait (2 * n + 1)) .idle (2 * n + 2) (2 * n + 2) true false
  | 9 => two free [] .lockEntry .idle (2 * n + 2) (2 * n + 2) false false
  | 10 => two (own k 1) [] .idle .idle (2 * n + 2) (2 * n + 2) false false
  | _ => two (own k 1) [] .idle .lockEntry (2 * n + 2) (2 * n + 2) false false

def turnEv : Nat → Event
  | 0 => .call 1 .unlock
  | 1 => .run 1
  | 2 => .run 2
  | 3 => .run 2
  | 4 => .call 1 .lock
  | 5 => .run 1
  | 6 => .call 2 .unlock
  | 7 => .run 2
  | 8 => .run 1
  | 9 => .run 1
  | 10 => .call 2 .lock
  | _ => .run 2

def turnOb : Nat → List Obs
  | 0 => [.called 1 .unlock]
  | 1 => [.unlockRet 1 (some 2)]
  | 2 => []
  | 3 => [.lockRet 2]
  | 4 => [.called 1 .lock]
  | 5 => [.blocks 1]
  | 6 => [.called 2 .unlock]
  | 7 => [.unlockRet 2 (some 1)]
  | 8 => []
  | 9 => [.lockRet 1]
  | 10 => [.called 2 .lock]
  | _ => [.blocks 2]

theorem pre_next (k : Kind) (i : Nat) (hi : i < 3) : step k (preSt k i) (preEv i) = some (preSt k (i + 1), preOb i) := by
  match i, hi with
  | 0, _ => cases k <;> simp [preSt, preEv, preOb, two, step, offered, entry]
  | 1, _ => cases k <;> simp [preSt, preEv, preOb, two, step, run, lockCS, plainLock, timedLock, recLock, recTimedLock, own, free, Kind.isRec]
  | 2, _ => cases k <;> simp [preSt, preEv, preOb, two, step, offered, entry]

theorem pre_last (k : Kind) : step k (preSt k 3) (preEv 3) = some (starveSt k 0 0, preOb 3) ∧ starveSt k 0 0 = turnSt k 0 0 := by
  cases k <;> simp [preSt, preEv, preOb, starveSt, turnSt, two, step, run, lockCS, plainLock, timedLock, recLock, recTimedLock, own,
    enqueue, createWaker]

theorem starve_next (k : Kind) (n j : Nat) (hj : j < 5) :
    step k (starveSt k n j) (starveEv j) = some (starveSt k n (j + 1), starveOb j) := by
  match j, hj with
  | 0, _ => cases k <;> simp [starveSt, starveEv, starveOb, two, step, offered, entry]
  | 1, _ => cases k <;> simp [starveSt, starveEv, starveOb, two, step, run, unlockCS, plainUnlock, timedUnlock, recUnlock,
      recTimedUnlock, own, free, Kind.isRec, notifyOne, wake]
  | 2, _ => cases k <;> simp [starveSt, starveEv, starveOb, two, step, offered, entry]
  | 3, _ => cases k <;> simp [starveSt, starveEv, starveOb, two, step, run, lockCS, plainLock, timedLock, recLock, recTimedLock, own,
      free, Kind.isRec]
  | 4, _ => cases k <;> simp [starveSt, starveEv, starveOb, two, step, run, consumeReady]

theorem starve_again (k : Kind) (n : Nat) : step k (starveSt k n 5) (starveEv 5) = some (starveSt k (n + 1) 0, starveOb 5) := by
  cases k <;> simp [starveSt, starveEv, starveOb, two, step, run, lockCS, plainLock, timedLock, recLock, recTimedLock, own,
    enqueue, createWaker, Nat.mul_add]

theorem turn_next (k : Kind) (n j : Nat) (hj : j < 11) :
    step k (turnSt k n j) (turnEv j) = some (turnSt k n (j + 1), turnOb j) := by
  match j, hj with
  | 0, _ | 4, _ | 6, _ | 10, _ => cases k <;> simp [turnSt, turnEv, turnOb, two, step, offered, entry]
  | 1, _ | 7, _ => cases k <;> simp [turnSt, turnEv, turnOb, two, step, run, unlockCS, plainUnlock, timedUnlock, recUnlock,
      recTimedUnlock, own, free, Kind.isRec, notifyOne, wake]
  | 2, _ | 8, _ => cases k <;> simp [turnSt, turnEv, turnOb, two, step, run, consumeReady]
  | 3, _ | 9, _ => cases k <;> simp [turnSt, turnEv, turnOb, two, step, run, lockCS, plainLock, timedLock, recLock, recTimedLock, own,
      free, Kind.isRec]
  | 5, _ => cases k <;> simp [turnSt, turnEv, turnOb, two, step, run, lockCS, plainLock, timedLock, recLock, recTimedLock, own,
      enqueue, createWaker]

theorem turn_again (k : Kind) (n : Nat) : step k (turnSt k n 11) (turnEv 11) = some (turnSt k (n + 1) 0, turnOb 11) := by
  cases k <;> simp [turnSt, turnEv, turnOb, two, step, run, lockCS, plainLock, timedLock, recLock, recTimedLock, own,
    enqueue, createWaker, Nat.mul_add]

/-- 1 locks and unlocks for ever; 2 waits for ever. -/
def starveRun (k : Kind) : Run k where
  st i := if i < 4 then preSt k i else starveSt k ((i - 4) / 6) ((i - 4) % 6)
  ev i := if i < 4 then preEv i else starveEv ((i - 4) % 6)
  ob i := if i < 4 then preOb i else starveOb ((i - 4) % 6)
  start := init_two.symm
  next i := by
    by_cases h3 : i < 3
    · simp only [show i < 4 by omega, show i + 1 < 4 by omega, if_true]; exact pre_next k i h3
    · by_cases h4 : i = 3
      · subst h4; exact (pre_last k).1
      · simp only [show ¬ i < 4 by omega, show ¬ i + 1 < 4 by omega, if_false]
        by_cases h5 : (i - 4) % 6 < 5
        · rw [show (i + 1 - 4) / 6 = (i - 4) / 6 by omega, show (i + 1 - 4) % 6 = (i - 4) % 6 + 1 by omega]
          exact starve_next k _ _ h5
        · rw [show (i + 1 - 4) / 6 = (i - 4) / 6 + 1 by omega, show (i + 1 - 4) % 6 = 0 by omega, show (i - 4) % 6 = 5 by omega]
          exact starve_again k _

/-- 1 and 2 take turns for ever. -/
def turnRun (k : Kind) : Run k where
  st i := if i < 4 then preSt k i else turnSt k ((i - 4) / 12) ((i - 4) % 12)
  ev i := if i < 4 then preEv i else turnEv ((i - 4) % 12)
  ob i := if i < 4 then preOb i else turnOb ((i - 4) % 12)
  start := init_two.symm
  next i := by
    by_cases h3 : i < 3
    · simp only [show i < 4 by omega, show i + 1 < 4 by omega, if_true]; exact pre_next k i h3
    · by_cases h4 : i = 3
      · subst h4; rw [show (3 + 1 - 4) / 12 = 0 by omega]; exact (pre_last k).2 ▸ (pre_last k).1
      · simp only [show ¬ i < 4 by omega, show ¬ i + 1 < 4 by omega, if_false]
        by_cases h5 : (i - 4) % 12 < 11
        · rw [show (i + 1 - 4) / 12 = (i - 4) / 12 by omega, show (i + 1 - 4) % 12 = (i - 4) % 12 + 1 by omega]
          exact turn_next k _ _ h5
        · rw [show (i + 1 - 4) / 12 = (i - 4) / 12 + 1 by omega, show (i + 1 - 4) % 12 = 0 by omega, show (i - 4) % 12 = 11 by omega]
          exact turn_again k _

/-- Nobody but 1 and 2 is in a call. -/
theorem idle_run {k : Kind} {m : M} {q : List Waker} {p1 p2 : Pc} {e1 e2 : Nat} {r1 r2 : Bool} {f : Fid} (h1 : f ≠ 1) (h2 : f ≠ 2) :
    step k (two m q p1 p2 e1 e2 r1 r2) (.run f) = none := by
  simp [step, run, two, pick_3 _ _ _ h1 h2]

theorem starve_fair (k : Kind) : (starveRun k).Fair := by
  intro f i
  by_cases h1 : f = 1
  · refine ⟨4 + 6 * i + 1, by omega, .inl ?_⟩
    simp only [starveRun, show ¬ 4 + 6 * i + 1 < 4 by omega, if_false, show (4 + 6 * i + 1 - 4) % 6 = 1 by omega, starveEv, h1]
  · by_cases h2 : f = 2
    · refine ⟨4 + 6 * i + 4, by omega, .inl ?_⟩
      simp only [starveRun, show ¬ 4 + 6 * i + 4 < 4 by omega, if_false, show (4 + 6 * i + 4 - 4) % 6 = 4 by omega, starveEv, h2]
    · refine ⟨4 + 6 * i, by omega, .inr ?_⟩
      simp only [starveRun, show ¬ 4 + 6 * i < 4 by omega, if_false, show (4 + 6 * i - 4) % 6 = 0 by omega, starveSt]
      exact idle_run h1 h2

theorem starve_releases (k : Kind) : (starveRun k).Releases := by
  intro i x _
  refine ⟨4 + 6 * i + 2, by omega, ?_⟩
  simp only [starveRun, show ¬ 4 + 6 * i + 2 < 4 by omega, if_false, show (4 + 6 * i + 2 - 4) % 6 = 2 by omega, starveSt, two, free]
  simp

theorem starve_ob (k : Kind) (o : Obs) (hp : ∀ i, i < 4 → o ∉ preOb i) (hs : ∀ i, i < 6 → o ∉ starveOb i) (i : Nat) :
    o ∉ (starveRun k).ob i := by
  simp only [starveRun]
  split
  · exact hp _ ‹_›
  · exact hs _ (Nat.mod_lt _ (by omega))

theorem turn_ob (k : Kind) (o : Obs) (hp : ∀ i, i < 4 → o ∉ preOb i) (hs : ∀ i, i < 12 → o ∉ turnOb i) (i : Nat) :
    o ∉ (turnRun k).ob i := by
  simp only [turnRun]
  split
  · exact hp _ ‹_›
  · exact hs _ (Nat.mod_lt _ (by omega))

/-- **C105 is false of the code.** `unlock()` makes the mutex free before the fiber it schedules has run. With every class of mutex, a
fiber that unlocks and at once locks again keeps another one waiting for ever, although the mutex is released again and again, and
both run again and again: `lock()` of fiber 2 never returns. -/
theorem starves (k : Kind) : ∃ r : Run k, r.Fair ∧ r.Releases ∧ r.Untimed ∧ (∀ i, ∃ j, i < j ∧ Obs.lockRet 1 ∈ r.ob j) ∧ ∃ i, Obs.called 2 .lock ∈ r.ob i ∧
    ∀ j, Obs.lockRet 2 ∉ r.ob j ∧ ∀ e, Obs.threw 2 .lock e ∉ r.ob j := by
  refine ⟨starveRun k, starve_fair k, starve_releases k, ?_, ?_, 2, by simp [starveRun, preOb], ?_⟩
  · intro i f d
    refine starve_ob k _ ?_ ?_ i
    · intro i _; unfold preOb; split <;> simp
    · intro i _; unfold starveOb; split <;> simp
  · intro i
    refine ⟨4 + 6 * i + 3, by omega, ?_⟩
    simp only [starveRun, show ¬ 4 + 6 * i + 3 < 4 by omega, if_false, show (4 + 6 * i + 3 - 4) % 6 = 3 by omega, starveOb]
    simp
  · intro j
    refine ⟨starve_ob k _ ?_ ?_ j, fun e => starve_ob k _ ?_ ?_ j⟩
    · intro i _; unfold preOb; split <;> simp
    · intro i _; unfold starveOb; split <;> simp
    · intro i _; unfold preOb; split <;> simp
    · intro i _; unfold starveOb; split <;> simp

/-! ## The hypotheses can be met -/

theorem turn_fair (k : Kind) : (turnRun k).Fair := by
  intro f i
  by_cases h1 : f = 1
  · refine ⟨4 + 12 * i + 1, by omega, .inl ?_⟩
    simp only [turnRun, show ¬ 4 + 12 * i + 1 < 4 by omega, if_false, show (4 + 12 * i + 1 - 4) % 12 = 1 by omega, turnEv, h1]
  · by_cases h2 : f = 2
    · refine ⟨4 + 12 * i + 3, by omega, .inl ?_⟩
      simp only [turnRun, show ¬ 4 + 12 * i + 3 < 4 by omega, if_false, show (4 + 12 * i + 3 - 4) % 12 = 3 by omega, turnEv, h2]
    · refine ⟨4 + 12 * i, by omega, .inr ?_⟩
      simp only [turnRun, show ¬ 4 + 12 * i < 4 by omega, if_false, show (4 + 12 * i - 4) % 12 = 0 by omega, turnSt]
      exact idle_run h1 h2

theorem turn_releases (k : Kind) : (turnRun k).Releases := by
  intro i x _
  refine ⟨4 + 12 * i + 2, by omega, ?_⟩
  simp only [turnRun, show ¬ 4 + 12 * i + 2 < 4 by omega, if_false, show (4 + 12 * i + 2 - 4) % 12 = 2 by omega, turnSt, two, free]
  simp

theorem turn_untimed (k : Kind) : (turnRun k).Untimed := by
  intro i f d
  refine turn_ob k _ ?_ ?_ i
  · intro i _; unfold preOb; split <;> simp
  · intro i _; unfold turnOb; split <;> simp

/-- Who is on its way. -/
def turnWay : Nat → List Fid
  | 2 | 3 => [2]
  | 8 | 9 => [1]
  | _ => []

theorem turn_way (k : Kind) : ∀ i, wl ((turnRun k).tr (4 + i)) = turnWay (i % 12)
  | 0 => rfl
  | i + 1 => by
    have ih := turn_way k i
    have hob : (turnRun k).ob (4 + i) = turnOb (i % 12) := by
      simp [turnRun, show ¬ 4 + i < 4 by omega, show 4 + i - 4 = i by omega]
    rw [← Nat.add_assoc]
    simp only [Run.tr, wl_append, ih, hob]
    have h12 : i % 12 < 12 := Nat.mod_lt _ (by omega)
    have hs : (i + 1) % 12 = (i % 12 + 1) % 12 := by omega
    rw [hs]
    generalize i % 12 = j at h12
    match j, h12 with
    | 0, _ | 1, _ | 2, _ | 3, _ | 4, _ | 5, _ | 6, _ | 7, _ | 8, _ | 9, _ | 10, _ | 11, _ => rfl

theorem turn_not_overtaken (k : Kind) (i : Nat) : ¬ (turnRun k).Overtaken i := by
  rintro ⟨x, g, h1, h2, h3, h4⟩
  by_cases h : i < 4
  · revert h4
    rw [notes_iff]
    match i, h with
    | 0, _ | 1, _ | 2, _ | 3, _ => simp [Run.tr, wl, turnRun, preOb, wlStep]
  · obtain ⟨j, rfl⟩ : ∃ j, i = 4 + j := ⟨i - 4, by omega⟩
    rw [notes_iff, turn_way] at h4
    have h3 : x ∉ turnWay (j % 12) := by rw [← turn_way k, ← notes_iff, h3]; simp
    have hs : (turnRun k).st (4 + j) = turnSt k (j / 12) (j % 12) := by
      simp [turnRun, show ¬ 4 + j < 4 by omega, show 4 + j - 4 = j by omega]
    have hs' : (turnRun k).st (4 + j + 1) = turnSt k ((j + 1) / 12) ((j + 1) % 12) := by
      simp [turnRun, show ¬ 4 + j + 1 < 4 by omega, show 4 + j + 1 - 4 = j + 1 by omega]
    rw [hs] at h1
    rw [hs'] at h2
    have h12 : j % 12 < 12 := Nat.mod_lt _ (by omega)
    have hm : (j + 1) % 12 = (j % 12 + 1) % 12 := by omega
    rw [hm] at h2
    generalize j % 12 = l at *
    generalize j / 12 = n at *
    generalize (j + 1) / 12 = n' at *
    match l, h12 with
    | 0, _ | 1, _ | 4, _ | 5, _ | 6, _ | 7, _ | 10, _ | 11, _ => simp [turnSt, two, own] at h1
    | 2, _ | 8, _ => simp [turnSt, two, free] at h2
    | 3, _ | 9, _ => simp [turnSt, two, own] at h2; subst h2; simp [turnWay] at h3

-- `gets_its_turn_partial`: two fibers take turns for ever; each has to wait each time
example (k : Kind) : (turnRun k).Fair ∧ (turnRun k).Releases ∧ (turnRun k).Untimed ∧ (∀ i, ¬ (turnRun k).Overtaken i) ∧
    Obs.called 2 .lock ∈ (turnRun k).ob 2 ∧ Obs.blocks 2 ∈ (turnRun k).ob 3 ∧ Obs.lockRet 2 ∈ (turnRun k).ob 7 :=
  ⟨turn_fair k, turn_releases k, turn_untimed k, turn_not_overtaken k, by simp [turnRun, preOb], by simp [turnRun, preOb],
    by simp [turnRun, turnOb]⟩

-- `in_order_partial`: 2 waits at 15, 1 calls `lock()` at 20 and takes the mutex at 25; 2 has got it at 19
example (k : Kind) : Obs.blocks 2 ∈ (turnRun k).ob 15 ∧ Obs.called 1 .lock ∈ (turnRun k).ob 20 ∧
    ((turnRun k).st 25).m.owner = none ∧ ((turnRun k).st 26).m.owner = some 1 ∧ Obs.lockRet 2 ∈ (turnRun k).ob 19 :=
  ⟨by simp [turnRun, turnOb], by simp [turnRun, turnOb], by simp [turnRun, turnSt, two, free], by simp [turnRun, turnSt, two, own],
    by simp [turnRun, turnOb]⟩

end Verif.Props.MutexTurn
