import Verif.CvLive

/-!
# Property C116: waiting on a condition variable ends

`Run`, `Run.Fair` (whoever can go on goes on) and `Run.Strong` (whoever can go on again and again goes on) are in `Verif/Fair.lean`;
`Releases r` (`Verif/CvLive.lean`): whoever has the user's lock releases it. `P f` is the predicate that fiber `f` waits for, a function of
the data.
-/

namespace Verif.Props.CvLive

open Verif Verif.CondVar

variable {P : Fid → Nat → Bool} {r : Run (step P) init}

/-- **C116.** `notify_one()` returns. -/
theorem notify_one_returns (hf : r.Strong Event.run) {i : Nat} {f : Fid} (h : r.ev i = .notifyOne f) :
    ∃ j, i < j ∧ ∃ w t, .notifiedOne f w t ∈ r.ob j :=
  notify_one_ends hf h

/-- **C116.** `notify_all()` returns. -/
theorem notify_all_returns (hf : r.Strong Event.run) {i : Nat} {f : Fid} (h : r.ev i = .notifyAll f) :
    ∃ j, i < j ∧ ∃ ws t, .notifiedAll f ws t ∈ r.ob j :=
  notify_all_ends hf h

/-- **C116.** A `wait(lk)` or `wait_until(lk, tp)` that is notified, by `notify_one()` or by `notify_all()`, gets the lock again and returns. -/
theorem notified_wait_returns (hf : r.Strong Event.run) (hr : Releases r) {i m : Nat} {f g : Fid} {op : Op} {t : Nat} (hop : op.hasPred = false)
    (hc : .called f op ∈ r.ob i) (him : i < m) (hm : .notifiedOne g (some f) t ∈ r.ob m ∨ ∃ ws, .notifiedAll g ws t ∈ r.ob m ∧ f ∈ ws) :
    ∃ j, i < j ∧ ∃ x, .done f x ∈ r.ob j := by
  refine Classical.byContradiction fun hno => ?_
  have hin := still_in (called_in (r.next i) hc).1 (fun j hj h => hno ⟨j, by omega, h⟩) (m + 1) (by omega)
  obtain ⟨op', ep, h1, h2⟩ := notified (reach_inv (r.reach m)) (r.next m) hm
  obtain ⟨j, hj, st, t', _, h3, h4⟩ := woken_returns hf hr 3 (m + 1) hin (by simp [h1, wakeRank]) (by simp [h1, wakeRank]) (fun _ _ _ => h2)
  cases op with
  | wait => exact hno ⟨j, by omega, _, h3 rfl⟩
  | «until» d => exact hno ⟨j, by omega, _, h4 d rfl⟩
  | _ => cases hop

/-- **C116.** Timed waits, with and without a predicate, return when the deadline has passed, if not before, even if nobody ever notifies. -/
theorem timed_wait_returns (hf : r.Strong Event.run) (ht : r.Fair Event.timer) (hr : Releases r) {i n : Nat} {f : Fid} {op : Op} {d : Nat}
    (hop : op = .until d ∨ op = .untilPred d) (hn : d ≤ (r.st n).now) (hc : .called f op ∈ r.ob i) : ∃ j, i < j ∧ ∃ x, .done f x ∈ r.ob j :=
  timed_ends hf ht hr (by rcases hop with rfl | rfl <;> rfl) hn hc

/-- **C116.** If a write under the lock makes the predicate of `f` true for good and `notify_all()` is called after the write (with or without
the lock), then every `wait(lk, pred)` and `wait_until(lk, tp, pred)` of `f` returns, made before or after the write. -/
theorem predicate_wait_returns (hf : r.Strong Event.run) (hr : Releases r) {f g h : Fid} {op : Op} (hop : op.hasPred = true) {i n m : Nat} {v t : Nat}
    {ws : List Fid} (hc : .called f op ∈ r.ob i) (hw : .wrote g v true ∈ r.ob n) (hP : ∀ j, n < j → P f (r.st j).data = true)
    (hm : .notifiedAll h ws t ∈ r.ob m) (hnm : n < m) : ∃ j, i < j ∧ ∃ x, .done f x ∈ r.ob j :=
  pred_ends hf hr hop hc hw hP hm hnm

/-! ## The hypotheses can be met, and are needed -/

/-- A finite history after which nobody can go on is the beginning of a fair execution. -/
theorem extend {pre : List Event} {t : List Obs} (h : ∃ s, exec (step P) init pre = some (s, t) ∧ s.mtx = none ∧
      ∀ f, step P s (.run f) = none ∧ step P s (.timer f) = none) :
    ∃ r : Run (step P) init, r.Strong Event.run ∧ r.Fair Event.timer ∧ Releases r ∧ (∀ i, pre.length ≤ i → r.tr i = t) ∧
      (∀ j, (hj : j < pre.length) → r.ev j = pre[j]) ∧ ∀ i, pre.length ≤ i → exec (step P) init pre = some (r.st i, t) := by
  obtain ⟨s, h0, hx, hq⟩ := h
  obtain ⟨r, h1, h2⟩ := Run.rests (e0 := .tick 0) h0 (by cases s; simp [step])
  refine ⟨r, ?_, r.rests_fair h2 (fun f => (hq f).2), ?_, fun i hi => (h2 i hi).2.2, h1, fun i hi => by rw [(h2 i hi).2.1]; exact h0⟩
  · intro f hinf
    obtain ⟨j, hj, h⟩ := hinf pre.length
    rw [(h2 j hj).2.1] at h
    exact absurd (hq f).1 h
  · intro i x _
    refine ⟨max (i + 1) pre.length, by omega, ?_⟩
    rw [(h2 _ (by omega)).2.1, hx]; simp

/-- The state after the first `i` events. -/
theorem st_of (r : Run (step P) init) {pre : List Event} (h : ∀ j, (hj : j < pre.length) → r.ev j = pre[j]) {i : Nat} (hi : i ≤ pre.length) :
    ∃ t, exec (step P) init (pre.take i) = some (r.st i, t) := by
  obtain ⟨t2, h3, _⟩ := r.part (pre.take i) 0 (fun j hj => by
    simp only [List.length_take] at hj
    rw [Nat.zero_add, h j (by omega)]; simp)
  rw [r.start] at h3
  simp only [Nat.zero_add, List.length_take, Nat.min_eq_left hi] at h3
  exact ⟨_, h3⟩

/-- What happens in step `i`. -/
theorem ob_of (r : Run (step P) init) {pre : List Event} (h : ∀ j, (hj : j < pre.length) → r.ev j = pre[j]) {i : Nat} (hi : i < pre.length)
    {s s' : State} {t o : List Obs} (h1 : exec (step P) init (pre.take i) = some (s, t)) (h2 : step P s pre[i] = some (s', o)) : r.ob i = o := by
  obtain ⟨t', h3⟩ := st_of r h (Nat.le_of_lt hi)
  rw [h1] at h3
  simp only [Option.some.injEq, Prod.mk.injEq] at h3
  have := r.next i
  rw [← h3.1, h i hi, h2] at this
  simp only [Option.some.injEq, Prod.mk.injEq] at this
  exact this.2.symm

/-- The predicate of the examples: the data is nonzero. -/
def nonzero : Fid → Nat → Bool := fun _ v => v ≠ 0

/-- Fiber 1 waits for nonzero data; fiber 2 writes 7 under the lock and calls `notify_all()` while 1 is not yet in the queue. -/
def handOver : List Event :=
  [.lock 1, .run 1, .call 1 .waitPred, .run 1, .run 1, .run 1, .lock 2, .run 2, .write 2 7, .unlock 2, .notifyAll 2, .run 1, .run 2, .run 1, .run 1,
    .run 1, .unlock 1]

example : ∃ r : Run (step nonzero) init, r.Strong Event.run ∧ Releases r ∧ (∃ i, .called 1 .waitPred ∈ r.ob i) ∧
    ∃ n m, n < m ∧ .wrote 2 7 true ∈ r.ob n ∧ (∀ j, n < j → nonzero 1 (r.st j).data = true) ∧ .notifiedAll 2 [1] 0 ∈ r.ob m := by
  obtain ⟨r, h1, h2, h3, _, h5, h6⟩ := extend (P := nonzero) (pre := handOver)
    (t := [.locked 1, .called 1 .waitPred, .evaled 1 false, .released 1, .locked 2, .wrote 2 7 true, .unlocked 2, .notifiedAll 2 [1] 0,
      .waitRet 1 .noTimeout 0, .evaled 1 true, .done 1 .void, .unlocked 1])
    ⟨_, rfl, rfl, fun f => by
      by_cases hf1 : f = 1
      · subst hf1; exact ⟨rfl, rfl⟩
      by_cases hf2 : f = 2
      · subst hf2; exact ⟨rfl, rfl⟩
      constructor <;> simp [step, run, upd, hf1, hf2, init]⟩
  refine ⟨r, h1, h3, ⟨2, by rw [ob_of r h5 (i := 2) (by decide) rfl rfl]; simp⟩, 8, 12, by decide,
    by rw [ob_of r h5 (i := 8) (by decide) rfl rfl]; decide, fun j hj => ?_, by rw [ob_of r h5 (i := 12) (by decide) rfl rfl]; decide⟩
  have hd : ∀ j, j < 18 → 8 < j → ((exec (step nonzero) init (handOver.take j)).map (·.1.data)) = some 7 := by decide +kernel
  by_cases hl : j < 18
  · obtain ⟨t, ht⟩ := st_of r h5 (i := j) (by simp [handOver]; omega)
    have := hd j hl hj
    rw [ht] at this
    simp at this
    simp [nonzero, this]
  · have := hd 17 (by decide) (by decide)
    rw [show handOver.take 17 = handOver from rfl, h6 j (by simp [handOver]; omega)] at this
    simp at this
    simp [nonzero, this]

/-- Nobody notifies: the timed wait of fiber 1 ends at its deadline. -/
example : ∃ r : Run (step nonzero) init, r.Strong Event.run ∧ r.Fair Event.timer ∧ Releases r ∧ (∃ i, .called 1 (.untilPred 5) ∈ r.ob i) ∧
    ∃ n, 5 ≤ (r.st n).now := by
  obtain ⟨r, h1, h2, h3, _, h5, h6⟩ := extend (P := nonzero)
    (pre := [.lock 1, .run 1, .call 1 (.untilPred 5), .run 1, .run 1, .run 1, .run 1, .tick 5, .timer 1, .run 1, .run 1, .run 1, .run 1, .unlock 1])
    (t := [.locked 1, .called 1 (.untilPred 5), .evaled 1 false, .released 1, .expired 1 5, .waitRet 1 .timeout 5, .evaled 1 false,
      .done 1 (.bool false), .unlocked 1])
    ⟨_, rfl, rfl, fun f => by
      by_cases hf1 : f = 1
      · subst hf1; exact ⟨rfl, rfl⟩
      constructor <;> simp [step, run, upd, hf1, init]⟩
  refine ⟨r, h1, h2, h3, ⟨2, by rw [ob_of r h5 (i := 2) (by decide) rfl rfl]; simp⟩, 8, ?_⟩
  obtain ⟨t, ht⟩ := st_of r h5 (i := 8) (by decide)
  have hd : ((exec (step nonzero) init ([.lock 1, .run 1, .call 1 (.untilPred 5), .run 1, .run 1, .run 1, .run 1, .tick 5])).map (·.1.now)) = some 5 := rfl
  have : exec (step nonzero) init [.lock 1, .run 1, .call 1 (.untilPred 5), .run 1, .run 1, .run 1, .run 1, .tick 5] = some (r.st 8, t) := ht
  rw [this] at hd
  simp at hd
  omega

/-- `notify_one()` ends the wait of fiber 1. -/
example : ∃ r : Run (step nonzero) init, r.Strong Event.run ∧ Releases r ∧ ∃ i m, i < m ∧ .called 1 .wait ∈ r.ob i ∧ r.ev 6 = .notifyOne 2 ∧
    .notifiedOne 2 (some 1) 0 ∈ r.ob m := by
  obtain ⟨r, h1, _, h3, _, h5, _⟩ := extend (P := nonzero)
    (pre := [.lock 1, .run 1, .call 1 .wait, .run 1, .run 1, .run 1, .notifyOne 2, .run 2, .run 1, .run 1, .unlock 1])
    (t := [.locked 1, .called 1 .wait, .released 1, .notifiedOne 2 (some 1) 0, .waitRet 1 .noTimeout 0, .done 1 .void, .unlocked 1])
    ⟨_, rfl, rfl, fun f => by
      by_cases hf1 : f = 1
      · subst hf1; exact ⟨rfl, rfl⟩
      by_cases hf2 : f = 2
      · subst hf2; exact ⟨rfl, rfl⟩
      constructor <;> simp [step, run, upd, hf1, hf2, init]⟩
  exact ⟨r, h1, h3, 2, 7, by decide, by rw [ob_of r h5 (i := 2) (by decide) rfl rfl]; simp, h5 6 (by decide),
    by rw [ob_of r h5 (i := 7) (by decide) rfl rfl]; decide⟩

/-- **C116: the lock is needed.** If the data is written without the lock, `wait(lk, pred)` may never return although its predicate is true for
ever and `notify_all()` is called after the write: the write and the notification fall between the evaluation of the predicate and the call of
`unlock()`. -/
theorem write_without_lock_strands : ∃ r : Run (step nonzero) init, r.Strong Event.run ∧ r.Fair Event.timer ∧ Releases r ∧
    (∃ i, .called 1 .waitPred ∈ r.ob i) ∧ (∃ n m, n < m ∧ .wrote 2 7 false ∈ r.ob n ∧ .notifiedAll 2 [] 0 ∈ r.ob m ∧
      ∀ j, n < j → nonzero 1 (r.st j).data = true) ∧ ∀ j x, .done 1 x ∉ r.ob j := by
  obtain ⟨r, h1, h2, h3, h4, h5, h6⟩ := extend (P := nonzero)
    (pre := [.lock 1, .run 1, .call 1 .waitPred, .run 1, .write 2 7, .notifyAll 2, .run 2, .run 1, .run 1, .run 1])
    (t := [.locked 1, .called 1 .waitPred, .evaled 1 false, .wrote 2 7 false, .notifiedAll 2 [] 0, .released 1])
    ⟨_, rfl, rfl, fun f => by
      by_cases hf1 : f = 1
      · subst hf1; exact ⟨rfl, rfl⟩
      by_cases hf2 : f = 2
      · subst hf2; exact ⟨rfl, rfl⟩
      constructor <;> simp [step, run, upd, hf1, hf2, init]⟩
  refine ⟨r, h1, h2, h3, ⟨2, by rw [ob_of r h5 (i := 2) (by decide) rfl rfl]; simp⟩,
    ⟨4, 6, by decide, by rw [ob_of r h5 (i := 4) (by decide) rfl rfl]; decide, by rw [ob_of r h5 (i := 6) (by decide) rfl rfl]; decide, fun j hj => ?_⟩,
    fun j x hx => ?_⟩
  · have hd : ∀ j, j < 11 → 4 < j → ((exec (step nonzero) init (([.lock 1, .run 1, .call 1 .waitPred, .run 1, .write 2 7, .notifyAll 2, .run 2, .run 1,
        .run 1, .run 1] : List Event).take j)).map (·.1.data)) = some 7 := by decide +kernel
    by_cases hl : j < 11
    · obtain ⟨t, ht⟩ := st_of r h5 (i := j) (by simp; omega)
      have := hd j hl hj
      rw [ht] at this
      simp at this
      simp [nonzero, this]
    · have h7 := hd 10 (by decide) (by decide)
      have h8 := h6 j (by simp; omega)
      rw [List.take_of_length_le (by decide), h8] at h7
      simp at h7
      simp [nonzero, h7]
  · obtain ⟨t, ht⟩ := r.tr_le (show j + 1 ≤ max (j + 1) 10 by omega)
    have h7 := h4 (max (j + 1) 10) (by simp; omega)
    rw [ht] at h7
    have hm : Obs.done 1 x ∈ r.tr (j + 1) ++ t := by simp [Run.tr, hx]
    rw [h7] at hm
    simp at hm

end Verif.Props.CvLive
