import Verif.SchedFair
import Verif.Props.Sched

/-!
# Property C118: every fiber gets its turn

`Run` and `Run.Fair` (whoever can go on goes on) are in `Verif/Fair.lean`; here the threads are those who go on. `GivesWay` (in
`Verif/SchedFair.lean`): when a fiber is in the code of the program, sooner or later a fiber of its thread yields, waits, sleeps or ends.
`ready t x`: fiber `x` has become ready on thread `t`; `run t x`: thread `t` resumes `x`; `woken x`: somebody woke `x`; `waits x (some d)`: `x`
suspends itself until it is woken or the clock reads `d`; `ended t`: the scheduler of thread `t` is destroyed.
-/

namespace Verif.Props.SchedFair

open Verif Verif.Sch

variable {r : Run step init} {i : Nat} {t : Tid} {x : Cx}

/-- **C118.** A ready fiber is resumed. -/
theorem ready_fiber_runs (hf : r.Fair Event.run) (hg : GivesWay r) (h : .ready t x ∈ r.ob i) : ∃ j, i < j ∧ .run t x ∈ r.ob j := by
  obtain ⟨j, hj, h1⟩ := queued_runs hf hg (ready_rq (r.next i) h)
  exact ⟨j, by omega, h1⟩

/-- Whoever is in a ready queue later is resumed later. -/
theorem runs_of_queued (hf : r.Fair Event.run) (hg : GivesWay r) (h : ∃ j t, i ≤ j ∧ x ∈ (r.st j).rq t) :
    ∃ j t, i ≤ j ∧ .run t x ∈ r.ob j := by
  obtain ⟨j, t, hj, h1⟩ := h
  obtain ⟨k, hk, h2⟩ := queued_runs hf hg h1
  exact ⟨k, t, by omega, h2⟩

/-- **C118.** A fiber that has been woken, by a fiber of any thread, is resumed. -/
theorem woken_fiber_runs (hf : r.Fair Event.run) (hg : GivesWay r) (h : .woken x ∈ r.ob i) : ∃ j t, i ≤ j ∧ .run t x ∈ r.ob j :=
  runs_of_queued hf hg (woken_ready hf hg h)

/-- **C118.** A fiber that waits with a deadline (or sleeps) is resumed when the deadline has passed, if not before. -/
theorem deadline_ends_wait (hf : r.Fair Event.run) (hg : GivesWay r) {d n : Nat} (h : .waits x (some d) ∈ r.ob i) (hd : d ≤ (r.st n).now) :
    ∃ j t, i ≤ j ∧ .run t x ∈ r.ob j :=
  runs_of_queued hf hg (late_ready hf hg h hd)

/-- **C118.** A launched fiber starts. -/
theorem launched_fiber_starts (hf : r.Fair Event.run) (hg : GivesWay r) {z : Cx} (h : .spawned t z x ∈ r.ob i) :
    ∃ j, i ≤ j ∧ (.run t x ∈ r.ob j ∨ .direct t x ∈ r.ob j) := by
  rcases spawned_then (r.next i) h with h1 | h1
  · obtain ⟨j, hj, h2⟩ := ready_fiber_runs hf hg h1
    exact ⟨j, by omega, .inl h2⟩
  · exact ⟨i, Nat.le_refl _, .inr h1⟩

/-- **C118.** `this_fiber::yield` returns. -/
theorem yield_returns (hf : r.Fair Event.run) (hg : GivesWay r) (ha : (replay (r.tr i)).cur t = some x) (h : r.ev i = .act t .yield) :
    ∃ j, i < j ∧ .run t x ∈ r.ob j := by
  rw [(reach_sim (r.reach i)).2.cur] at ha
  have h1 := r.next i
  rw [h] at h1
  simp only [step, ha, act] at h1
  split at h1 <;> simp only [Option.some.injEq, Prod.mk.injEq, reduceCtorEq] at h1
  have ha' : (r.st (i + 1)).active t = some x := by rw [← h1.1]; exact ha
  have hp' : (r.st (i + 1)).pc x = .yielding := by rw [← h1.1]; simp
  obtain ⟨k, hk, g1, g2, -, -, -, -, g3⟩ := acts hf ha' (by simp [hp']) (by simp [hp'])
  rw [hp'] at g2
  simp only [run, g2, leave, switch, schedule] at g3
  split at g3 <;> simp only [Option.some.injEq, Prod.mk.injEq] at g3
  · have := no_ub (r.reach (k + 1))
    rw [show r.tr (k + 1) = r.tr k ++ r.ob k from rfl, ← g3.2] at this
    simp at this
  · obtain ⟨j, hj, g4⟩ := queued_runs (x := x) (t := t) (i := k + 1) hf hg (by rw [← g3.1]; simp)
    exact ⟨j, by omega, g4⟩

/-- **C118.** When the main function of a thread has returned and the fibers of the thread have all finished, the thread ends. -/
theorem thread_terminates (hf : r.Fair Event.run) (hg : GivesWay r) {m : Nat} (h : .exit t ∈ r.ob i) (hm : i < m)
    (hall : ∀ z n, .spawned t z (.work n) ∈ r.tr m → .finished (.work n) ∈ r.tr m) : ∃ j, i < j ∧ .ended t ∈ r.ob j := by
  refine Classical.byContradiction fun hc => ?_
  have hn : ∀ j, i < j → .ended t ∉ r.ob j := fun j hj h => hc ⟨j, hj, h⟩
  have hmain : ∀ d, (r.st (i + 1 + d)).pc (.main t) ≠ .dead := by
    intro d
    induction d with
    | zero => rw [Nat.add_zero, (exit_then (r.next i) h).2]; simp
    | succ d ih => exact main_alive (reach_inv (r.reach (i + 1 + d))) ih (r.next (i + 1 + d)) (hn _ (by omega))
  have hsd : ∀ d, (r.st (i + 1 + d)).sd t = true := by
    intro d
    have hi := reach_inv (r.reach (i + 1 + d))
    have hs := reach_sim (r.reach (i + 1 + d))
    have hx : .exit t ∈ r.tr (i + 1 + d) := by
      obtain ⟨b, hb⟩ := r.tr_le (show i + 1 ≤ i + 1 + d by omega)
      rw [hb, show r.tr (i + 1) = r.tr i ++ r.ob i from rfl]
      simp [h]
    rw [hi.a.sd]
    have := exit_st hs.1 hx
    rw [hs.2.st] at this
    have hk := hi.a.kMain t
    unfold view at this
    split at this <;> (try split at this) <;> (try split at this) <;> simp_all [Pc.shut]
  obtain ⟨d, rfl⟩ := Nat.le.dest (show i + 1 ≤ m from hm)
  have hi := reach_inv (r.reach (i + 1 + d))
  have hs := reach_sim (r.reach (i + 1 + d))
  have hw : (r.st (i + 1 + d)).wq t = [] := by
    refine List.eq_nil_iff_forall_not_mem.2 fun z hz => ?_
    obtain ⟨⟨n, rfl⟩, h1, h2, h3, h4⟩ := (hi.a.wq t z).1 hz
    generalize r.st (i + 1 + d) = s at *
    generalize r.tr (i + 1 + d) = tr at *
    have hne : (replay tr).st (.work n) ≠ .absent := by
      rw [hs.2.st]; intro h5; unfold view at h5
      split at h5 <;> (try split at h5) <;> (try split at h5) <;> simp_all
    obtain ⟨u, w, hm⟩ := born_spawned hne hs.1
    have hu : u = t := by
      have := (spawned_on hs.1 hm).2 ⟨n, rfl⟩
      rw [hs.2.on _ h2] at this
      exact this.symm.trans h1
    subst hu
    obtain ⟨c, e, rfl⟩ := List.append_of_mem (hall w n hm)
    have h5 := stays_done hs.1
    rw [hs.2.st] at h5
    unfold view at h5
    split at h5 <;> (repeat' split at h5) <;> simp_all
  obtain ⟨j, hj, h1⟩ := thread_ends hf hg (hsd d) hw (hmain d)
  exact hn j (by omega) h1

/-! ## Executions -/

/-- The main fiber of thread `t` is in the code of the program, there is no other fiber. -/
def Lone (t : Tid) (s : State) : Prop :=
  s.active t = some (.main t) ∧ s.pc (.main t) = .user ∧ s.pc (.disp t) = .top ∧ s.rq t = [.disp t] ∧ s.rr t = [] ∧ s.sl t = [] ∧
    s.sd t = false

/-- The main fiber yields, the dispatcher finds nothing to do and resumes it. -/
def round (t : Tid) : List Event := [.act t .yield, .run t, .run t, .run t, .run t, .run t, .run t]

theorem lone_round {s : State} (h : Lone t s) : ∃ s' o, exec step s (round t) = some (s', o) ∧ Lone t s' := by
  obtain ⟨h1, h2, h3, h4, h5, h6, h7⟩ := h
  cases he : exec step s (round t) with
  | none => simp [round, exec, step, h1, h2, h3, h4, h5, h6, h7, act, run, leave, switch, schedule, release, scheduleAll, set_apply] at he
  | some p =>
    refine ⟨p.1, p.2, rfl, ?_⟩
    simp [round, exec, step, h1, h2, h3, h4, h5, h6, h7, act, run, leave, switch, schedule, release, scheduleAll, set_apply] at he
    rw [← he]
    simp [Lone, h6, h7, set_apply]

/-- The state after another round. -/
def again (t : Tid) (s : State) : State :=
  match exec step s (round t) with
  | some (s', _) => s'
  | none => s

def rounds (t : Tid) (s : State) : Nat → State
  | 0 => s
  | n + 1 => again t (rounds t s n)

theorem lone_rounds {s : State} (h : Lone t s) (n : Nat) :
    Lone t (rounds t s n) ∧ ∃ o, exec step (rounds t s n) (round t) = some (rounds t s (n + 1), o) := by
  induction n with
  | zero =>
    obtain ⟨s', o, h1, h2⟩ := lone_round h
    exact ⟨h, o, by simp [rounds, again, h1]⟩
  | succ n ih =>
    obtain ⟨ih, o, h0⟩ := ih
    have h1 : Lone t (rounds t s (n + 1)) := by
      obtain ⟨s', o', h1, h2⟩ := lone_round ih
      rw [h0] at h1
      simp only [Option.some.injEq, Prod.mk.injEq] at h1
      rw [h1.1]; exact h2
    obtain ⟨s', o', h2, h3⟩ := lone_round h1
    exact ⟨h1, o', by rw [h2]; simp [rounds, again] at h2 ⊢; rw [h2]⟩

/-- A thread that has not been started, or has ended, does nothing. -/
theorem no_thread {s s' : State} {e : Event} {o : List Obs} (h : s.active t = none) (he : e ≠ .thread t) (hs : step s e = some (s', o)) :
    s'.active t = none := by
  cases e with
  | run u =>
    simp only [step] at hs
    split at hs
    · rename_i z hz
      have hu : t ≠ u := by rintro rfl; rw [h] at hz; cases hz
      simp only [run, leave, switch, schedule, release, scheduleAll_eq] at hs
      (repeat' split at hs) <;> simp only [Option.some.injEq, Prod.mk.injEq, reduceCtorEq] at hs
      all_goals obtain ⟨rfl, rfl⟩ := hs
      all_goals first
        | exact h
        | (simp only [upd_other _ _ hu]; exact h)
    · cases hs
  | act u a =>
    simp only [step] at hs
    split at hs
    · rename_i z hz
      have hu : t ≠ u := by rintro rfl; rw [h] at hz; cases hz
      split at hs
      · simp only [act, switch, schedule] at hs
        (repeat' split at hs) <;> simp only [Option.some.injEq, Prod.mk.injEq, reduceCtorEq] at hs
        all_goals obtain ⟨rfl, rfl⟩ := hs
        all_goals first
          | exact h
          | (simp only [upd_other _ _ hu]; exact h)
      · cases hs
    · cases hs
  | thread u =>
    have hu : t ≠ u := by rintro rfl; exact he rfl
    simp only [step] at hs
    split at hs <;> simp only [Option.some.injEq, Prod.mk.injEq, reduceCtorEq] at hs
    obtain ⟨rfl, rfl⟩ := hs
    simp only [upd_other _ _ hu]; exact h
  | _ =>
    simp only [step] at hs
    try split at hs
    all_goals simp only [Option.some.injEq, Prod.mk.injEq, reduceCtorEq] at hs
    all_goals obtain ⟨rfl, rfl⟩ := hs
    all_goals exact h

theorem no_thread_from {k : Nat} (h : (r.st k).active t = none) (he : ∀ j, k ≤ j → r.ev j ≠ .thread t) : ∀ j, k ≤ j → (r.st j).active t = none := by
  intro j hj
  obtain ⟨d, rfl⟩ := Nat.le.dest hj
  clear hj
  induction d with
  | zero => exact h
  | succ d ih => exact no_thread ih (he _ (by omega)) (r.next (k + d))

/-- A fiber with a deadline and a fiber woken by a fiber of another thread, which ends; then the first goes on yielding. -/
def pre : List Event :=
  [.thread 0, .thread 1, .act 0 (.spawn 0 false), .act 0 (.wait (some 9)), .run 0, .run 0, .run 0, .run 0, .run 0, .run 0,
   .act 0 (.wait none), .run 0, .run 0, .run 0, .run 0, .run 0, .run 0, .run 0,
   .act 1 (.wake (.work 0) 1), .run 1, .run 1, .run 1, .act 1 .exit, .run 1, .run 1, .run 1, .run 1,
   .run 0, .run 0, .run 0, .run 0, .run 0, .run 0, .tick 10, .act 0 .finish, .run 0, .run 0, .run 0, .run 0, .run 0, .run 0, .run 0]

def preTr : List Obs :=
  [.started 0, .ready 0 (.disp 0), .started 1, .ready 1 (.disp 1), .spawned 0 (.main 0) (.work 0), .ready 0 (.work 0), .waits (.main 0) (some 9),
   .run 0 (.disp 0), .looked 0 0, .run 0 (.work 0), .ready 0 (.disp 0), .waits (.work 0) none, .run 0 (.disp 0), .looked 0 0,
   .woken (.work 0), .exit 1, .run 1 (.disp 1), .stopped 1, .ended 1, .ready 0 (.work 0), .looked 0 0, .run 0 (.work 0), .ready 0 (.disp 0),
   .finished (.work 0), .run 0 (.disp 0), .released (.work 0), .expired (.main 0) 10, .ready 0 (.main 0), .looked 0 10,
   .run 0 (.main 0), .ready 0 (.disp 0)]

theorem pre_exec : ∃ s, exec step init pre = some (s, preTr) ∧ Lone 0 s ∧ s.active 1 = none ∧ s.now = 10 := by
  refine ⟨_, rfl, ⟨rfl, rfl, rfl, rfl, rfl, rfl, rfl⟩, rfl, rfl⟩

theorem pre_part : ∃ s tr, exec step init (pre.take 23) = some (s, tr) ∧ s.sd 1 = true ∧ s.wq 1 = [] := ⟨_, _, rfl, rfl, rfl⟩

/-- The hypotheses hold of an execution with all of this. -/
theorem demo : ∃ r : Run step init, r.Fair Event.run ∧ GivesWay r ∧ r.tr 42 = preTr ∧ (r.st 42).now = 10 ∧ r.ev 42 = .act 0 .yield := by
  obtain ⟨s, h0, hl, hn, hnow⟩ := pre_exec
  obtain ⟨r, h1, h2, h3, h4, -⟩ := Run.lasso (step := step) (init := init) (pre := pre) (evs := round 0) (st := rounds 0 s)
    (t := fun n => Classical.choose (lone_rounds hl n).2) (by simp [round]) h0 (fun n => Classical.choose_spec (lone_rounds hl n).2)
  have hlen : pre.length = 42 := rfl
  have hlen' : (round 0).length = 7 := rfl
  have hmem : ∀ k, (r.ev k ∈ pre ∧ k < 42) ∨ r.ev k ∈ round 0 := by
    intro k
    by_cases hk : k < 42
    · left; rw [h1 k hk]; exact ⟨List.getElem_mem _, hk⟩
    · right
      have e : k = pre.length + (round 0).length * ((k - 42) / 7) + (k - 42) % 7 := by rw [hlen, hlen']; omega
      have h5 := h2 ((k - 42) / 7) ((k - 42) % 7) (by rw [hlen']; omega)
      rw [← e] at h5
      rw [h5]; exact List.getElem_mem _
  have hst42 : r.st 42 = s := h3 0
  have hthr : ∀ (k t : Nat), r.ev k = .thread t → t < 2 ∧ k < 42 := by
    intro k t e
    rcases hmem k with ⟨h, hk⟩ | h
    · refine ⟨?_, hk⟩; rw [e] at h; simp [pre] at h; rcases h with rfl | rfl <;> decide
    · rw [e] at h; simp [round] at h
  have hnone : ∀ t : Nat, 2 ≤ t → ∀ k, (r.st k).active t = none := fun t ht k =>
    no_thread_from (k := 0) (by rw [r.start]; rfl) (fun j _ e => by have := (hthr j t e).1; omega) k (Nat.zero_le _)
  have hnone1 : ∀ k, 42 ≤ k → (r.st k).active 1 = none :=
    no_thread_from (by rw [hst42]; exact hn) (fun j hj e => by have := (hthr j 1 e).2; omega)
  have hcyc : ∀ n j (h : j < 7), r.ev (42 + 7 * n + j) = (round 0)[j] := fun n j h => h2 n j h
  refine ⟨r, fun f i => ?_, fun i t x ha hu => ?_, h4, by rw [hst42]; exact hnow, hcyc 0 0 (by omega)⟩
  · match f with
    | 0 => exact ⟨42 + 7 * i + 1, by omega, .inl (hcyc i 1 (by omega))⟩
    | 1 => exact ⟨42 + i, by omega, .inr (by simp [step, hnone1 (42 + i) (by omega)])⟩
    | f + 2 => exact ⟨i, Nat.le_refl _, .inr (by simp [step, hnone (f + 2) (Nat.le_add_left 2 f) i])⟩
  · match t with
    | 0 => exact ⟨42 + 7 * i, by omega, .yield, rfl, hcyc i 0 (by omega)⟩
    | 1 =>
      by_cases hi : i ≤ 22
      · exact ⟨22, hi, .exit, rfl, h1 22 (by rw [hlen]; omega)⟩
      · exfalso
        obtain ⟨tr, g1, -⟩ := r.part (pre.take 23) 0 (fun j hj => by
          rw [Nat.zero_add, List.getElem_take]; exact h1 j (by simp [hlen] at hj; rw [hlen]; omega))
        obtain ⟨s', tr', g2, g3, g4⟩ := pre_part
        rw [r.start, g2] at g1
        simp only [Option.some.injEq, Prod.mk.injEq] at g1
        have g5 : r.st 23 = s' := g1.1.symm
        have all : ∀ d, (r.st (23 + d)).sd 1 = true ∧ (r.st (23 + d)).wq 1 = [] := by
          intro d
          induction d with
          | zero => rw [Nat.add_zero, g5]; exact ⟨g3, g4⟩
          | succ d ih => exact wq_stays (reach_inv (r.reach (23 + d))) ih.1 ih.2 (r.next (23 + d))
        have := all (i - 23)
        rw [show 23 + (i - 23) = i by omega] at this
        have hinv := reach_inv (r.reach i)
        exact not_last hinv (hinv.a.actHome _ _ ha) (.inr hu) this
    | t + 2 => rw [hnone (t + 2) (Nat.le_add_left 2 t)] at ha; cases ha

/-- The step at which something was observed. -/
theorem ob_of {o : Obs} : ∀ {k : Nat}, o ∈ r.tr k → ∃ i, i < k ∧ o ∈ r.ob i
  | 0, h => by simp [Run.tr] at h
  | k + 1, h => by
    rw [show r.tr (k + 1) = r.tr k ++ r.ob k from rfl, List.mem_append] at h
    rcases h with h | h
    · obtain ⟨i, hi, h1⟩ := ob_of h; exact ⟨i, by omega, h1⟩
    · exact ⟨k, by omega, h⟩

example : ∃ r : Run step init, r.Fair Event.run ∧ GivesWay r ∧ (∃ i, .ready 0 (.work 0) ∈ r.ob i) ∧ (∃ i, .woken (.work 0) ∈ r.ob i) ∧
    (∃ i n, .waits (.main 0) (some 9) ∈ r.ob i ∧ 9 ≤ (r.st n).now) ∧ (∃ i, .spawned 0 (.main 0) (.work 0) ∈ r.ob i) ∧
    (∃ i, r.ev i = .act 0 .yield ∧ (replay (r.tr i)).cur 0 = some (.main 0)) ∧
    (∃ i m, .exit 1 ∈ r.ob i ∧ i < m ∧ ∀ z n, .spawned 1 z (.work n) ∈ r.tr m → .finished (.work n) ∈ r.tr m) := by
  obtain ⟨r, h1, h2, h3, h4, h5⟩ := demo
  have ob : ∀ o ∈ preTr, ∃ i, i < 42 ∧ o ∈ r.ob i := fun o h => ob_of (by rw [h3]; exact h)
  have ob' : ∀ o ∈ preTr, ∃ i, o ∈ r.ob i := fun o h => by obtain ⟨i, -, h⟩ := ob o h; exact ⟨i, h⟩
  refine ⟨r, h1, h2, ob' _ (by decide), ob' _ (by decide), ?_, ob' _ (by decide), ⟨42, h5, by rw [h3]; rfl⟩, ?_⟩
  · obtain ⟨i, h⟩ := ob' (.waits (.main 0) (some 9)) (by decide); exact ⟨i, 42, h, by omega⟩
  · obtain ⟨i, hi, h⟩ := ob (.exit 1) (by decide); exact ⟨i, 42, h, hi, by rw [h3]; simp [preTr]⟩

/-- The fibers of a thread have to give way: while the main fiber goes on computing, a launched fiber does not start. -/
theorem busy_fiber_starves : ∃ r : Run step init, r.Fair Event.run ∧ (∃ i, .ready 0 (.work 0) ∈ r.ob i) ∧ ∀ i t, .run t (.work 0) ∉ r.ob i := by
  have h0 : ∃ s, exec step init [.thread 0, .act 0 (.spawn 0 false)] =
      some (s, [.started 0, .ready 0 (.disp 0), .spawned 0 (.main 0) (.work 0), .ready 0 (.work 0)]) ∧ s.active 0 = some (.main 0) ∧
      s.pc (.main 0) = .user ∧ ∀ t, t ≠ 0 → s.active t = none :=
    ⟨_, rfl, rfl, rfl, fun t ht => upd_other _ _ ht⟩
  obtain ⟨s, h0, ha, hu, hn⟩ := h0
  obtain ⟨r, h1, h2⟩ := Run.rests (e0 := .tick 0) h0 (by rfl)
  refine ⟨r, ?_, ?_, ?_⟩
  · intro f i
    refine ⟨max i 2, by omega, .inr ?_⟩
    rw [(h2 _ (by simp; omega)).2.1]
    by_cases hf : f = 0
    · subst hf; simp [step, ha, run, hu]
    · simp [step, hn f hf]
  · obtain ⟨i, -, h⟩ := ob_of (r := r) (k := 2) (o := .ready 0 (.work 0)) (by rw [(h2 2 (by simp)).2.2]; simp)
    exact ⟨i, h⟩
  · intro i t h
    have : .run t (.work 0) ∈ r.tr (max i 2 + 1) := by
      obtain ⟨b, hb⟩ := r.tr_le (show i + 1 ≤ max i 2 + 1 by omega)
      rw [hb, show r.tr (i + 1) = r.tr i ++ r.ob i from rfl]; simp [h]
    rw [(h2 _ (by simp; omega)).2.2] at this
    simp at this

end Verif.Props.SchedFair
