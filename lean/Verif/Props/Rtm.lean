import Verif.RtmStep

/-!
# C85: spinlocks with hardware lock elision behave like spinlocks

Properties of `spinlock_rtm` over the transactional memory of `Verif.Rtm`, for arbitrary programs of any
number of threads, any number of locks, arbitrary rollbacks and interleavings. The specification is
`Legal`: the same programs with ordinary locks, one operation at a time.
-/

namespace Verif.Props.Rtm

open Verif.Rtm

/-! ## A sample program -/

/-- Every thread increments object 0 once, under lock 0. -/
def incr : Prog := fun t p =>
  if t < 2 then
    match p with
    | [] => some (.lock 0)
    | [.acquired 0] => some (.read 0)
    | [.got 0 v, .acquired 0] => some (.write 0 (v + 1))
    | [.put 0 _, .got 0 _, .acquired 0] => some (.unlock 0)
    | _ => none
  else none

theorem incr_proper : Proper incr := by
  refine ⟨?_, ?_, ?_⟩ <;> intro t p l h <;> simp only [incr] at h <;> (split at h) <;> (try (split at h)) <;> simp_all [holding]

/-- A run: thread 0 increments by speculation, thread 1 has speculated at the same time and is rolled back
by the conflict, then increments with the fallback. -/
def run1 : List Ev :=
  [.step 0, .step 0, .step 0, .step 1, .step 1, .step 1, .step 1, .step 0, .step 0, .step 0, .step 0, .step 0,
   .abort 1 ⟨false, false, false, false⟩, .step 1, .step 1, .step 1, .step 1, .step 1, .step 1]

theorem run1_runs : (exec (step incr) init run1).map (fun r => (r.1.hist, r.1.mem (.data 0))) =
    some ([(1, .released 0), (1, .put 0 2), (1, .got 0 1), (1, .acquired 0),
           (0, .released 0), (0, .put 0 1), (0, .got 0 0), (0, .acquired 0)], 2) := by decide +kernel

/-! ## The same as with ordinary locks -/

/-- Whatever the threads complete is a history of the same programs with ordinary locks, and memory
contains what that history has written. -/
theorem same_as_ordinary_locks {prog : Prog} (hp : Proper prog) {s : State} {tr : List Unit}
    (h : Reach (step prog) init s tr) :
    Legal prog s.hist ∧ (∀ a, s.mem (.data a) = value s.hist a) ∧
      ∀ l, s.mem (.state l) = locked ↔ owner s.hist l ≠ none := by
  have ok := ok_reach hp h
  refine ⟨ok.legal, fun a => (ok.val a).symm, fun l => ?_⟩
  rw [Ne, ok.own l]
  rcases ok.bin l with h | h <;> rw [h] <;> simp [locked, unlocked]

example : ∃ s tr, Reach (step incr) init s tr ∧ s.mem (.data 0) = 2 ∧ s.hist.length = 8 := by
  have h := run1_runs
  cases he : exec (step incr) init run1 with
  | none => rw [he] at h; cases h
  | some r =>
    rw [he] at h
    simp only [Option.map_some, Option.some.injEq, Prod.mk.injEq] at h
    exact ⟨r.1, r.2, reach_of_exec he, h.2, by rw [h.1]; rfl⟩

/-- Also inside of a transaction a thread never sees anything else than what an ordinary execution could
show it, until it is rolled back. -/
theorem speculation_is_consistent {prog : Prog} (hp : Proper prog) {s : State} {tr : List Unit}
    (h : Reach (step prog) init s tr) {t : Tid} {T : Tx} (ht : (s.th t).tx = some T) (hd : T.doomed = false) :
    Legal prog (T.log.map (fun d => (t, d)) ++ s.hist) ∧
      ∀ a, look s t (.data a) = value (T.log.map (fun d => (t, d)) ++ s.hist) a := by
  have ok := (ok_reach hp h).thr t
  simp only [TOk, ht] at ok
  have ok := ok.2.2.2 hd
  refine ⟨ok.legal, fun a => ?_⟩
  simp only [look, ht]
  exact (ok.val a).symm

example : ((exec (step incr) init (run1.take 8)).map (fun r => ((r.1.th 0).tx.map (fun T => (T.doomed, T.log)),
    (r.1.th 1).tx.map (fun T => (T.doomed, T.log))))) =
    some (some (false, [.got 0 0, .acquired 0]), some (false, [.got 0 0, .acquired 0])) := by decide +kernel

/-- Mutual exclusion: between two acquisitions of a lock the first owner has released it. -/
theorem mutual_exclusion {prog : Prog} (hp : Proper prog) {s : State} {tr : List Unit}
    (h : Reach (step prog) init s tr) {t u : Tid} {l : Lock} {later between before : Hist}
    (hh : s.hist = later ++ (u, .acquired l) :: (between ++ (t, .acquired l) :: before)) :
    (t, .released l) ∈ between := by
  have hl := (same_as_ordinary_locks hp h).1
  rw [hh] at hl
  have hl2 : Legal prog ((u, .acquired l) :: (between ++ (t, .acquired l) :: before)) := by
    clear hh
    induction later with
    | nil => exact hl
    | cons e later ih => exact ih hl.2
  clear hl hh
  obtain ⟨ha, hl⟩ := hl2
  simp only [Allowed] at ha
  apply Decidable.byContradiction
  intro hn
  have key : ∀ m : Hist, (t, Done.released l) ∉ m → Legal prog (m ++ (t, .acquired l) :: before) →
      owner (m ++ (t, .acquired l) :: before) l = some t := by
    intro m
    induction m with
    | nil => intro _ _; simp [owner]
    | cons e m ih =>
      intro hm hleg
      obtain ⟨w, d⟩ := e
      have i := ih (fun hc => hm (by simp [hc])) hleg.2
      have ha := hleg.1
      cases d with
      | acquired k =>
        simp only [Allowed] at ha
        by_cases hk : k = l
        · subst hk; exact absurd (ha.2.symm.trans i) (by simp)
        · simp only [List.cons_append, owner, if_neg hk]; exact i
      | released k =>
        simp only [Allowed] at ha
        by_cases hk : k = l
        · subst hk
          have hw : w = t := by
            have := ha.2.symm.trans i
            simpa using this
          subst hw
          exact absurd (by simp) hm
        · simp only [List.cons_append, owner, if_neg hk]; exact i
      | failed k => exact i
      | got a v => exact i
      | put a v => exact i
  rw [key between hn hl] at ha
  exact absurd ha.2 (by simp)

example : ∃ s tr, Reach (step incr) init s tr ∧ ∃ later between before,
    s.hist = later ++ (1, .acquired 0) :: (between ++ (0, .acquired 0) :: before) := by
  have h := run1_runs
  cases he : exec (step incr) init run1 with
  | none => rw [he] at h; cases h
  | some r =>
    rw [he] at h
    simp only [Option.map_some, Option.some.injEq, Prod.mk.injEq] at h
    exact ⟨r.1, r.2, reach_of_exec he, [(1, .released 0), (1, .put 0 2), (1, .got 0 1)],
      [(0, .released 0), (0, .put 0 1), (0, .got 0 0)], [], by rw [h.1]; rfl⟩

/-- No thread ends a transaction that it has not begun (the processor would raise a fault). -/
theorem no_fault {prog : Prog} (hp : Proper prog) {s : State} {tr : List Unit}
    (h : Reach (step prog) init s tr) (t : Tid) : (s.th t).pc ≠ .fault := by
  intro hf
  have ok := (ok_reach hp h).thr t
  cases ht : (s.th t).tx with
  | none => simp only [TOk, ht, hf] at ok; exact ok.1
  | some T => simp only [TOk, ht, hf] at ok; exact absurd ok.2.2.1 (by simp [Pc.outside])

/-- Without properly used locks there can be a fault, so the theorem is not vacuous. -/
example : ∃ s tr, Reach (step (fun _ p => if p = [] then some (.unlock 0) else none)) init s tr ∧
    (s.th 0).pc = .fault := by
  have h : (exec (step (fun _ p => if p = [] then some (.unlock 0) else none)) init
      [.step 0, .step 0, .step 0]).map (fun r => (r.1.th 0).pc) = some .fault := by decide +kernel
  cases he : exec (step (fun _ p => if p = [] then some (.unlock 0) else none)) init
      [.step 0, .step 0, .step 0] with
  | none => rw [he] at h; cases h
  | some r =>
    rw [he] at h
    simp only [Option.map_some, Option.some.injEq] at h
    exact ⟨r.1, r.2, reach_of_exec he, h⟩

/-! ## Rollbacks do not keep a thread from its lock -/

/-- The number of rollbacks in the current call of `lock`. -/
def Tries (k : Thread) : Prop :=
  match k.tx with
  | none =>
    match k.pc with
    | .begin_ _ r => k.rollbacks ≤ r ∧ r < retryThreshold
    | .wait _ r => k.rollbacks ≤ r + 1 ∧ r < retryThreshold
    | .fall _ => k.rollbacks ≤ retryThreshold
    | _ => k.rollbacks = 0
  | some T =>
    match T.ret with
    | .begin_ _ r => k.rollbacks ≤ r ∧ r < retryThreshold
    | _ => k.rollbacks = 0

theorem tries_set {s : State} {t : Tid} {k : Thread} (hs : ∀ u, Tries (s.th u)) (hk : Tries k) :
    ∀ u, Tries ((s.set t k).th u) := by
  intro u
  by_cases hu : u = t
  · subst hu; simpa [State.set] using hk
  · simpa [State.set, hu] using hs u

theorem tries_publish {s : State} {t : Tid} {L : List Done} {ws : List (Loc × Nat)} (hs : ∀ u, Tries (s.th u)) :
    ∀ u, Tries (((publish s t L ws).set t { pc := .run, tx := none, rollbacks := 0 }).th u) := by
  intro u
  by_cases hu : u = t
  · subst hu; simp [State.set, Tries]
  · have h := hs u
    simp only [State.set, publish, upd_other _ _ hu, if_neg hu]
    cases ht : (s.th u).tx with
    | none => exact h
    | some T => simp only [Tries, ht] at h ⊢; exact h

theorem tries_round {l : Lock} {r n : Nat} (h : n ≤ r) (hr : r ≤ retryThreshold) :
    Tries { pc := round l r, tx := none, rollbacks := n } := by
  unfold round
  split <;> simp only [Tries]
  · exact ⟨h, by assumption⟩
  · omega

theorem tries_rollback {s : State} {t : Tid} {T : Tx} {st : Status} (hs : ∀ u, Tries (s.th u))
    (ht : (s.th t).tx = some T) : ∀ u, Tries ((rollback s t T st).th u) := by
  have h := hs t
  simp only [Tries, ht] at h
  unfold rollback
  split
  · rename_i l r hr
    rw [hr] at h
    simp only at h
    refine tries_set hs ?_
    split
    · exact tries_round (by omega) (by omega)
    · split <;> simp only [Tries] <;> omega
  · exact tries_publish hs
  · exact hs

theorem tries_perform {s : State} {t : Tid} {d : Done} {rs : List Loc} {ws : List (Loc × Nat)}
    (hs : ∀ u, Tries (s.th u)) : ∀ u, Tries ((perform s t d rs ws).th u) := by
  have h := hs t
  unfold perform
  split
  · rename_i T hT
    refine tries_set hs ?_
    simp only [Tries, hT] at h ⊢
    exact h
  · exact tries_publish hs

theorem tries_goto {s : State} {t : Tid} {pc : Pc} (hs : ∀ u, Tries (s.th u))
    (hk : (s.th t).tx = none → Tries { s.th t with pc := pc }) :
    ∀ u, Tries ((s.set t { s.th t with pc := pc }).th u) := by
  refine tries_set hs ?_
  cases hT : (s.th t).tx with
  | none => exact hk hT
  | some T =>
    have h := hs t
    simp only [Tries, hT] at h ⊢; exact h

theorem tries_load {s : State} {t : Tid} {x : Loc} {pc : Pc} (hs : ∀ u, Tries (s.th u))
    (hk : (s.th t).tx = none → Tries { s.th t with pc := pc }) : ∀ u, Tries ((load s t x pc).th u) := by
  unfold load
  split
  · rename_i hT; exact tries_set hs (hk hT)
  · rename_i T hT
    refine tries_set hs ?_
    have h := hs t
    simp only [Tries, hT] at h ⊢; exact h

theorem tries_enter {s : State} {t : Tid} {here pc : Pc} (hs : ∀ u, Tries (s.th u)) (hh : (s.th t).pc = here)
    (hst : here.start = true) : ∀ u, Tries ((enter s t here pc).th u) := by
  have h := hs t
  unfold enter
  split
  · rename_i T hT
    refine tries_set hs ?_
    simp only [Tries, hT] at h ⊢; exact h
  · rename_i hT
    refine tries_set hs ?_
    simp only [Tries, hT, hh] at h ⊢
    cases here <;> simp_all [Pc.start]

theorem tries_elide {s : State} {t : Tid} {l : Lock} (hs : ∀ u, Tries (s.th u)) :
    ∀ u, Tries ((elide s t l).th u) := by
  have h := hs t
  unfold elide
  split
  · exact hs
  · rename_i T hT
    split
    · refine tries_set hs ?_
      simp only [Tries, hT] at h ⊢; exact h
    · exact tries_rollback hs hT

theorem tries_leave {s : State} {t : Tid} {l : Lock} (hs : ∀ u, Tries (s.th u)) (hpc : (s.th t).pc = .xend l) :
    ∀ u, Tries ((leave s t l).th u) := by
  have h := hs t
  unfold leave
  split
  · rename_i hT
    refine tries_set hs ?_
    simp only [Tries, hT, hpc] at h ⊢; exact h
  · rename_i T hT
    split
    · refine tries_set hs ?_
      simp only [Tries, hT] at h ⊢; exact h
    · exact tries_publish hs

theorem tries_instr {prog : Prog} {s s' : State} {t : Tid} (hs : ∀ u, Tries (s.th u))
    (hi : instr prog s t = some s') : ∀ u, Tries (s'.th u) := by
  have h := hs t
  unfold instr at hi
  split at hi
  · rename_i hpc
    have h0 : (s.th t).tx = none → (s.th t).rollbacks = 0 := by
      intro hT; simpa only [Tries, hT, hpc] using h
    split at hi
    · cases hi
    · rw [← Option.some.inj hi]
      refine tries_goto hs (fun hT => ?_)
      have := tries_round (l := by assumption) (r := 0) (n := 0) (Nat.le_refl _) (Nat.zero_le _)
      simpa [Tries, hT, h0 hT] using this
    · rw [← Option.some.inj hi]
      exact tries_goto hs (fun hT => by simp [Tries, hT, h0 hT])
    · rw [← Option.some.inj hi]
      exact tries_goto hs (fun hT => by simp [Tries, hT, h0 hT])
    · rw [← Option.some.inj hi]; exact tries_perform hs
    · rw [← Option.some.inj hi]; exact tries_perform hs
  · rename_i hpc
    rw [← Option.some.inj hi]; exact tries_enter hs hpc rfl
  · rw [← Option.some.inj hi]; exact tries_elide hs
  · rename_i l r hpc
    split at hi
    · rw [← Option.some.inj hi]; exact hs
    · rw [← Option.some.inj hi]
      refine tries_load hs (fun hT => ?_)
      simp only [Tries, hT, hpc] at h
      have := tries_round (l := l) h.1 (by omega)
      simpa [Tries, hT] using this
  · rename_i l hpc
    split at hi
    · rw [← Option.some.inj hi]
      refine tries_load hs (fun hT => ?_)
      simp only [Tries, hT, hpc] at h ⊢; exact h
    · rw [← Option.some.inj hi]; exact tries_perform hs
  · rename_i hpc
    rw [← Option.some.inj hi]; exact tries_enter hs hpc rfl
  · rw [← Option.some.inj hi]; exact tries_elide hs
  · rename_i l hpc
    split at hi
    · rw [← Option.some.inj hi]
      refine tries_load hs (fun hT => ?_)
      simp only [Tries, hT, hpc] at h ⊢; exact h
    · rw [← Option.some.inj hi]
      refine tries_load hs (fun hT => ?_)
      simp only [Tries, hT, hpc] at h ⊢; exact h
  · rename_i l hpc
    rw [← Option.some.inj hi]; exact tries_leave hs hpc
  · rw [← Option.some.inj hi]; exact tries_perform hs
  · cases hi

/-- A thread is rolled back at most `BOOST_FIBERS_RETRY_THRESHOLD` times before it completes an operation
for good: if speculation does not work, it takes the lock in the ordinary way. -/
theorem rollbacks_are_bounded {prog : Prog} {s : State} {tr : List Unit} (h : Reach (step prog) init s tr) (t : Tid) :
    (s.th t).rollbacks ≤ retryThreshold := by
  have key : ∀ u, Tries (s.th u) := by
    refine Reach.inv (fun s _ => ∀ u, Tries (s.th u)) ?_ ?_ h
    · intro u; simp [init, Tries]
    · intro s tr e s' o _ hi hs
      cases e with
      | step t =>
        simp only [step] at hs
        split at hs
        · cases hs
        · cases hi' : instr prog s t with
          | none => simp [hi'] at hs
          | some s'' =>
            simp [hi'] at hs
            rw [← hs.1]; exact tries_instr hi hi'
      | abort t st =>
        simp only [step] at hs
        split at hs
        · cases hs
        · rename_i T hT
          simp only [Option.some.injEq, Prod.mk.injEq] at hs
          rw [← hs.1]
          exact tries_rollback hi hT
  have := key t
  unfold Tries at this
  split at this <;> split at this <;> omega

example : ((exec (step incr) init (run1.take 13)).map (fun r => (r.1.th 1).rollbacks)) = some 1 := by decide +kernel

/-- Thread `t` is inside of `lock l`, in no transaction that was begun before. -/
def Locking (s : State) (t : Tid) (l : Lock) : Prop :=
  (∃ r, r < retryThreshold ∧ (s.th t).tx = none ∧ ((s.th t).pc = .begin_ l r ∨ (s.th t).pc = .wait l r)) ∨
  ((s.th t).tx = none ∧ (s.th t).pc = .fall l) ∨
  (∃ r T, r < retryThreshold ∧ (s.th t).tx = some T ∧ T.ret = .begin_ l r ∧ T.log = [] ∧ T.ws = [] ∧
    (s.th t).pc = .check l r)

/-- How much is left to do at most, when the lock is free. -/
def left : Pc → Nat
  | .begin_ _ r => 3 * (retryThreshold - r) + 2
  | .check _ r => 3 * (retryThreshold - r) + 1
  | .wait _ r => 3 * (retryThreshold - r)
  | .fall _ => 1
  | _ => 0

/-- An event of thread `t`. -/
def Ev.by (t : Tid) : Ev → Prop
  | .step u => u = t
  | .abort u _ => u = t

theorem left_round {l : Lock} {r : Nat} (hr : r < retryThreshold) :
    left (round l (r + 1)) < 3 * (retryThreshold - r) := by
  unfold round; split <;> simp only [left] <;> omega

/-- The state after a call has been rolled back, or has waited. -/
theorem locking_round {s : State} {t : Tid} {l : Lock} {r n : Nat} :
    Locking (s.set t { pc := round l r, tx := none, rollbacks := n }) t l := by
  unfold round
  split
  · rename_i h; exact .inl ⟨r, h, by simp [State.set], .inl (by simp [State.set])⟩
  · exact .inr (.inl ⟨by simp [State.set], by simp [State.set]⟩)

theorem locking_rollback {s : State} {t : Tid} {l : Lock} {r : Nat} {T : Tx} {st : Status} (hr : r < retryThreshold)
    (hT : (s.th t).tx = some T) (hret : T.ret = .begin_ l r) (hlog : T.log = [])
    (hpc : (s.th t).pc = .check l r) :
    Locking (rollback s t T st) t l ∧ (rollback s t T st).mem = s.mem ∧
      past (rollback s t T st) t = past s t ∧ left ((rollback s t T st).th t).pc < left (s.th t).pc := by
  have hp : past s t = mine s.hist t := by simp [past, hT, hlog]
  rw [hp, hpc]
  unfold rollback
  rw [hret]
  simp only
  split
  · refine ⟨locking_round, rfl, by simp [past, State.set], ?_⟩
    have := left_round (l := l) hr
    simp only [State.set, upd_same, left]; simp only [left] at this; omega
  · split
    · refine ⟨.inl ⟨r, hr, by simp [State.set], .inr (by simp [State.set])⟩, rfl, by simp [past, State.set], ?_⟩
      simp only [State.set, upd_same, left]; omega
    · refine ⟨.inr (.inl ⟨by simp [State.set], by simp [State.set]⟩), rfl, by simp [past, State.set], ?_⟩
      simp only [State.set, upd_same, left]; omega

/-- One event of a thread that is inside of `lock`, on a free lock. -/
theorem lock_advances {prog : Prog} {s s' : State} {o : List Unit} {t : Tid} {l : Lock} {e : Ev}
    (hl : Locking s t l) (hf : s.mem (.state l) = unlocked) (he : Ev.by t e) (hs : step prog s e = some (s', o)) :
    past s' t = .acquired l :: past s t ∨
      (Locking s' t l ∧ s'.mem (.state l) = unlocked ∧ past s' t = past s t ∧
        left (s'.th t).pc < left (s.th t).pc) := by
  cases e with
  | abort u st =>
    simp only [Ev.by] at he; subst he
    simp only [step] at hs
    split at hs
    · cases hs
    · rename_i T hT
      simp only [Option.some.injEq, Prod.mk.injEq] at hs
      obtain ⟨rfl, _⟩ := hs
      rcases hl with ⟨r, _, hn, _⟩ | ⟨hn, _⟩ | ⟨r, T', hr, hT', h1, h2, h3, h4⟩
      · rw [hn] at hT; cases hT
      · rw [hn] at hT; cases hT
      · rw [hT] at hT'; cases hT'
        obtain ⟨a, b, c, d⟩ := locking_rollback (st := st) hr hT h1 h2 h4
        exact .inr ⟨a, by rw [b]; exact hf, c, d⟩
  | step u =>
    simp only [Ev.by] at he; subst he
    simp only [step] at hs
    split at hs
    · cases hs
    · cases hi : instr prog s u with
      | none => simp [hi] at hs
      | some s'' =>
        simp [hi] at hs
        obtain ⟨rfl, _⟩ := hs
        rcases hl with ⟨r, hr, hn, hpc | hpc⟩ | ⟨hn, hpc⟩ | ⟨r, T, hr, hT, h1, h2, h3, hpc⟩
        · simp only [instr, hpc, enter, hn, Option.some.injEq] at hi
          subst hi
          right
          refine ⟨.inr (.inr ⟨r, { depth := 1, ret := .begin_ l r, rs := [], ws := [], log := [], held := [], doomed := false }, hr,
            by simp only [State.set, upd_same], rfl, rfl, rfl, by simp [State.set]⟩), hf, ?_, ?_⟩
          · simp [past, State.set, hn]
          · simp only [State.set, upd_same, left, hpc]; omega
        · simp only [instr, hpc, look, hn, hf] at hi
          rw [if_neg (by simp [locked, unlocked])] at hi
          simp only [load, hn, Option.some.injEq] at hi
          subst hi
          right
          refine ⟨?_, hf, by simp [past, State.set, hn], ?_⟩
          · have := @locking_round s u l (r + 1) (s.th u).rollbacks
            exact this
          · have := left_round (l := l) hr
            simp only [State.set, upd_same, hpc]; simp only [left] at this ⊢; exact this
        · simp only [instr, hpc, look, hn, hf] at hi
          rw [if_neg (by simp [locked, unlocked])] at hi
          simp only [perform, hn, Option.some.injEq] at hi
          subst hi
          left
          simp [past, State.set, hn, publish, mine]
        · have hlk : look s u (.state l) = unlocked := by simp [look, hT, h3, written, hf]
          simp only [instr, hpc, elide, hT, hlk, if_true, Option.some.injEq] at hi
          subst hi
          left
          simp [past, State.set, hT]

/-- A thread that is inside of `lock` on a free lock can always do something. -/
theorem lock_is_never_stuck {prog : Prog} {s : State} {t : Tid} {l : Lock} (hl : Locking s t l)
    (hf : s.mem (.state l) = unlocked) : ∃ e s' o, Ev.by t e ∧ step prog s e = some (s', o) := by
  cases hd : doomed s t with
  | true =>
    cases hT : (s.th t).tx with
    | none => simp [doomed, hT] at hd
    | some T =>
      exact ⟨.abort t ⟨false, false, false, false⟩, rollback s t T ⟨false, false, false, false⟩, [], rfl, by simp [step, hT]⟩
  | false =>
    have : ∃ s', instr prog s t = some s' := by
      rcases hl with ⟨r, hr, hn, hpc | hpc⟩ | ⟨hn, hpc⟩ | ⟨r, T, hr, hT, h1, h2, h3, hpc⟩
      · exact ⟨_, by simp only [instr, hpc]; rfl⟩
      · simp only [instr, hpc]; split <;> exact ⟨_, rfl⟩
      · simp only [instr, hpc]; split <;> exact ⟨_, rfl⟩
      · exact ⟨_, by simp only [instr, hpc]; rfl⟩
    obtain ⟨s', h⟩ := this
    exact ⟨.step t, s', [], rfl, by simp [step, hd, h]⟩

/-- The longest way through `lock`. -/
def longest : Nat := 3 * retryThreshold + 2

theorem left_le {s : State} {t : Tid} {l : Lock} (h : Locking s t l) : left (s.th t).pc ≤ longest := by
  rcases h with ⟨r, hr, hn, hpc | hpc⟩ | ⟨hn, hpc⟩ | ⟨r, T, hr, hT, h1, h2, h3, hpc⟩ <;>
    rw [hpc] <;> simp only [left, longest, retryThreshold] at * <;> omega

/-- A thread that is inside of `lock`, on a free lock, has it after a bounded number of its own steps, no
matter how often the hardware rolls it back. -/
theorem a_free_lock_is_obtained {prog : Prog} {s : State} {t : Tid} {l : Lock} (hl : Locking s t l)
    (hf : s.mem (.state l) = unlocked) {es : List Ev} (hes : ∀ e ∈ es, Ev.by t e) (hlen : longest < es.length)
    {s' : State} {o : List Unit} (hx : exec (step prog) s es = some (s', o)) :
    ∃ es₁ es₂ s₁ o₁, es = es₁ ++ es₂ ∧ exec (step prog) s es₁ = some (s₁, o₁) ∧
      past s₁ t = .acquired l :: past s t := by
  have key : ∀ (es : List Ev) (s : State) (o : List Unit), Locking s t l → s.mem (.state l) = unlocked →
      (∀ e ∈ es, Ev.by t e) → left (s.th t).pc < es.length → exec (step prog) s es = some (s', o) →
      ∃ es₁ es₂ s₁ o₁, es = es₁ ++ es₂ ∧ exec (step prog) s es₁ = some (s₁, o₁) ∧
        past s₁ t = .acquired l :: past s t := by
    intro es
    induction es with
    | nil => intro s o _ _ _ h _; simp at h
    | cons e es ih =>
      intro s o hl hf hes hlen hx
      simp only [exec] at hx
      split at hx
      · cases hx
      · rename_i s1 o1 hs1
        split at hx
        · cases hx
        · rename_i s2 o2 hx2
          simp only [Option.some.injEq, Prod.mk.injEq] at hx
          rcases lock_advances hl hf (hes e (by simp)) hs1 with h | ⟨h1, h2, h3, h4⟩
          · exact ⟨[e], es, s1, o1, rfl, by simp [exec, hs1], h⟩
          · obtain ⟨es1, es2, s3, o3, e1, e2, e3⟩ := ih s1 o2 h1 h2 (fun e he => hes e (by simp [he]))
              (by simp only [List.length_cons] at hlen; omega) (by rw [hx2, hx.1])
            refine ⟨e :: es1, es2, s3, o1 ++ o3, by rw [e1]; rfl, by simp [exec, hs1, e2], by rw [e3, h3]⟩
  exact key es s o hl hf hes (by have := left_le hl; omega) hx

/-- Non-vacuous: thread 0 is inside of `lock` on a free lock. -/
example : ∃ s tr, Reach (step incr) init s tr ∧ Locking s 0 0 ∧ s.mem (.state 0) = unlocked :=
  ⟨_, _, .tail (.step 0) .refl rfl, .inl ⟨0, by decide, rfl, .inl rfl⟩, rfl⟩

/-! ## try_lock -/

/-- What one would expect of `try_lock`: it fails only when somebody holds the lock. -/
def TryLockIsHonest : Prop :=
  ∀ prog, Proper prog → ∀ s tr, Reach (step prog) init s tr →
    ∀ t l h, s.hist = (t, .failed l) :: h → owner h l ≠ none

/-- A thread that repeats `try_lock` until it succeeds, like a fiber whose timed wait has timed out
(`src/waker.cpp:34-38`). -/
def relock : Prog := fun t p => if t = 0 then (if holding p 0 then none else some (.tryLock 0)) else none

theorem relock_proper : Proper relock := by
  refine ⟨?_, ?_, ?_⟩ <;> intro t p l h <;> simp only [relock] at h <;>
    (split at h) <;> (try (split at h)) <;> simp_all

/-- A thread can repeat `try_lock` for ever without success on a lock that nobody ever holds: there is no
fallback. A timed wait then does not come back although its time is up. -/
theorem try_lock_may_fail_for_ever (n : Nat) :
    ∃ s tr, Reach (step relock) init s tr ∧ s.hist = List.replicate n (0, .failed 0) := by
  have key : ∃ s tr, Reach (step relock) init s tr ∧ s.hist = List.replicate n (0, .failed 0) ∧
      (s.th 0).pc = .run ∧ (s.th 0).tx = none := by
    induction n with
    | zero => exact ⟨init, [], .refl, rfl, rfl, rfl⟩
    | succ n ih =>
      obtain ⟨s, tr, hr, hh, hpc, htx⟩ := ih
      have hm : ∀ n, mine (List.replicate n (0, Done.failed 0)) 0 = List.replicate n (.failed 0) := by
        intro n; simp [mine]
      have hhold : ∀ n, holding (List.replicate n (.failed 0)) 0 = false := by
        intro n; induction n with
        | zero => rfl
        | succ n ih => simpa [List.replicate_succ, holding] using ih
      have hprog : relock 0 (past s 0) = some (.tryLock 0) := by
        simp [relock, past, htx, hh, hm, hhold]
      have e1 : step relock s (.step 0) = some (s.set 0 { s.th 0 with pc := .tbegin 0 }, []) := by
        simp [step, doomed, htx, instr, hpc, hprog]
      let s1 := s.set 0 { s.th 0 with pc := .tbegin 0 }
      have t1 : (s1.th 0).tx = none := by simp [s1, State.set, htx]
      have p1 : (s1.th 0).pc = .tbegin 0 := by simp [s1, State.set]
      have e2 : step relock s1 (.step 0) = some (enter s1 0 (.tbegin 0) (.tcheck 0), []) := by
        simp [step, doomed, t1, instr, p1]
      let s2 := enter s1 0 (.tbegin 0) (.tcheck 0)
      have t2 : (s2.th 0).tx =
          some { depth := 1, ret := .tbegin 0, rs := [], ws := [], log := [], held := [], doomed := false } := by
        simp only [s2, enter, t1]; simp [State.set]
      have e3 := show step relock s2 (.abort 0 ⟨false, false, false, false⟩) = some (_, []) by
        simp only [step, t2]; rfl
      refine ⟨_, _, .tail _ (.tail _ (.tail _ hr e1) e2) e3, ?_, ?_, ?_⟩
      · simp only [rollback, State.set, publish]
        have : s2.hist = s.hist := by simp only [s2, enter, t1]; rfl
        rw [this, hh]; simp [List.replicate_succ]
      · simp [rollback, State.set]
      · simp [rollback, State.set]
  obtain ⟨s, tr, a, b, _⟩ := key
  exact ⟨s, tr, a, b⟩

theorem not_TryLockIsHonest : ¬ TryLockIsHonest := by
  intro h
  obtain ⟨s, tr, hr, hh⟩ := try_lock_may_fail_for_ever 1
  exact h relock relock_proper s tr hr 0 0 [] hh rfl

/-- What does hold: a `try_lock` that is not rolled back succeeds on a free lock, and one that succeeds had
found the lock free (`same_as_ordinary_locks`). -/
theorem try_lock_partial {prog : Prog} {s : State} {t : Tid} {l : Lock} (hn : (s.th t).tx = none)
    (hpc : (s.th t).pc = .tbegin l) (hf : s.mem (.state l) = unlocked) :
    ∃ s' o, exec (step prog) s [.step t, .step t] = some (s', o) ∧ past s' t = .acquired l :: past s t := by
  have e1 : step prog s (.step t) = some (enter s t (.tbegin l) (.tcheck l), []) := by
    simp [step, doomed, hn, instr, hpc]
  let s1 := enter s t (.tbegin l) (.tcheck l)
  have t1 : (s1.th t).tx =
      some { depth := 1, ret := .tbegin l, rs := [], ws := [], log := [], held := [], doomed := false } := by
    simp [s1, enter, hn, State.set]
  have p1 : (s1.th t).pc = .tcheck l := by simp [s1, enter, hn, State.set]
  have hlk : look s1 t (.state l) = unlocked := by
    simp only [look, t1, written]; simpa [s1, enter, hn, State.set] using hf
  have e2 : step prog s1 (.step t) = some (elide s1 t l, []) := by
    simp [step, doomed, t1, instr, p1]
  refine ⟨elide s1 t l, [], by
    have e2' : step prog (enter s t (.tbegin l) (.tcheck l)) (.step t) = some (elide s1 t l, []) := e2
    simp only [exec, e1, e2', List.append_nil], ?_⟩
  simp only [elide, t1, hlk, if_true]
  simp [past, State.set, hn, s1, enter]

example : (init.th 0).tx = none ∧ init.mem (.state 0) = unlocked ∧
    ∃ s tr, Reach (step relock) init s tr ∧ (s.th 0).tx = none ∧ (s.th 0).pc = .tbegin 0 ∧ s.mem (.state 0) = unlocked :=
  ⟨rfl, rfl, _, _, .tail (.step 0) .refl rfl, rfl, rfl, rfl⟩

end Verif.Props.Rtm
