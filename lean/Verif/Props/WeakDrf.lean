import Verif.WeakDrfAtomic
import Verif.WeakDrfLive

/-!
# Properties of programs with locks on weak memory
-/

namespace Verif.Props.WeakDrf

open Verif Verif.Weak Verif.WeakDrf
open Verif.Rtm (Tid Lock Addr Req Done Hist Prog mine owner value Legal Allowed holding owner_iff)

theorem inv_reach {prog : Prog} {right : Hist → Addr → Nat → Right} (hp : Unlocks prog) (hR : Rights prog right) {s : State} {tr : List Unit}
    (h : Reach (step prog) init s tr) : Inv prog right s :=
  Reach.inv (fun s _ => Inv prog right s) inv_init (fun _ _ e _ _ _ hi hs => by obtain ⟨t, ts⟩ := e; exact inv_step hp hR hi hs) h

/-- Programs that share data with the help of the locks have no data race under the C++ memory model, and see only what they could see on sequentially
consistent memory: locks are held by one thread at a time, and a read returns what was written last. It is enough to look at the
sequentially consistent histories to know that the programs are disciplined. -/
theorem no_race_and_sequentially_consistent (prog : Prog) (hp : Unlocks prog) (hd : Disciplined prog) (s : State) (tr : List Unit)
    (h : Reach (step prog) init s tr) : s.ub = false ∧ Legal prog s.hist := by
  obtain ⟨right, hR⟩ := hd
  have hi := inv_reach hp hR h
  exact ⟨hi.ub, hi.legal⟩

/-- The converse: each sequentially consistent history, with `try_lock` failing only while the lock is held, can happen. -/
theorem every_sequential_history_happens (prog : Prog) (hp : Unlocks prog) (hd : Disciplined prog) (h : Hist) (hl : Legal prog h) (hh : Honest h) :
    ∃ s tr, Reach (step prog) init s tr ∧ s.hist = h := by
  obtain ⟨right, hR⟩ := hd
  obtain ⟨s, tr, _, h1, h2, _⟩ := realise hp hR hl hh
  exact ⟨s, tr, h1, h2⟩

/-- Critical sections are single steps: whatever happens on weak memory, the threads could have seen the same, step by step, in a history in which no
critical section is interrupted by another thread. -/
theorem critical_sections_are_atomic (prog : Prog) (hp : Unlocks prog) (hd : Disciplined prog) (h2 : TwoPhase prog) (s : State) (tr : List Unit)
    (h : Reach (step prog) init s tr) :
    ∃ h', Legal prog h' ∧ Atomic h' ∧ (∀ t, mine h' t = mine s.hist t) ∧ (∀ l, owner h' l = owner s.hist l) ∧ ∀ a, value h' a = value s.hist a := by
  obtain ⟨right, hR⟩ := hd
  have hi := inv_reach hp hR h
  obtain ⟨h', h3, h4, h5⟩ := reorder h2 hR hi.legal
  exact ⟨h', h3, h5, h4.1, h4.2.1, h4.2.2⟩

/-- Programs that access data only while they hold the lock the data belong to are disciplined. -/
theorem guarded_programs_are_disciplined (prog : Prog) (guard : Addr → Lock) (hg : Guarded prog guard) : Disciplined prog := by
  refine .of_one (fun h a => match owner h (guard a) with | some t => .thread t | none => .lock (guard a)) ?_
  intro t d h hl
  have ho := fun l => owner_iff hl.2 t l
  refine ⟨?_, ?_⟩
  · intro a v hd
    have : owner h (guard a) = some t := by
      refine hg h t a hl.2 ?_
      rcases hd with rfl | rfl
      · exact .inl hl.1.1
      · exact .inr ⟨v, hl.1⟩
    simp [this]
  · intro a
    have ha := hl.1
    unfold Moves
    cases d <;> simp only [owner, Allowed] at ha ⊢ <;> grind

/-! ## Examples -/

/-- Each thread takes lock 0, increments data 0, and releases the lock; forever. -/
def counter : Prog
  | _, .acquired _ :: _ => some (.read 0)
  | _, .got _ v :: _ => some (.write 0 (v + 1))
  | _, .put _ _ :: _ => some (.unlock 0)
  | _, _ => some (.lock 0)

/-- A thread that runs `counter` holds no lock before the next round, and lock 0 otherwise. -/
theorem counter_past {h : Hist} (hl : Legal counter h) (t : Tid) :
    (∀ l, holding (mine h t) l = true ↔ l = 0 ∧ counter t (mine h t) ≠ some (.lock 0)) ∧ ¬ Shrinking (mine h t) := by
  induction h with
  | nil => simp [mine, holding, counter, Shrinking]
  | cons e h ih =>
    obtain ⟨u, d⟩ := e
    obtain ⟨ha, hl⟩ := hl
    obtain ⟨ih1, ih2⟩ := ih hl
    by_cases hu : t = u
    · subst hu
      rw [mine_cons_same]
      generalize hq : mine h t = q at *
      have ho : ∀ l, d = .acquired l ∨ d = .released l → l = 0 := by
        intro l hd
        rcases hd with rfl | rfl <;> simp only [Allowed, hq] at ha <;> unfold counter at ha <;> grind
      cases d <;> simp only [Allowed, hq] at ha <;> simp only [Shrinking, holding, counter] <;> unfold counter at ha ih1 <;> grind [holding]
    · rw [mine_cons_other hu]
      exact ⟨ih1, ih2⟩

theorem counter_unlocks : Unlocks counter := by
  intro h t l hl hr
  rw [owner_iff hl, (counter_past hl t).1, hr]
  refine ⟨?_, by simp⟩
  unfold counter at hr; grind

theorem counter_guarded : Guarded counter (fun _ => 0) := by
  intro h t a hl hr
  rw [owner_iff hl, (counter_past hl t).1]
  refine ⟨rfl, ?_⟩
  rcases hr with hr | ⟨v, hr⟩ <;> rw [hr] <;> simp

theorem counter_two_phase : TwoPhase counter := fun _ t _ hl _ => (counter_past hl t).2

/-- So, for any number of threads, each thread reads what the last one wrote. -/
example (s : State) (tr : List Unit) (h : Reach (step counter) init s tr) : s.ub = false ∧ Legal counter s.hist :=
  no_race_and_sequentially_consistent _ counter_unlocks (guarded_programs_are_disciplined _ _ counter_guarded) s tr h

example (s : State) (tr : List Unit) (h : Reach (step counter) init s tr) : ∃ h', Legal counter h' ∧ Atomic h' := by
  obtain ⟨h', h1, h2, _⟩ :=
    critical_sections_are_atomic _ counter_unlocks (guarded_programs_are_disciplined _ _ counter_guarded) counter_two_phase s tr h
  exact ⟨h', h1, h2⟩

/-- A run of `counter`: two threads, the second one spins while the first one has the lock, then reads what the first one wrote. -/
def run2 : List (Tid × Nat) :=
  [(7, 0), (7, 0), (8, 0), (8, 0), (7, 0), (8, 1), (8, 2), (7, 0), (7, 0), (7, 3), (8, 3), (8, 3), (8, 0), (8, 0)]

example : ((exec (step counter) init run2).map fun r => (r.1.hist, r.1.ub)) =
    some ([(8, .put 0 2), (8, .got 0 1), (8, .acquired 0), (7, .released 0), (7, .put 0 1), (7, .got 0 0), (7, .acquired 0)], false) := by
  decide +kernel

/-- Without the lock there is a race. -/
def careless : Prog := fun _ p => if p.isEmpty then some (.write 0 1) else none

example : ((exec (step careless) init [(0, 0), (1, 0)]).map fun r => r.1.ub) = some true := by decide +kernel

/-- A write that does not come after a read by another thread is a race, and so is a read that does not come after a write. -/
def reader : Prog
  | 0, [] => some (.write 0 1)
  | 0, _ => none
  | _, _ => some (.read 0)

example : ((exec (step reader) init [(1, 0), (2, 0), (2, 0), (0, 0)]).map fun r => r.1.ub) = some true := by decide +kernel
example : ((exec (step reader) init [(0, 0), (1, 0)]).map fun r => r.1.ub) = some true := by decide +kernel

/-- Reads do not race with each other. -/
example : ((exec (step reader) init [(1, 0), (2, 0), (1, 0)]).map fun r => (r.1.ub, r.1.hist)) =
    some (false, [(1, .got 0 0), (2, .got 0 0), (1, .got 0 0)]) := by decide +kernel

/-- Many threads read data at the same time: thread `t` has share `t`. -/
theorem readers_disciplined : Disciplined fun _ _ => some (.read 0) :=
  ⟨fun _ _ i => .thread i, fun t d h hl => ⟨fun _ _ _ => ⟨t, rfl⟩, fun a v hd => by subst hd; simp [Legal, Allowed] at hl, fun _ _ => .inl rfl⟩⟩

example (s : State) (tr : List Unit) (h : Reach (step fun _ _ => some (.read 0)) init s tr) : s.ub = false :=
  (no_race_and_sequentially_consistent _ (by intro h t l _ hr; cases hr) readers_disciplined s tr h).1

/-! ### Passing data on without a lock around them -/

/-- Thread 0 writes data 0 without a lock, and then, under lock 0, sets the flag data 1. Thread 1 looks at the flag, under the lock, until it is set, and
then reads data 0 without a lock. -/
def mailbox : Prog
  | 0, p =>
    if holding p 0 then
      match p with
      | .acquired _ :: _ => some (.write 1 1)
      | _ => some (.unlock 0)
    else
      match p with
      | [] => some (.write 0 42)
      | .put 0 _ :: _ => some (.lock 0)
      | _ => none
  | 1, p =>
    if holding p 0 then
      match p with
      | .acquired _ :: _ => some (.read 1)
      | _ => some (.unlock 0)
    else
      match p with
      | .released _ :: .got _ 1 :: _ => some (.read 0)
      | .got _ _ :: _ => none
      | _ => some (.lock 0)
  | _, _ => none

/-- Who has the right to access data 0. -/
def letter : Hist → Right
  | [] => .thread 0
  | (0, .released _) :: _ => .lock 0
  | (1, .acquired _) :: h => if letter h = .lock 0 then .thread 1 else letter h
  | _ :: h => letter h

/-- What holds in every sequentially consistent history of `mailbox`. -/
structure Mail (h : Hist) : Prop where
  past0 : mine h 0 = [] ∨ mine h 0 = [.put 0 42] ∨ mine h 0 = [.acquired 0, .put 0 42] ∨ mine h 0 = [.put 1 1, .acquired 0, .put 0 42] ∨
    mine h 0 = [.released 0, .put 1 1, .acquired 0, .put 0 42]
  past1 : mine h 1 = [] ∨ (∃ p, mine h 1 = .acquired 0 :: p) ∨ (∃ v p, mine h 1 = .got 1 v :: .acquired 0 :: p) ∨
    (∃ v p, mine h 1 = .released 0 :: .got 1 v :: p) ∨ (∃ v p, mine h 1 = .got 0 v :: .released 0 :: p)
  other : ∀ t, 2 ≤ t → mine h t = []
  own : ∀ t, owner h 0 = some t ↔ (t = 0 ∧ (mine h 0 = [.acquired 0, .put 0 42] ∨ mine h 0 = [.put 1 1, .acquired 0, .put 0 42])) ∨
    (t = 1 ∧ ((∃ p, mine h 1 = .acquired 0 :: p) ∨ (∃ v p, mine h 1 = .got 1 v :: .acquired 0 :: p)))
  first : letter h = .thread 0 ↔ mine h 0 ≠ [.released 0, .put 1 1, .acquired 0, .put 0 42]
  late : letter h = .thread 0 ∨ letter h = .lock 0 ∨ letter h = .thread 1
  flag : value h 1 = 1 → mine h 0 = [.put 1 1, .acquired 0, .put 0 42] ∨ mine h 0 = [.released 0, .put 1 1, .acquired 0, .put 0 42]
  inside : letter h = .lock 0 → owner h 0 ≠ some 1
  seen : ∀ p, mine h 1 = .got 1 1 :: p → letter h = .thread 1
  done : ∀ p, mine h 1 = .released 0 :: .got 1 1 :: p → letter h = .thread 1
  read : ∀ v p, mine h 1 = .got 0 v :: p → letter h = .thread 1 ∧ v = 42
  text : mine h 0 ≠ [] → value h 0 = 42

theorem mail {h : Hist} (hl : Legal mailbox h) : Mail h := by
  induction h with
  | nil => constructor <;> simp [mine, owner, letter, value]
  | cons e h ih =>
    obtain ⟨t, d⟩ := e
    obtain ⟨ha, hl⟩ := hl
    obtain ⟨p0, p1, po, ow, f, la, fl, ins, se, dn, re, tx⟩ := ih hl
    have hm0 : ∀ u, u ≠ t → mine ((t, d) :: h) u = mine h u := fun u hu => mine_cons_other hu d h
    have hm1 := mine_cons_same t d h
    have h3 := owner_iff hl 0 0
    have h4 := owner_iff hl 1 0
    match t with
    | 0 =>
      have hm2 := hm0 1 (by simp)
      have hm3 : ∀ u, 2 ≤ u → mine ((0, d) :: h) u = [] := fun u hu => by rw [hm0 u (by rintro rfl; exact absurd hu (by decide))]; exact po u hu
      have hd : (mine h 0 = [] ∧ d = .put 0 42) ∨ (mine h 0 = [.put 0 42] ∧ d = .acquired 0 ∧ owner h 0 = none) ∨
          (mine h 0 = [.acquired 0, .put 0 42] ∧ d = .put 1 1) ∨ (mine h 0 = [.put 1 1, .acquired 0, .put 0 42] ∧ d = .released 0) := by
        rcases p0 with p | p | p | p | p <;> cases d <;> simp [Allowed, p, mailbox, holding] at ha ⊢ <;> grind
      clear ha
      rcases hd with ⟨hd, rfl⟩ | ⟨hd, rfl, hd'⟩ | ⟨hd, rfl⟩ | ⟨hd, rfl⟩ <;>
        (rw [hd] at hm1; constructor <;> (try simp only [owner, letter, value]) <;> grind)
    | 1 =>
      have hm2 := hm0 0 (by simp)
      have hm3 : ∀ u, 2 ≤ u → mine ((1, d) :: h) u = [] := fun u hu => by rw [hm0 u (by rintro rfl; exact absurd hu (by decide))]; exact po u hu
      have hd : (d = .acquired 0 ∧ owner h 0 = none ∧ (mine h 1 = [] ∨ ∃ v p, mine h 1 = .released 0 :: .got 1 v :: p ∧ v ≠ 1)) ∨
          (∃ p, mine h 1 = .acquired 0 :: p ∧ d = .got 1 (value h 1)) ∨ (∃ v p, mine h 1 = .got 1 v :: .acquired 0 :: p ∧ d = .released 0) ∨
          (∃ v p, mine h 1 = .released 0 :: .got 1 1 :: p ∧ d = .got 0 v ∧ value h 0 = v) := by
        rcases p1 with p | ⟨p', p⟩ | ⟨v, p', p⟩ | ⟨v, p', p⟩ | ⟨v, p', p⟩ <;> cases d <;> simp [Allowed, p, mailbox, holding] at ha ⊢ <;> grind
      clear ha
      rcases hd with ⟨rfl, hd'⟩ | ⟨p, hd, rfl⟩ | ⟨v, p, hd, rfl⟩ | ⟨v, p, hd, rfl, hd'⟩ <;>
        (try rw [hd] at hm1) <;> (constructor <;> (try simp only [owner, letter, value]) <;> grind)
    | n + 2 => cases d <;> simp only [Allowed] at ha <;> unfold mailbox at ha <;> simp at ha

theorem mailbox_unlocks : Unlocks mailbox := by
  intro h t l hl hr
  have h3 := owner_iff hl 0 0
  have h4 := owner_iff hl 1 0
  have hm := mail hl
  obtain ⟨p0, p1, po, ow, f, la, fl, ins, se, dn, re, tx⟩ := hm
  match t with
  | 0 => unfold mailbox at hr; grind
  | 1 => unfold mailbox at hr; grind
  | n + 2 => simp [mailbox] at hr

/-- The right to access data 0 goes from thread 0 through the lock to thread 1. -/
theorem mailbox_disciplined : Disciplined mailbox := by
  refine .of_one (fun h a => if a = 0 then letter h else match owner h 0 with | some t => .thread t | none => .lock 0) ?_
  intro t d h hl
  have hm := mail hl.2
  have hm' := mail hl
  have h3 := owner_iff hl.2 0 0
  have h4 := owner_iff hl.2 1 0
  have ha := hl.1
  have hu := mailbox_unlocks h t
  obtain ⟨p0, p1, po, ow, f, la, fl, ins, se, dn, re, tx⟩ := hm
  refine ⟨?_, ?_⟩
  · intro a v hd
    match t with
    | 0 =>
      rcases hd with rfl | rfl <;> simp only [Allowed] at ha <;> unfold mailbox at ha <;> grind
    | 1 =>
      rcases hd with rfl | rfl <;> simp only [Allowed] at ha <;> unfold mailbox at ha <;> grind
    | n + 2 => rcases hd with rfl | rfl <;> simp [Allowed, mailbox] at ha
  · intro a
    unfold Moves
    match t with
    | 0 => cases d <;> simp only [Allowed] at ha <;> unfold mailbox at ha <;> simp only [letter, owner] <;> grind
    | 1 => cases d <;> simp only [Allowed] at ha <;> unfold mailbox at ha <;> simp only [letter, owner] <;> grind
    | n + 2 => cases d <;> simp [Allowed, mailbox] at ha

/-- On weak memory, too, the letter arrives. -/
example (s : State) (tr : List Unit) (h : Reach (step mailbox) init s tr) (v : Nat) (p : List Done) (hm : mine s.hist 1 = .got 0 v :: p) :
    s.ub = false ∧ v = 42 := by
  obtain ⟨h1, h2⟩ := no_race_and_sequentially_consistent _ mailbox_unlocks mailbox_disciplined s tr h
  exact ⟨h1, ((mail h2).read v p hm).2⟩

/-- It does happen: thread 1 looks once too early, and then again. -/
example : ((exec (step mailbox) init [(1, 0), (1, 0), (0, 0), (1, 0), (1, 0), (1, 2), (0, 0), (0, 2), (0, 2), (0, 0), (0, 4), (1, 0), (1, 4), (1, 4), (1, 0), (1, 6),
    (1, 0)]).map fun r => (mine r.1.hist 1, r.1.ub)) =
    some ([.got 0 42, .released 0, .got 1 1, .acquired 0, .released 0, .got 1 0, .acquired 0], false) := by decide +kernel

end Verif.Props.WeakDrf
