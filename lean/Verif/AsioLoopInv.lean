import Verif.AsioLoop
import Verif.PriorityInv

/-!
# Fibers and asio's main loop: invariants
-/

namespace Verif.AsioLoop
open Verif.Priority (mem_sleepIns nodup_sleepIns sorted_sleepIns mem_takeWhile)

/-! ## The queues -/

/-- How many ready fibers there are, without the dispatcher. -/
def others (q : List Nat) : Nat := (q.filter (· ≠ disp)).length

/-- `l`: the fibers the dispatcher has taken from the remote queue, and not yet made ready. -/
structure Base (l : List Nat) (s : State) : Prop where
  nodup : s.queue.Nodup
  st : ∀ y, s.st y = .ready ↔ y ∈ s.queue
  run : ∀ y, s.st y = .running ↔ y = s.cur
  dst : s.st disp = .ready ∨ s.st disp = .running
  counter : s.counter = others s.queue
  rst : ∀ y, y ∈ s.remoteq ++ l ↔ s.st y = .remote
  rnodup : (s.remoteq ++ l).Nodup
  sst : ∀ y t, (t, y) ∈ s.sleepq ↔ s.st y = .asleep t
  snodup : (s.sleepq.map (·.2)).Nodup
  sorted : s.sleepq.Pairwise (fun a b => a.1 ≤ b.1)

theorem others_append {q : List Nat} {y : Nat} : others (q ++ [y]) = if y = disp then others q else others q + 1 := by
  unfold others; split <;> simp_all [List.filter_append]

theorem others_cons {q : List Nat} {y : Nat} : others (y :: q) = if y = disp then others q else others q + 1 := by
  unfold others; split <;> simp_all [List.filter_cons]

theorem init_base : Base [] init := by
  constructor
  all_goals simp [init, disp, main, others]
  all_goals grind

theorem schedule_base {l : List Nat} {s : State} {y : Nat} (h : Base l s) (h1 : s.st y ≠ .ready) (h2 : s.st y ≠ .running) (h3 : s.st y ≠ .remote) : Base l (schedule s y).1 := by
  have hq : y ∉ s.queue := fun hc => h1 ((h.st y).2 hc)
  simp only [schedule, awakened]
  constructor
  · have := h.nodup; rw [List.nodup_append]; simp [this]; grind
  · intro z; have := h.st z; simp only [List.mem_append, List.mem_singleton]; grind [upd_apply]
  · intro z; have := h.run z; have := h.run y; grind [upd_apply]
  · have := h.dst; grind [upd_apply]
  · rw [others_append, h.counter]
  · intro z; have := h.rst z; grind [upd_apply]
  · exact h.rnodup
  · intro z t; have := h.sst z t; simp only [List.mem_filter]; grind [upd_apply]
  · exact h.snodup.sublist (List.filter_sublist.map _)
  · exact h.sorted.sublist List.filter_sublist

theorem schedule_remote {l : List Nat} {s : State} {y : Nat} (h : Base (y :: l) s) : Base l (schedule s y).1 := by
  have hr := (h.rst y).1 (by simp)
  have hq : y ∉ s.queue := fun hc => by have := (h.st y).2 hc; simp [hr] at this
  have hn := h.rnodup
  have hy : y ∉ s.remoteq ++ l := by
    rw [List.nodup_append] at hn
    have := hn.2.1; have := hn.2.2
    grind
  simp only [schedule, awakened]
  constructor
  · have := h.nodup; rw [List.nodup_append]; simp [this]; grind
  · intro z; have := h.st z; simp only [List.mem_append, List.mem_singleton]; grind [upd_apply]
  · intro z; have := h.run z; have := h.run y; grind [upd_apply]
  · have := h.dst; grind [upd_apply]
  · rw [others_append, h.counter]
  · intro z; have := h.rst z; grind [upd_apply]
  · exact hn.sublist (List.Sublist.append (List.Sublist.refl _) (List.sublist_cons_self _ _))
  · intro z t; have := h.sst z t; simp only [List.mem_filter]; grind [upd_apply]
  · exact h.snodup.sublist (List.filter_sublist.map _)
  · exact h.sorted.sublist List.filter_sublist

theorem scheduleAll_remote : ∀ {l : List Nat} {s : State}, Base l s → Base [] (scheduleAll s l).1 := by
  intro l
  induction l with
  | nil => intro s h; exact h
  | cons y l ih => intro s h; exact ih (schedule_remote h)

theorem schedule_st {s : State} {y z : Nat} (h : z ≠ y) : (schedule s y).1.st z = s.st z := by simp [schedule, awakened, h]

theorem scheduleAll_asleep : ∀ {l : List Nat} {s : State}, Base [] s → l.Nodup → (∀ y ∈ l, ∃ t, s.st y = .asleep t) → Base [] (scheduleAll s l).1 := by
  intro l
  induction l with
  | nil => intro s h _ _; exact h
  | cons y l ih =>
    intro s h hn hl
    rw [List.nodup_cons] at hn
    obtain ⟨t, ht⟩ := hl y (by simp)
    refine ih (schedule_base h (by simp [ht]) (by simp [ht]) (by simp [ht])) hn.2 fun z hz => ?_
    have hzy : z ≠ y := by rintro rfl; exact hn.1 hz
    have := hl z (by simp [hz])
    rw [← schedule_st (s := s) hzy] at this; exact this

/-- What the dispatcher has made ready before it looks for a fiber to run. -/
def woken (s : State) : State × List Obs :=
  let (s1, o1) := scheduleAll { s with remoteq := [] } s.remoteq
  let (s2, o2) := scheduleAll s1 ((s1.sleepq.takeWhile (·.1 ≤ s1.now)).map (·.2))
  (s2, o1 ++ o2)

theorem woken_base {s : State} (h : Base [] s) : Base [] (woken s).1 := by
  have h0 : Base s.remoteq { s with remoteq := [] } :=
    ⟨h.nodup, h.st, h.run, h.dst, h.counter, by have := h.rst; simpa using this, by have := h.rnodup; simpa using this, h.sst, h.snodup, h.sorted⟩
  have h1 := scheduleAll_remote h0
  have hsl : ((scheduleAll { s with remoteq := [] } s.remoteq).1.sleepq.takeWhile (·.1 ≤ (scheduleAll { s with remoteq := [] } s.remoteq).1.now)).Sublist
    (scheduleAll { s with remoteq := [] } s.remoteq).1.sleepq := List.takeWhile_sublist _
  exact scheduleAll_asleep h1 (h1.snodup.sublist (hsl.map _)) (fun y hy => by
    obtain ⟨a, ha, rfl⟩ := List.mem_map.1 hy
    exact ⟨a.1, (h1.sst a.2 a.1).1 (hsl.subset ha)⟩)

theorem turn_eq {s : State} : step s .turn = if s.cur = disp then (match (woken s).1.queue with
    | [] => some ((suspendUntil (woken s).1).1, (woken s).2 ++ (suspendUntil (woken s).1).2)
    | _ :: _ => some ((leave (woken s).1 .ready).1, (woken s).2 ++ (leave (woken s).1 .ready).2)) else none := by
  simp only [step, woken]
  split
  · split <;> rename_i hq <;> split <;> rename_i hq' <;> simp_all
  · rfl

/-- A fiber that yields: the first fiber of the queue runs, and the other one is put into the queue. -/
theorem leave_ready {s : State} (h : Base [] s) (hne : s.queue ≠ []) : Base [] (leave s .ready).1 := by
  cases hq : s.queue with
  | nil => exact absurd hq hne
  | cons x q =>
    have hc := (h.run s.cur).2 rfl
    have hx := (h.st x).2 (by simp [hq])
    have hxc : x ≠ s.cur := by rintro rfl; simp [hc] at hx
    have hst : ∀ y, s.st y = .ready ↔ y = x ∨ y ∈ q := fun y => by rw [h.st, hq]; simp
    have hn := h.nodup
    rw [hq, List.nodup_cons] at hn
    have hxq : x ∉ q := hn.1
    have hcq : s.cur ∉ q := fun hh => by have := (hst s.cur).2 (.inr hh); simp [hc] at this
    have hcnt := h.counter
    rw [hq, others_cons] at hcnt
    simp only [leave, hq, if_true, schedule, awakened]
    constructor
    · rw [List.nodup_append]; simp [hn.2]; grind
    · intro z; have := hst z; simp only [List.mem_append, List.mem_singleton]; grind [upd_apply]
    · intro z; have := h.run z; grind [upd_apply]
    · have := h.dst; grind [upd_apply]
    · rw [others_append, hcnt]; split <;> split <;> simp_all
    · intro z; have := h.rst z; grind [upd_apply]
    · exact h.rnodup
    · intro z t; have := h.sst z t; simp only [List.mem_filter]; grind [upd_apply]
    · exact h.snodup.sublist (List.filter_sublist.map _)
    · exact h.sorted.sublist List.filter_sublist

/-- A fiber that does not stay ready. -/
theorem leave_not {s : State} {r : St} (h : Base [] s) (hr : r = .blocked ∨ r = .ended) (hd : s.cur ≠ disp) (hne : s.queue ≠ []) : Base [] (leave s r).1 := by
  cases hq : s.queue with
  | nil => exact absurd hq hne
  | cons x q =>
    have hc := (h.run s.cur).2 rfl
    have hx := (h.st x).2 (by simp [hq])
    have hxc : x ≠ s.cur := by rintro rfl; simp [hc] at hx
    have hst : ∀ y, s.st y = .ready ↔ y = x ∨ y ∈ q := fun y => by rw [h.st, hq]; simp
    have hn := h.nodup
    rw [hq, List.nodup_cons] at hn
    have hxq : x ∉ q := hn.1
    have hrr : r ≠ .ready := by rcases hr with rfl | rfl <;> simp
    have hcnt := h.counter
    rw [hq, others_cons] at hcnt
    simp only [leave, hq, if_neg hrr]
    constructor
    · exact hn.2
    · intro z; have := hst z; grind [upd_apply]
    · intro z; have := h.run z; grind [upd_apply]
    · have := h.dst; grind [upd_apply]
    · show _ = others q
      rw [hcnt]; split <;> simp_all
    · intro z; have := h.rst z; grind [upd_apply]
    · exact h.rnodup
    · intro z t; have := h.sst z t; grind [upd_apply]
    · exact h.snodup
    · exact h.sorted

/-- A fiber that falls asleep. -/
theorem leave_asleep {s : State} {t : Nat} (h : Base [] s) (hd : s.cur ≠ disp) (hne : s.queue ≠ []) :
    Base [] (leave { s with sleepq := Verif.Priority.sleepIns t s.cur s.sleepq } (.asleep t)).1 := by
  cases hq : s.queue with
  | nil => exact absurd hq hne
  | cons x q =>
    have hc := (h.run s.cur).2 rfl
    have hx := (h.st x).2 (by simp [hq])
    have hxc : x ≠ s.cur := by rintro rfl; simp [hc] at hx
    have hst : ∀ y, s.st y = .ready ↔ y = x ∨ y ∈ q := fun y => by rw [h.st, hq]; simp
    have hn := h.nodup
    rw [hq, List.nodup_cons] at hn
    have hxq : x ∉ q := hn.1
    have hcnt := h.counter
    rw [hq, others_cons] at hcnt
    simp only [leave, hq, reduceCtorEq, if_false]
    constructor
    · exact hn.2
    · intro z; have := hst z; grind [upd_apply]
    · intro z; have := h.run z; grind [upd_apply]
    · have := h.dst; grind [upd_apply]
    · show _ = others q
      rw [hcnt]; split <;> simp_all
    · intro z; have := h.rst z; grind [upd_apply]
    · exact h.rnodup
    · intro z u; have := h.sst z u; simp only [mem_sleepIns]; grind [upd_apply]
    · exact nodup_sleepIns h.snodup fun u hu => by have := (h.sst s.cur u).1 hu; simp [hc] at this
    · exact sorted_sleepIns h.sorted

theorem queue_ne {s : State} (h : Base [] s) (hd : s.cur ≠ disp) : disp ∈ s.queue ∧ s.queue ≠ [] := by
  have hr : s.st disp = .ready := by
    rcases h.dst with h1 | h1
    · exact h1
    · exact absurd ((h.run disp).1 h1).symm hd
  have := (h.st disp).1 hr
  exact ⟨this, by intro e; simp [e] at this⟩

theorem dispatch_base {s : State} {y : Nat} (h : Base [] s) (hd : s.cur ≠ disp) (hu : s.st y = .unborn) : Base [] (schedule { s with cur := y, st := upd s.st y .running } s.cur).1 := by
  have hc := (h.run s.cur).2 rfl
  have hcq : s.cur ∉ s.queue := fun hh => by have := (h.st s.cur).2 hh; simp [hc] at this
  have hyc : y ≠ s.cur := by rintro rfl; simp [hc] at hu
  simp only [schedule, awakened]
  constructor
  · have := h.nodup; rw [List.nodup_append]; simp [this]; grind
  · intro z; have := h.st z; simp only [List.mem_append, List.mem_singleton]; grind [upd_apply]
  · intro z; have := h.run z; grind [upd_apply]
  · have := h.dst; grind [upd_apply]
  · rw [others_append, h.counter]
  · intro z; have := h.rst z; grind [upd_apply]
  · exact h.rnodup
  · intro z t; have := h.sst z t; simp only [List.mem_filter]; grind [upd_apply]
  · exact h.snodup.sublist (List.filter_sublist.map _)
  · exact h.sorted.sublist List.filter_sublist

theorem same_base {s s' : State} (h : Base [] s) (h1 : s'.queue = s.queue) (h2 : s'.counter = s.counter) (h3 : s'.cur = s.cur) (h4 : s'.st = s.st) (h5 : s'.sleepq = s.sleepq) (h6 : s'.remoteq = s.remoteq) : Base [] s' := by
  obtain ⟨a1, a2, a3, a4, a5, a6, a7, a8, a9, a10⟩ := h
  constructor <;> simp only [h1, h2, h3, h4, h5, h6] <;> assumption

theorem remote_base {s : State} {y n : Nat} (h : Base [] s) (hy : s.st y = .blocked ∨ ∃ t, s.st y = .asleep t) :
    Base [] { s with remoteq := s.remoteq ++ [y], st := upd s.st y .remote, sleepq := s.sleepq.filter (·.2 ≠ y), n1 := n } := by
  have h1 := h.rst y
  constructor
  · exact h.nodup
  · intro z; have := h.st z; grind [upd_apply]
  · intro z; have := h.run z; have := h.run y; grind [upd_apply]
  · have := h.dst; grind [upd_apply]
  · exact h.counter
  · intro z; have := h.rst z; grind [upd_apply]
  · have := h.rnodup; grind
  · intro z t; have := h.sst z t; simp only [List.mem_filter]; grind [upd_apply]
  · exact h.snodup.sublist (List.filter_sublist.map _)
  · exact h.sorted.sublist List.filter_sublist

/-! ## The main fiber -/

structure Main (s : State) : Prop where
  wait : s.mpc = .waiting → s.st main = .blocked ∨ s.st main = .ready ∨ s.st main = .running
  one : s.mpc = .runOne → s.cur = main ∧ s.counter = 0
  lp : s.mpc = .loop ∨ s.mpc = .poll → s.cur = main
  th : ∀ one, s.mpc = .handler one .timer → s.st main = .ready ∨ s.st main = .running
  born : s.st main ≠ .unborn

/-- The main fiber is not between handlers. -/
def away (s : State) : Prop := s.mpc ≠ .runOne ∧ s.mpc ≠ .loop ∧ s.mpc ≠ .poll

theorem away_of {s : State} (h : Main s) (ha : s.cur ≠ main ∨ s.mpc.user = true) : away s := by
  have h1 := h.one; have h2 := h.lp
  refine ⟨fun e => ?_, fun e => ?_, fun e => ?_⟩ <;> rcases ha with ha | ha <;> simp_all [MPc.user]

theorem schedule_main {s : State} {y : Nat} (h : Main s) (ha : away s) : Main (schedule s y).1 := by
  obtain ⟨h1, h2, h3, h4, h5⟩ := h
  obtain ⟨a1, a2, a3⟩ := ha
  simp only [schedule, awakened]
  constructor <;> dsimp only <;> intros <;> grind [upd_apply]

theorem schedule_away {s : State} {y : Nat} (ha : away s) : away (schedule s y).1 := ha

theorem scheduleAll_mpc : ∀ {l : List Nat} {s : State}, (scheduleAll s l).1.mpc = s.mpc ∧ (scheduleAll s l).1.cur = s.cur ∧ (scheduleAll s l).1.handlers = s.handlers ∧ (scheduleAll s l).1.n1 = s.n1 ∧
    (scheduleAll s l).1.n2 = s.n2 ∧ (scheduleAll s l).1.remoteq = s.remoteq ∧ (scheduleAll s l).1.now = s.now ∧ (scheduleAll s l).1.stopped = s.stopped := by
  intro l
  induction l with
  | nil => intro s; simp [scheduleAll]
  | cons y l ih => intro s; simpa [scheduleAll, schedule, awakened] using ih (s := (schedule s y).1)

theorem scheduleAll_main : ∀ {l : List Nat} {s : State}, Main s → away s → Main (scheduleAll s l).1 := by
  intro l
  induction l with
  | nil => intro s h _; exact h
  | cons y l ih => intro s h ha; exact ih (schedule_main h ha) (schedule_away ha)

theorem leave_main {s : State} {r : St} (hr : r ≠ .unborn) (h : Main s) (ha : s.cur ≠ main ∨ s.mpc.user = true) : Main (leave s r).1 := by
  obtain ⟨a1, a2, a3⟩ := away_of h ha
  obtain ⟨h1, h2, h3, h4, h5⟩ := h
  simp only [leave]
  split
  · exact ⟨h1, h2, h3, h4, h5⟩
  · split <;> (try simp only [schedule, awakened]) <;> constructor <;> dsimp only <;> intros <;> (rcases ha with ha | ha <;> grind [upd_apply, MPc.user])

/-- The main fiber waits for the other fibers, or yields in the handler of the timer. -/
theorem leave_self {s : State} {r : St} (hc : s.cur = main) (hb : Base [] s) (hm : (r = .blocked ∧ s.mpc = .waiting) ∨ (r = .ready ∧ ∃ one, s.mpc = .handler one .timer)) : Main (leave s r).1 := by
  cases hq : s.queue with
  | nil => exact absurd hq (queue_ne hb (by rw [hc]; simp)).2
  | cons x q =>
    have hx := (hb.st x).2 (by simp [hq])
    have hc' := (hb.run main).2 hc.symm
    have hxm : x ≠ main := by rintro rfl; simp [hc'] at hx
    have hxm' : main ≠ x := Ne.symm hxm
    simp only [leave, hq]
    rcases hm with ⟨rfl, hm⟩ | ⟨rfl, one, hm⟩
    · simp only [reduceCtorEq, if_false]
      constructor <;> dsimp only <;> intros <;> simp_all [upd_apply]
    · simp only [if_true, schedule, awakened]
      constructor <;> dsimp only <;> intros <;> simp_all [upd_apply]

/-- Both, after every step. -/
theorem step_inv {s s' : State} {e : Event} {o : List Obs} (hb : Base [] s) (hm : Main s) (he : step s e = some (s', o)) : Base [] s' ∧ Main s' := by
  have hmm := hm
  obtain ⟨m1, m2, m3, m4, m5⟩ := hm
  cases e with
  | tick n => simp only [step, Option.some.injEq, Prod.mk.injEq] at he; obtain ⟨rfl, rfl⟩ := he; exact ⟨same_base hb rfl rfl rfl rfl rfl rfl, ⟨m1, m2, m3, m4, m5⟩⟩
  | arrive k => simp only [step, Option.some.injEq, Prod.mk.injEq] at he; obtain ⟨rfl, rfl⟩ := he; exact ⟨same_base hb rfl rfl rfl rfl rfl rfl, ⟨m1, m2, m3, m4, m5⟩⟩
  | stop => simp only [step, Option.some.injEq, Prod.mk.injEq] at he; obtain ⟨rfl, rfl⟩ := he; exact ⟨same_base hb rfl rfl rfl rfl rfl rfl, ⟨m1, m2, m3, m4, m5⟩⟩
  | fire =>
    simp only [step] at he; split at he
    · simp only [Option.some.injEq, Prod.mk.injEq] at he; obtain ⟨rfl, rfl⟩ := he; exact ⟨same_base hb rfl rfl rfl rfl rfl rfl, ⟨m1, m2, m3, m4, m5⟩⟩
    · cases he
  | rWait =>
    simp only [step] at he; split at he
    · simp only [Option.some.injEq, Prod.mk.injEq] at he; obtain ⟨rfl, rfl⟩ := he; exact ⟨same_base hb rfl rfl rfl rfl rfl rfl, ⟨m1, m2, m3, m4, m5⟩⟩
    · cases he
  | rExp =>
    simp only [step] at he; split at he
    · simp only [Option.some.injEq, Prod.mk.injEq] at he; obtain ⟨rfl, rfl⟩ := he; exact ⟨same_base hb rfl rfl rfl rfl rfl rfl, ⟨m1, m2, m3, m4, m5⟩⟩
    · cases he
  | remote y =>
    simp only [step] at he
    split at he; · cases he
    rename_i hw
    have key : (s.st y = .blocked ∨ ∃ t, s.st y = .asleep t) ∧ s' = { s with remoteq := s.remoteq ++ [y], st := upd s.st y .remote, sleepq := s.sleepq.filter (·.2 ≠ y), n1 := s.n1 + 1 } := by
      split at he
      · simp only [Option.some.injEq, Prod.mk.injEq] at he; exact ⟨.inl (by assumption), he.1.symm⟩
      · simp only [Option.some.injEq, Prod.mk.injEq] at he; exact ⟨.inr ⟨_, by assumption⟩, he.1.symm⟩
      · cases he
    obtain ⟨hy, rfl⟩ := key
    refine ⟨remote_base hb hy, ?_⟩
    constructor <;> dsimp only <;> intros <;> grind [upd_apply]
  | turn =>
    rw [turn_eq] at he
    split at he
    · rename_i hd
      have hb2 := woken_base hb
      have ha : away s := away_of hmm (.inl (by rw [hd]; simp))
      have hm1 : Main { s with remoteq := [] } := ⟨m1, m2, m3, m4, m5⟩
      have hm2 : Main (scheduleAll { s with remoteq := [] } s.remoteq).1 := scheduleAll_main hm1 ha
      have ha2 : away (scheduleAll { s with remoteq := [] } s.remoteq).1 := by
        have := (scheduleAll_mpc (l := s.remoteq) (s := { s with remoteq := [] })).1
        unfold away at ha ⊢; rw [this]; exact ha
      have hm3 : Main (woken s).1 := scheduleAll_main hm2 ha2
      have hcm : (woken s).1.cur = disp := by
        have h1 := (scheduleAll_mpc (l := s.remoteq) (s := { s with remoteq := [] })).2.1
        have h2 := (scheduleAll_mpc (l := ((scheduleAll { s with remoteq := [] } s.remoteq).1.sleepq.takeWhile (·.1 ≤ (scheduleAll { s with remoteq := [] } s.remoteq).1.now)).map (·.2)) (s := (scheduleAll { s with remoteq := [] } s.remoteq).1)).2.1
        simp only [woken]; rw [h2, h1]; exact hd
      generalize (woken s).1 = w at *
      split at he
      · simp only [Option.some.injEq, Prod.mk.injEq] at he; obtain ⟨rfl, rfl⟩ := he
        have haw : away w := away_of hm3 (.inl (by rw [hcm]; simp))
        have key : ∀ w1 : State, (w1.queue = w.queue ∧ w1.counter = w.counter ∧ w1.cur = w.cur ∧ w1.st = w.st ∧ w1.sleepq = w.sleepq ∧ w1.remoteq = w.remoteq ∧ w1.mpc = w.mpc) →
            Base [] (if w1.mpc = .waiting ∧ w1.st main = .blocked then schedule w1 main else (w1, [])).1 ∧ Main (if w1.mpc = .waiting ∧ w1.st main = .blocked then schedule w1 main else (w1, [])).1 := by
          intro w1 ⟨e1, e2, e3, e4, e5, e6, e7⟩
          have b1 : Base [] w1 := same_base hb2 e1 e2 e3 e4 e5 e6
          have m1 : Main w1 := by
            obtain ⟨n1, n2, n3, n4, n5⟩ := hm3
            constructor <;> simp only [e2, e3, e4, e7] <;> assumption
          split
          · rename_i hw
            exact ⟨schedule_base b1 (by simp [hw.2]) (by simp [hw.2]) (by simp [hw.2]), schedule_main m1 (by unfold away at haw ⊢; rw [e7]; exact haw)⟩
          · exact ⟨b1, m1⟩
        simp only [suspendUntil]
        cases hs : w.sleepq with
        | nil => exact key w (by simp)
        | cons a q => exact key _ (by simp [asyncWait, expiresAt, hs])
      · rename_i hq
        simp only [Option.some.injEq, Prod.mk.injEq] at he; obtain ⟨rfl, rfl⟩ := he
        exact ⟨leave_ready hb2 (by rw [hq]; simp), leave_main (by simp) hm3 (.inl (by rw [hcm]; simp))⟩
    · cases he
  | run =>
    simp only [step] at he; split at he
    · rename_i hc
      simp only [Option.some.injEq, Prod.mk.injEq] at he; obtain ⟨rfl, rfl⟩ := he
      exact ⟨same_base hb rfl rfl rfl rfl rfl rfl, by constructor <;> simp [hc.1, m5]⟩
    · cases he
  | mainStep =>
    simp only [step] at he; split at he
    · rename_i hc
      have hd : s.cur ≠ disp := by rw [hc]; simp
      have hq := (queue_ne hb hd).2
      have hcall : ∀ (one : Bool) (h : H) (hs : List H) (r : State × List Obs), call { s with handlers := hs } one h = r → Base [] r.1 ∧ Main r.1 := by
        intro one h hs r hr
        subst hr
        have b1 : Base [] { s with handlers := hs, mpc := .handler one h } := same_base hb rfl rfl rfl rfl rfl rfl
        cases h with
        | user k => exact ⟨b1, by simp only [call]; constructor <;> simp [m5]⟩
        | timer => exact ⟨leave_ready b1 hq, leave_self hc b1 (.inr ⟨rfl, one, rfl⟩)⟩
      have hwait : ∀ r : State × List Obs, leave { s with mpc := .waiting } .blocked = r → Base [] r.1 ∧ Main r.1 := by
        intro r hr
        subst hr
        have b1 : Base [] { s with mpc := .waiting } := same_base hb rfl rfl rfl rfl rfl rfl
        exact ⟨leave_not b1 (.inl rfl) hd hq, leave_self hc b1 (.inl ⟨rfl, rfl⟩)⟩
      have hsame : ∀ m : MPc, m ≠ .runOne → m ≠ .waiting → (∀ one, m ≠ .handler one .timer) → Base [] { s with mpc := m } ∧ Main { s with mpc := m } := by
        intro m h1 h2 h3
        exact ⟨same_base hb rfl rfl rfl rfl rfl rfl, by constructor <;> simp_all⟩
      simp only [mainStep] at he
      split at he
      · cases he
      · cases he
      · split at he
        · simp only [Option.some.injEq, Prod.mk.injEq] at he; obtain ⟨rfl, rfl⟩ := he; exact hsame _ (by simp) (by simp) (by simp)
        · split at he
          · simp only [Option.some.injEq, Prod.mk.injEq] at he; obtain ⟨rfl, rfl⟩ := he; exact hsame _ (by simp) (by simp) (by simp)
          · rename_i hr
            simp only [Option.some.injEq, Prod.mk.injEq] at he; obtain ⟨rfl, rfl⟩ := he
            simp [hasReady] at hr
            exact ⟨same_base hb rfl rfl rfl rfl rfl rfl, by constructor <;> simp_all⟩
      · split at he
        · simp only [Option.some.injEq] at he; exact hwait _ he
        · split at he
          · simp only [Option.some.injEq] at he; exact hwait _ he
          · simp only [Option.some.injEq] at he; exact hcall _ _ _ _ he
      · simp only [Option.some.injEq, Prod.mk.injEq] at he; obtain ⟨rfl, rfl⟩ := he; exact hsame _ (by simp) (by simp) (by simp)
      · split at he
        · simp only [Option.some.injEq, Prod.mk.injEq] at he; obtain ⟨rfl, rfl⟩ := he; exact hsame _ (by simp) (by simp) (by simp)
        · split at he
          · cases he
          · simp only [Option.some.injEq] at he; exact hcall _ _ _ _ he
      · simp only [Option.some.injEq, Prod.mk.injEq] at he; obtain ⟨rfl, rfl⟩ := he
        exact hsame _ (by split <;> simp) (by split <;> simp) (by intro one; split <;> simp)
    · cases he
  | yield =>
    simp only [step] at he; split at he; · cases he
    rename_i hf
    simp only [not_or, not_and, Bool.not_eq_false] at hf
    have hu : s.cur ≠ main ∨ s.mpc.user = true := by by_cases hc : s.cur = main; exact .inr (hf.2 hc); exact .inl hc
    simp only [Option.some.injEq] at he
    have h1 := leave_ready hb (queue_ne hb hf.1).2
    have h2 := leave_main (r := .ready) (by simp) hmm hu
    rw [he] at h1 h2; exact ⟨h1, h2⟩
  | block =>
    simp only [step] at he; split at he; · cases he
    rename_i hf
    simp only [not_or, not_and, Bool.not_eq_false] at hf
    have hu : s.cur ≠ main ∨ s.mpc.user = true := by by_cases hc : s.cur = main; exact .inr (hf.2 hc); exact .inl hc
    simp only [Option.some.injEq] at he
    have h1 := leave_not hb (.inl rfl) hf.1 (queue_ne hb hf.1).2
    have h2 := leave_main (r := .blocked) (by simp) hmm hu
    rw [he] at h1 h2; exact ⟨h1, h2⟩
  | sleep t =>
    simp only [step] at he; split at he; · cases he
    rename_i hf
    simp only [not_or, not_and, Bool.not_eq_false] at hf
    have hu : s.cur ≠ main ∨ s.mpc.user = true := by by_cases hc : s.cur = main; exact .inr (hf.2 hc); exact .inl hc
    simp only [Option.some.injEq] at he
    have h1 := leave_asleep (t := t) hb hf.1 (queue_ne hb hf.1).2
    have h2 := leave_main (s := { s with sleepq := Verif.Priority.sleepIns t s.cur s.sleepq }) (r := .asleep t) (by simp) ⟨m1, m2, m3, m4, m5⟩ hu
    rw [he] at h1 h2; exact ⟨h1, h2⟩
  | finish =>
    simp only [step] at he; split at he; · cases he
    rename_i hf
    simp only [not_or, not_and, Bool.not_eq_false] at hf
    split at he; · cases he
    rename_i hc
    simp only [Option.some.injEq] at he
    have h1 := leave_not hb (.inr rfl) hf.1 (queue_ne hb hf.1).2
    have h2 := leave_main (r := .ended) (by simp) hmm (.inl hc)
    rw [he] at h1 h2; exact ⟨h1, h2⟩
  | post y =>
    simp only [step] at he; split at he; · cases he
    rename_i hf
    simp only [not_or, not_and, Bool.not_eq_false] at hf
    have hu : s.cur ≠ main ∨ s.mpc.user = true := by by_cases hc : s.cur = main; exact .inr (hf.2 hc); exact .inl hc
    split at he
    · rename_i hy
      simp only [Option.some.injEq] at he
      have h1 := schedule_base (y := y) hb (by simp [hy]) (by simp [hy]) (by simp [hy])
      have h2 := schedule_main (y := y) hmm (away_of hmm hu)
      rw [he] at h1 h2; exact ⟨h1, h2⟩
    · cases he
  | dispatch y =>
    simp only [step] at he; split at he; · cases he
    rename_i hf
    simp only [not_or, not_and, Bool.not_eq_false] at hf
    have hu : s.cur ≠ main ∨ s.mpc.user = true := by by_cases hc : s.cur = main; exact .inr (hf.2 hc); exact .inl hc
    split at he
    · rename_i hy
      simp only [Option.some.injEq, Prod.mk.injEq] at he; obtain ⟨rfl, rfl⟩ := he
      refine ⟨dispatch_base hb hf.1 hy, ?_⟩
      obtain ⟨a1, a2, a3⟩ := away_of hmm hu
      simp only [schedule, awakened]
      constructor <;> dsimp only <;> intros <;> grind [upd_apply, MPc.user]
    · cases he
  | wake y =>
    simp only [step] at he; split at he; · cases he
    rename_i hf
    simp only [not_or, not_and, Bool.not_eq_false] at hf
    have hu : s.cur ≠ main ∨ s.mpc.user = true := by by_cases hc : s.cur = main; exact .inr (hf.2 hc); exact .inl hc
    split at he; · cases he
    have key : s.st y ≠ .ready ∧ s.st y ≠ .running ∧ s.st y ≠ .remote ∧ schedule s y = (s', o) := by
      split at he <;> simp_all
    obtain ⟨y1, y2, y3, he⟩ := key
    have h1 := schedule_base (y := y) hb y1 y2 y3
    have h2 := schedule_main (y := y) hmm (away_of hmm hu)
    rw [he] at h1 h2; exact ⟨h1, h2⟩

theorem init_main : Main init := by constructor <;> simp [init]

theorem reach_inv {s : State} {tr : List Obs} (h : Reach step init s tr) : Base [] s ∧ Main s := by
  induction h with
  | refl => exact ⟨init_base, init_main⟩
  | tail e _ hs ih => exact step_inv ih.1 ih.2 hs

end Verif.AsioLoop
