import Verif.SchedLive

/-!
# The scheduler (C41, C42, C43, C44, C45, C46, C47, C65, C66)

`readySeq t tr` / `runSeq t tr`: the fibers that became ready on / were resumed from the queue of thread `t`, in order;
`waiting t tr`: those that are ready now; `running t tr`: the fiber the thread runs; `Runnable x tr`: `x` was created,
woken, timed out or replaced and has not been resumed since (`Verif/SchedTrace.lean`). `Alone t s s' o`: thread `t` gets
from `s` to `s'` by its own steps only (`Verif/SchedLive.lean`). Dispatcher fibers are fibers, too.
-/

namespace Verif.Sch

variable {s s' : State} {t u : Tid} {x y : Cx} {tr a b o : List Obs}

/-- Two threads; the main fiber of thread 0 creates a fiber and suspends itself, the new fiber runs, waits until time
5, thread 0 falls asleep; the main fiber of thread 1 wakes the main fiber of thread 0. -/
def demo : List Event :=
  [.thread 0, .thread 1, .act 0 (.spawn 0 false), .act 0 (.wait none), .run 0,
   .run 0, .run 0, .run 0, .run 0, .run 0, .act 0 (.wait (some 5)), .run 0,
   .run 0, .run 0, .run 0, .run 0, .run 0, .run 0,
   .act 1 (.wake (.main 0) 1), .run 1, .run 1, .run 1]

def demoTr : List Obs :=
  [.started 0, .ready 0 (.disp 0), .started 1, .ready 1 (.disp 1), .spawned 0 (.main 0) (.work 0), .ready 0 (.work 0),
   .waits (.main 0) none, .run 0 (.disp 0), .looked 0 0, .run 0 (.work 0), .ready 0 (.disp 0),
   .waits (.work 0) (some 5), .run 0 (.disp 0), .looked 0 0, .woken (.main 0)]

theorem demo_reach : ∃ s, Reach step init s demoTr ∧ s.pc (.disp 0) = .cnd (some 5) ∧ s.home (.main 0) = 0 ∧
    s.active 0 = some (.disp 0) ∧ s.active 1 = some (.main 1) ∧ s.pc (.main 1) = .user ∧ (step s (.run 0)).isSome ∧
    s.now = 0 ∧ s.home (.work 0) = 0 ∧ ∀ t, s.active (t + 2) = none :=
  ⟨_, reach_of_exec (es := demo) rfl, rfl, rfl, rfl, rfl, rfl, rfl, rfl, rfl, fun _ => rfl⟩

/-! ## C41: no fiber is lost or duplicated -/

/-- A ready fiber is queued once, on one thread. -/
theorem queued_once (h : Reach step init s tr) :
    (waiting t tr).Nodup ∧ (x ∈ waiting t tr → x ∈ waiting u tr → t = u) := by
  have hr := reach_sim h
  have hi := reach_inv h
  rw [waiting_eq hr.1, waiting_eq hr.1, hr.2.q, hr.2.q]
  exact ⟨hi.b.rqN t, fun h1 h2 => (hi.b.rq t x h1).1.symm.trans (hi.b.rq u x h2).1⟩

/-- No fiber runs in two places at once, and a running fiber is not queued. -/
theorem one_place (h : Reach step init s tr) (h1 : running t tr = some x) :
    (running u tr = some x → t = u) ∧ x ∉ waiting u tr := by
  have hr := reach_sim h
  have hi := reach_inv h
  rw [waiting_eq hr.1, hr.2.q]
  simp only [running, hr.2.cur] at h1 ⊢
  refine ⟨fun h2 => (hi.a.actHome t x h1).symm.trans (hi.a.actHome u x h2), fun h2 => ?_⟩
  have h3 := hi.b.rq u x h2
  have : t = u := (hi.a.actHome t x h1).symm.trans h3.1
  subst this
  exact h3.2.1 h1

theorem noWake_left {c : List Obs} (h : NoWake x (b ++ c)) : NoWake x b :=
  ⟨fun hm => h.1 (by simp [hm]), fun n hm => h.2 n (by simp [hm])⟩

/-- A suspended fiber is neither queued nor resumed before it is woken or its time has come. -/
theorem suspended_not_resumed {dl : Option Nat} (h : Reach step init s (a ++ .waits x dl :: b)) (hb : NoWake x b) :
    .ready t x ∉ b ∧ .run t x ∉ b ∧ .direct t x ∉ b ∧ x ∉ waiting t (a ++ .waits x dl :: b) := by
  have hr := reach_sim h
  have key : ∀ e ∈ b, ∃ b1, (replay (a ++ .waits x dl :: b1)).ok e ∧ (replay (a ++ .waits x dl :: b1)).st x = .waiting dl := by
    intro e he
    obtain ⟨b1, b2, rfl⟩ := List.append_of_mem he
    have hr1 := hr.1
    rw [show a ++ .waits x dl :: (b1 ++ e :: b2) = (a ++ .waits x dl :: b1) ++ e :: b2 by simp] at hr1
    exact ⟨b1, hr1.split, stays_waiting hr1.left (noWake_left hb)⟩
  refine ⟨fun he => ?_, fun he => ?_, fun he => ?_, fun he => ?_⟩
  · obtain ⟨b1, h1, h2⟩ := key _ he
    have := h1.2.2; rw [h2] at this; simp at this
  · obtain ⟨b1, ⟨l, h1⟩, h2⟩ := key _ he
    rw [h2] at h1; simp at h1
  · obtain ⟨b1, h1, h2⟩ := key _ he
    have := h1.1; rw [h2] at this; simp at this
  · rw [waiting_eq hr.1, hr.2.q] at he
    have h1 := (reach_inv h).b.rq t x he
    have h2 := stays_waiting hr.1 hb
    rw [hr.2.st] at h2
    rcases h1.2.2 with h3 | h3 <;> rw [view_plain (by simp [h3, Pc.plain])] at h2 <;> (repeat' split at h2) <;> simp at h2

/-- A finished fiber is neither queued nor resumed again. -/
theorem finished_not_resumed (h : Reach step init s (a ++ .finished x :: b)) :
    .ready t x ∉ b ∧ .run t x ∉ b ∧ .direct t x ∉ b ∧ x ∉ waiting t (a ++ .finished x :: b) := by
  have hr := reach_sim h
  have key : ∀ e ∈ b, ∃ b1, (replay (a ++ .finished x :: b1)).ok e ∧
      ((replay (a ++ .finished x :: b1)).st x = .done ∨ (replay (a ++ .finished x :: b1)).st x = .released) := by
    intro e he
    obtain ⟨b1, b2, rfl⟩ := List.append_of_mem he
    have hr1 := hr.1
    rw [show a ++ .finished x :: (b1 ++ e :: b2) = (a ++ .finished x :: b1) ++ e :: b2 by simp] at hr1
    refine ⟨b1, hr1.split, ?_⟩
    rw [stays_done hr1.left]; split <;> simp
  refine ⟨fun he => ?_, fun he => ?_, fun he => ?_, fun he => ?_⟩
  · obtain ⟨b1, h1, h2⟩ := key _ he
    have := h1.2.2; rcases h2 with h2 | h2 <;> rw [h2] at this <;> simp at this
  · obtain ⟨b1, ⟨l, h1⟩, h2⟩ := key _ he
    rcases h2 with h2 | h2 <;> rw [h2] at h1 <;> simp at h1
  · obtain ⟨b1, h1, h2⟩ := key _ he
    have := h1.1; rcases h2 with h2 | h2 <;> rw [h2] at this <;> simp at this
  · rw [waiting_eq hr.1, hr.2.q] at he
    have h1 := (reach_inv h).b.rq t x he
    have h2 := stays_done hr.1
    rw [hr.2.st] at h2
    rcases h1.2.2 with h3 | h3 <;> rw [view_plain (by simp [h3, Pc.plain])] at h2 <;> (repeat' split at h2) <;> simp at h2

/-- Only suspended fibers are resumed and released, and there is always one to resume. -/
theorem no_ub (h : Reach step init s tr) : .ub ∉ tr := by
  intro hu
  obtain ⟨a, b, rfl⟩ := List.append_of_mem hu
  exact Runs.split (reach_sim h).1

/-- Where a runnable fiber is. -/
theorem runnable_where (h : Reach step init s tr) (hx : Runnable x tr) :
    x ∈ s.rq (s.home x) ∨ x ∈ s.rr (s.home x) ∨ ∃ z, s.pc z = .push x := by
  have hr := reach_sim h
  have hi := reach_inv h
  have h1 := runnable_st hr.1 hx
  rw [hr.2.st] at h1
  have h2 : (s.pc x).plain := by
    cases hp : s.pc x <;> simp only [view, hp, Pc.plain] at h1 ⊢ <;> try rfl
    all_goals first | (simp at h1; done) | (cases x <;> (repeat' split at h1) <;> simp at h1)
  rw [view_plain h2] at h1
  have h3 : s.active (s.home x) ≠ some x ∨ x ∈ s.rq (s.home x) := by
    by_cases e : x ∈ s.rq (s.home x)
    · exact .inr e
    · left; intro e'; simp [e, e'] at h1
  rcases h3 with h3 | h3
  · have h4 : ¬ (s.pc x).busy := fun hb => h3 (hi.a.busyAct x hb)
    have h5 : s.pc x = .user ∨ s.pc x = .top := by
      cases hp : s.pc x <;> simp [hp, Pc.plain, Pc.busy] at h2 h4 ⊢
    rcases h5 with h5 | h5
    · rcases hi.b.usr x h5 with h6 | h6
      · exact absurd h6 h3
      · exact h6
    · cases x with
      | disp v =>
        rcases hi.b.top v h5 with h6 | h6
        · exact absurd h6 h3
        · exact .inl h6
      | main v => have := (hi.a.kMain v).1; rw [h5] at this; simp [Pc.disp] at this
      | work v => have := (hi.a.kWork v).1; rw [h5] at this; simp [Pc.disp] at this
  · exact .inl h3

/-- A runnable fiber is not forgotten: as long as there is one, some thread can proceed, or its own thread is executing
the code of some fiber of the program. -/
theorem runnable_not_lost (h : Reach step init s tr) (hx : Runnable x tr) :
    (∃ y, running (s.home x) tr = some y ∧ s.pc y = .user) ∨ ∃ u, (step s (.run u)).isSome := by
  have hi := reach_inv h
  have hid := reach_id h
  have hr := reach_sim h
  have en : ∀ z u p, s.pc z = p → (p = .push x ∨ p = .notify u ∨ p = .signal u) → ∃ u, (step s (.run u)).isSome := by
    intro z u p hz hp
    have hb := hi.a.busyAct z (by rw [hz]; rcases hp with rfl | rfl | rfl <;> rfl)
    refine ⟨s.home z, ?_⟩
    rcases hp with rfl | rfl | rfl <;> simp only [step, hb, run, hz] <;> split <;> rfl
  rcases runnable_where h hx with h1 | h1 | ⟨z, h1⟩
  case inr.inr => exact .inr (en z 0 _ h1 (.inl rfl))
  all_goals
    have hhx : s.pc x ≠ .unborn ∧ s.pc x ≠ .dead ∧ (s.pc x).shut = false ∧ (s.rq (s.home x) ≠ [] ∨ s.rr (s.home x) ≠ []) := by
      first
      | (have := (hi.b.rq _ _ h1).2.2; refine ⟨?_, ?_, ?_, .inl (List.ne_nil_of_mem h1)⟩ <;> rcases this with e | e <;> simp [e, Pc.shut])
      | (have := (hi.b.rr _ _ h1).2.2.1; refine ⟨?_, ?_, ?_, .inr (List.ne_nil_of_mem h1)⟩ <;> simp [this, Pc.shut])
    generalize ht : s.home x = t at *
    have hact : ∃ y, s.active t = some y := by
      cases ha : s.active t with
      | some y => exact ⟨y, rfl⟩
      | none =>
        rcases (hi.a.none t).1 ha with h2 | h2
        · cases x with
          | main v => simp at ht; subst ht; exact absurd h2 hhx.1
          | disp v => simp at ht; subst ht; exact absurd ((hi.a.born v).2 h2) hhx.1
          | work n => simp at ht; subst ht; exact absurd h2 (hi.a.wBorn n hhx.1)
        · have hdd := (hi.a.dispD t).2 (.inr h2)
          have hl := hi.a.last t (.inr hdd)
          cases x with
          | main v => simp at ht; subst ht; exact absurd h2 hhx.2.1
          | disp v => simp at ht; subst ht; exact absurd hdd hhx.2.1
          | work n =>
            have h3 := (hi.a.wq t (.work n)).2 ⟨⟨n, rfl⟩, ht, hhx.1, ?_, hhx.2.1⟩
            · rw [hl.1] at h3; simp at h3
            · intro e
              have := hi.a.busyAct (.work n) (by rw [e]; rfl)
              rw [ht, ha] at this; cases this
    obtain ⟨y, ha⟩ := hact
    by_cases hu : s.pc y = .user
    · exact .inl ⟨y, by rw [running, hr.2.cur, ha], hu⟩
    · right
      cases hp : s.pc y
      case cnd dl =>
        have hy : y = .disp t := by
          have hh := hi.a.actHome _ _ ha
          cases y with
          | disp v => simp at hh; rw [hh]
          | main v => have := (hi.a.kMain v).1; rw [hp] at this; simp [Pc.disp] at this
          | work v => have := (hi.a.kWork v).1; rw [hp] at this; simp [Pc.disp] at this
        subst hy
        have hrq := (hid.idl t dl (by simp [hp, Pc.wait])).1
        have hrr := hhx.2.2.2.resolve_left (· hrq)
        rcases hid.rem t hrr (by simp [hp, Pc.past]) with h2 | ⟨z, h2⟩
        · rcases hid.sg t dl hp h2 with h3 | ⟨z, h3⟩
          · exact ⟨t, by simp [step, ha, run, hp, h2, h3]⟩
          · exact en z t _ h3 (.inr (.inr rfl))
        · exact en z t _ h2 (.inr (.inl rfl))
      case user => exact absurd hp hu
      all_goals
        first
        | (have := hi.a.actPc _ _ ha; simp [hp, Pc.busy] at this; done)
        | (refine ⟨t, ?_⟩
           simp only [step, ha, run, hp, leave, release, switch, scheduleAll_eq]
           (repeat' split) <;> rfl)

/-- Thread 0 has gone to sleep; its main fiber has been woken from thread 1 and thread 0 has been notified. -/
example : ∃ s tr, Reach step init s tr ∧ Runnable (.main 0) tr ∧ running 0 tr = some (.disp 0) ∧ s.pc (.disp 0) ≠ .user ∧
    (∃ a b, tr = a ++ .waits (.work 0) (some 5) :: b ∧ NoWake (.work 0) b) ∧ waiting 1 tr = [.disp 1] := by
  obtain ⟨s, h, h1, -⟩ := demo_reach
  exact ⟨s, demoTr, h, ⟨demoTr.take 14, .woken (.main 0), [], rfl, by simp [Makes], by simp⟩, rfl, by simp [h1],
    ⟨demoTr.take 11, demoTr.drop 12, rfl, by decide, by simp [demoTr]⟩, rfl⟩

/-! ## C42: round robin -/

/-- Fibers are resumed in the order in which they became ready. -/
theorem fifo (h : Reach step init s tr) : runSeq t tr <+: readySeq t tr :=
  ⟨_, (seq_eq (reach_sim h).1).symm⟩

/-- A fiber that becomes ready behind `k` others is the `k`-th one (counting from 0) that is resumed from then on,
and those before it are the ones it found. -/
theorem kth_resume (h : Reach step init s (a ++ .ready t x :: b)) :
    ((waiting t a).length < (runSeq t b).length → (runSeq t b)[(waiting t a).length]? = some x) ∧
    (runSeq t b).take (waiting t a).length <+: waiting t a ∧ x ∉ waiting t a := by
  have hr := (reach_sim h).1
  have h1 := seq_eq (t := t) hr
  have h2 := seq_eq (t := t) hr.left
  have h3 : readySeq t (a ++ .ready t x :: b) = readySeq t a ++ x :: readySeq t b := by
    simp [readySeq]
  have h4 : runSeq t (a ++ .ready t x :: b) = runSeq t a ++ runSeq t b := by
    simp [runSeq]
  rw [h3, h4, h2, List.append_assoc, List.append_assoc, List.append_cancel_left_eq] at h1
  rw [waiting_eq hr.left]
  refine ⟨fun hk => ?_, ?_, hr.split.2.1⟩
  · have h5 : (((replay a).q t) ++ x :: readySeq t b)[((replay a).q t).length]? = some x := by simp
    rw [h1, List.getElem?_append_left hk] at h5
    exact h5
  · have h5 := congrArg (List.take ((replay a).q t).length) h1
    rw [List.take_left, List.take_append] at h5
    exact ⟨_, h5.symm⟩

/-- The property as stated: the `k`-th switch of the thread, whatever the running fibers do. -/
def RoundRobin : Prop := ∀ s a b t x, Reach step init s (a ++ .ready t x :: b) →
  (waiting t a).length < (switchSeq t b).length → (switchSeq t b)[(waiting t a).length]? = some x

/-- Main creates fiber 0 (queued), then launches fiber 1 with `launch::dispatch`, which does the same with fiber 2, which
launches 3: three switches, fiber 0 was second in the queue. -/
theorem dispatch_overtakes : ¬ RoundRobin := by
  intro h
  have h1 := h _ [.started 0, .ready 0 (.disp 0), .spawned 0 (.main 0) (.work 0)]
    [.spawned 0 (.main 0) (.work 1), .direct 0 (.work 1), .ready 0 (.main 0),
     .spawned 0 (.work 1) (.work 2), .direct 0 (.work 2), .ready 0 (.work 1)] 0 (.work 0)
    (reach_of_exec (es := [.thread 0, .act 0 (.spawn 0 false), .act 0 (.spawn 1 true), .act 0 (.spawn 2 true)]) rfl) (by decide)
  revert h1; decide

/-- Nested dispatch launches: fiber `n` is started by fiber `n - 1`. -/
def chain (n : Nat) : List Event := (List.range n).map fun i => .act 0 (.spawn (i + 1) true)

theorem chain_enabled (n : Nat) : ∃ s tr, exec step init (.thread 0 :: .act 0 (.spawn 0 false) :: chain n) = some (s, tr) ∧
    s.active 0 = some (if n = 0 then .main 0 else .work n) ∧ s.pc (if n = 0 then .main 0 else .work n) = .user ∧
    (∀ i, n < i → s.pc (.work i) = .unborn) ∧ (switchSeq 0 tr).length = n ∧ runSeq 0 tr = [] ∧ .work 0 ∈ waiting 0 tr := by
  have snoc : ∀ (es : List Event) (e : Event) (s : State) (tr : List Obs) (s' : State) (o : List Obs),
      exec step init es = some (s, tr) → step s e = some (s', o) → exec step init (es ++ [e]) = some (s', tr ++ o) := by
    intro es
    generalize init = s0
    induction es generalizing s0 with
    | nil => intro e s tr s' o h1 h2; simp [exec] at h1; obtain ⟨rfl, rfl⟩ := h1; simp [exec, h2]
    | cons f es ih =>
      intro e s tr s' o h1 h2
      simp only [exec, List.cons_append] at h1 ⊢
      split at h1
      · cases h1
      · rename_i s1 o1 e1
        split at h1
        · cases h1
        · rename_i s2 o2 e2
          simp only [Option.some.injEq, Prod.mk.injEq] at h1
          obtain ⟨rfl, rfl⟩ := h1
          simp [ih s1 e _ _ _ _ e2 h2]
  induction n with
  | zero =>
    refine ⟨_, _, rfl, rfl, rfl, ?_, rfl, rfl, by decide⟩
    intro i hi
    have : Cx.work i ≠ .work 0 := by simp; omega
    simp [schedule, init, this]
  | succ n ih =>
    obtain ⟨s, tr, h1, h2, h3, h4, h5, h6, h7⟩ := ih
    have h8 : chain (n + 1) = chain n ++ [.act 0 (.spawn (n + 1) true)] := by simp [chain, List.range_succ]
    cases h9 : step s (.act 0 (.spawn (n + 1) true)) with
    | none => simp [step, h2, h3, act, h4 (n + 1) (by omega)] at h9
    | some p =>
      have h10 := snoc _ _ _ _ p.1 p.2 h1 h9
      refine ⟨p.1, tr ++ p.2, by rw [h8]; simpa using h10, ?_⟩
      simp only [step, h2, h3, act, h4 (n + 1) (by omega), if_true, switch, schedule, set_same] at h9
      simp only [Option.some.injEq] at h9
      have hr := reach_sim (reach_of_exec h1)
      rw [← h9]
      refine ⟨by simp, by simp, ?_, ?_, ?_, ?_⟩
      · intro i hi
        have : Cx.work i ≠ .work (n + 1) := by simp; omega
        simp [this, h4 i (by omega)]
      · simp [switchSeq] at h5 ⊢; omega
      · rw [runSeq_append, h6]; rfl
      · simp only [waiting, runSeq_append, readySeq_append, h6] at h7 ⊢
        simp at h7
        simp [runSeq, h7]

/-- A ready fiber with one fiber ahead of it can wait for any number of switches. -/
theorem dispatch_starves (n : Nat) : ∃ s b, Reach step init s ([.started 0, .ready 0 (.disp 0), .spawned 0 (.main 0) (.work 0)] ++ .ready 0 (.work 0) :: b) ∧
    (switchSeq 0 b).length = n ∧ ∀ u, .run u (.work 0) ∉ b ∧ .direct u (.work 0) ∉ b := by
  obtain ⟨s, tr, h1, -, -, -, h5, h6, h7⟩ := chain_enabled n
  have h2 : ∃ b, tr = [.started 0, .ready 0 (.disp 0), .spawned 0 (.main 0) (.work 0), .ready 0 (.work 0)] ++ b := by
    simp only [exec] at h1
    split at h1
    · cases h1
    · rename_i s1 o1 e1
      cases e1
      split at h1
      · cases h1
      · rename_i s2 o2 e2
        split at e2
        · cases e2
        · rename_i s3 o3 e3
          cases e3
          split at e2
          · cases e2
          · rename_i s4 o4 e4
            simp only [Option.some.injEq, Prod.mk.injEq] at e2 h1
            obtain ⟨rfl, rfl⟩ := e2
            obtain ⟨rfl, rfl⟩ := h1
            exact ⟨o4, rfl⟩
  obtain ⟨b, rfl⟩ := h2
  have hr := reach_of_exec h1
  have hm : ∀ u, .run u (.work 0) ∉ b := by
    intro u hm
    have hu : u = 0 := by
      obtain ⟨b1, b2, rfl⟩ := List.append_of_mem hm
      have hr1 := (reach_sim hr).1
      rw [← List.append_assoc] at hr1
      obtain ⟨l, _, _, h8, _⟩ := hr1.split
      have h9 := on_stable hr1.left (x := .work 0) (by simp [replay, Spec.after, Spec.init])
      change (replay _).on _ = _ at h8
      rw [h9.2] at h8
      rw [← h8]; rfl
    subst hu
    have : Cx.work 0 ∈ runSeq 0 ([.started 0, .ready 0 (.disp 0), .spawned 0 (.main 0) (.work 0), .ready 0 (.work 0)] ++ b) := by
      simp only [runSeq, List.mem_filterMap]; exact ⟨.run 0 (.work 0), by simp [hm], by simp⟩
    rw [h6] at this; simp at this
  refine ⟨s, b, by simpa using hr, by simpa [switchSeq] using h5, fun u => ⟨hm u, fun hd => ?_⟩⟩
  obtain ⟨b1, b2, rfl⟩ := List.append_of_mem hd
  have hr1 := (reach_sim hr).1
  rw [show [Obs.started 0, .ready 0 (.disp 0), .spawned 0 (.main 0) (.work 0), .ready 0 (.work 0)] ++ (b1 ++ .direct u (.work 0) :: b2) =
    ([.started 0, .ready 0 (.disp 0), .spawned 0 (.main 0) (.work 0)] ++ .ready 0 (.work 0) :: b1) ++ .direct u (.work 0) :: b2 by simp] at hr1
  have h8 := stays_queued hr1.left (fun u hm' => hm u (by simp [hm']))
  have h9 := hr1.split
  have h10 := h9.1
  change (replay _).st _ = _ at h10
  rw [h8] at h10; cases h10

/-- As long as no fiber is launched with `launch::dispatch`, the property holds as stated. -/
theorem round_robin_partial (h : Reach step init s (a ++ .ready t x :: b)) (hd : ∀ y, .direct t y ∉ b)
    (hk : (waiting t a).length < (switchSeq t b).length) : (switchSeq t b)[(waiting t a).length]? = some x := by
  have h1 : switchSeq t b = runSeq t b := by
    clear h hk
    induction b with
    | nil => rfl
    | cons e b ih =>
      simp only [List.mem_cons, not_or] at hd
      have ih := ih fun y => (hd y).2
      simp only [switchSeq, runSeq, List.filterMap_cons] at ih ⊢
      cases e with
      | direct v y =>
        have : v ≠ t := by rintro rfl; exact (hd y).1 rfl
        simp [this, ih]
      | _ => simp [ih]
  rw [h1] at hk ⊢
  exact (kth_resume h).1 hk

/-- In `demo` fiber 0 becomes ready behind the dispatcher and is the second one to be resumed. -/
example : ∃ s a b, Reach step init s (a ++ .ready 0 (.work 0) :: b) ∧ (∀ y, .direct 0 y ∉ b) ∧ (waiting 0 a).length = 1 ∧
    (waiting 0 a).length < (switchSeq 0 b).length := by
  obtain ⟨s, h, -⟩ := demo_reach
  exact ⟨s, demoTr.take 5, demoTr.drop 6, h, by simp [demoTr], by decide, by decide⟩

/-! ## C43: sleeping -/

/-- A fiber that sleeps or waits until `d` and is not woken does not become runnable before `d`. -/
theorem not_before_deadline {d : Nat} (h : Reach step init s (a ++ .waits x (some d) :: b)) (hb : .woken x ∉ b) (hd : s.now < d) :
    .ready t x ∉ b ∧ .run t x ∉ b := by
  have hn : NoWake x b := by
    refine ⟨hb, fun n hm => ?_⟩
    -- the first time-out of `x`
    have hr := (reach_sim h).1
    have : ∃ b1 m b2, b = b1 ++ .expired x m :: b2 ∧ ∀ k, .expired x k ∉ b1 := by
      clear h hr hb
      induction b with
      | nil => simp at hm
      | cons e b ih =>
        by_cases he : ∃ k, e = .expired x k
        · obtain ⟨k, rfl⟩ := he; exact ⟨[], k, b, rfl, by simp⟩
        · have he' : ∀ k, e ≠ .expired x k := fun k hk => he ⟨k, hk⟩
          obtain ⟨b1, m, b2, rfl, h1⟩ := ih (by simpa [Ne.symm (he' n)] using hm)
          exact ⟨e :: b1, m, b2, rfl, fun k => by simp [h1 k, Ne.symm (he' k)]⟩
    obtain ⟨b1, m, b2, rfl, h1⟩ := this
    have hm := clock_le h m (.inl ⟨x, by simp⟩)
    rw [show a ++ .waits x (some d) :: (b1 ++ .expired x m :: b2) = (a ++ .waits x (some d) :: b1) ++ .expired x m :: b2 by simp] at hr
    obtain ⟨d', h2, h3, -⟩ := hr.split
    have h4 := stays_waiting hr.left ⟨fun hw => hb (by simp [hw]), h1⟩
    change (replay _).st x = _ at h2
    rw [h4] at h2
    cases h2
    omega
  exact ⟨(suspended_not_resumed h hn).1, (suspended_not_resumed h hn).2.1⟩

/-- Fibers of one thread time out in the order of their deadlines. -/
theorem deadline_order {n d d' : Nat} (h : Reach step init s (a ++ .expired x n :: b)) (hx : (replay a).st x = .waiting (some d))
    (hy : (replay a).st y = .waiting (some d')) (hon : (replay a).on y = (replay a).on x) : d ≤ n ∧ d ≤ d' := by
  obtain ⟨e, h1, h2, h3⟩ := Runs.split (reach_sim h).1
  change (replay a).st x = _ at h1
  rw [hx] at h1
  cases h1
  exact ⟨h2, h3 y d' hon hy⟩

/-- When a thread has looked at its clock, no fiber of that thread with a deadline that has passed is still suspended. -/
theorem look_wakes_all {n d : Nat} {a1 a2 : List Obs} (h : Reach step init s (a ++ .looked t n :: b)) (ha : a = a1 ++ .waits x (some d) :: a2)
    (hn : NoWake x a2) (hon : (replay a1).on x = t) : n < d := by
  subst ha
  have hr := (reach_sim h).1
  have h1 := stays_waiting hr.left hn
  have h2 : (a1 ++ .waits x (some d) :: a2) = (a1 ++ [.waits x (some d)]) ++ a2 := by simp
  have h3 := hr.left
  rw [h2] at h3
  have h4 := on_stable h3 (x := x) (by rw [replay_snoc]; simp [Spec.after])
  refine hr.split x d ?_ h1
  change (replay _).on x = t
  rw [h2, h4.2, replay_snoc]
  exact hon

/-- The thread does not sleep past a deadline: once it has passed, a thread that has nothing else to do wakes up by
itself and makes the fiber runnable. -/
theorem never_oversleeps {d : Nat} (h : Reach step init s (a ++ .waits x (some d) :: b)) (hb : NoWake x b) (hd : d ≤ s.now)
    (hr : running (s.home x) (a ++ .waits x (some d) :: b) = some (.disp (s.home x))) :
    ∃ s' o, Alone (s.home x) s s' o ∧ (.woken x ∈ o ∨ (∃ n, .expired x n ∈ o) ∨ ∃ y, .run (s.home x) y ∈ o) := by
  have hs := reach_sim h
  rw [running, hs.2.cur] at hr
  obtain ⟨s', o, h1, h2⟩ := go_late h hr rfl (stays_waiting hs.1 hb) hd
  refine ⟨s', o, h1, ?_⟩
  rcases h2 with h2 | h2
  · by_cases e : .woken x ∈ o
    · exact .inl e
    · refine .inr (.inl (Classical.byContradiction fun h3 => h2 ⟨e, fun n hn => h3 ⟨n, hn⟩⟩))
  · exact .inr (.inr h2)

/-- Clock readings of the scheduler are never in the future. -/
theorem clock_readings {n : Nat} (h : Reach step init s tr) (hn : .looked t n ∈ tr ∨ .expired x n ∈ tr) : n ≤ s.now :=
  clock_le h n (hn.symm.imp (⟨x, ·⟩) (⟨t, ·⟩))

/-- In `demo`, thread 0 sleeps with fiber 0 waiting until 5; then 7 units of time pass. -/
example : ∃ s a b, Reach step init s (a ++ .waits (.work 0) (some 5) :: b) ∧ NoWake (.work 0) b ∧ 5 ≤ s.now ∧
    running (s.home (.work 0)) (a ++ .waits (.work 0) (some 5) :: b) = some (.disp (s.home (.work 0))) ∧
    s.pc (.disp (s.home (.work 0))) = .cnd (some 5) := by
  obtain ⟨s, h, h1, -, h2, -, -, -, h3, h4, -⟩ := demo_reach
  have h6 : Reach step init { s with now := s.now + 7 } (demoTr ++ []) := h.tail (.tick 7) rfl
  refine ⟨{ s with now := s.now + 7 }, demoTr.take 11, demoTr.drop 12, h6, ⟨by decide, by simp [demoTr]⟩, by simp, ?_⟩
  have h5 : ({ s with now := s.now + 7 } : State).home (.work 0) = 0 := h4
  rw [h5]
  exact ⟨rfl, h1⟩

/-- Before that, at time 0 < 5, with the thread having looked at its clock. -/
example : ∃ s a b, Reach step init s (a ++ .waits (.work 0) (some 5) :: b) ∧ .woken (.work 0) ∉ b ∧ s.now < 5 ∧ .looked 0 0 ∈ b := by
  obtain ⟨s, h, -, -, -, -, -, -, h3, -, -⟩ := demo_reach
  exact ⟨s, demoTr.take 11, demoTr.drop 12, h, by decide, by omega, by decide⟩

/-! ## C44: wake-ups from other threads -/

/-- No fiber is in the middle of waking another one. -/
def WakersDone (s : State) : Prop := ∀ z t y, s.pc z ≠ .push y ∧ s.pc z ≠ .notify t ∧ s.pc z ≠ .signal t

theorem exec_next {e : Event} {es : List Event} {s1 s2 : State} {o1 o2 : List Obs} (h1 : step s e = some (s1, o1)) (h2 : exec step s1 es = some (s2, o2)) :
    exec step s (e :: es) = some (s2, o1 ++ o2) := by
  simp [exec, h1, h2]

theorem signal_returns (hx : s.active u = some x) (hz : s.pc x = .signal t) :
    ∃ s' o, exec step s [.run u] = some (s', o) ∧ s'.pc x = .user := by
  by_cases hg : s.gone t = true <;> simp [exec, step, hx, run, hz, hg]

theorem notify_returns (hx : s.active u = some x) (hz : s.pc x = .notify t) :
    ∃ k s' o, k ≤ 2 ∧ exec step s (List.replicate k (.run u)) = some (s', o) ∧ s'.pc x = .user := by
  by_cases hg : s.gone t = true
  · exact ⟨1, { s with pc := set s.pc x .user }, [.uaf t], by omega, by simp [exec, step, hx, run, hz, hg], by simp⟩
  · have h1 : step s (.run u) = some ({ s with flag := upd s.flag t true, pc := set s.pc x (.signal t) }, []) := by
      simp only [step, hx, run, hz, hg]; rfl
    obtain ⟨s2, o2, h2, h3⟩ := signal_returns (s := { s with flag := upd s.flag t true, pc := set s.pc x (.signal t) }) (u := u) hx (set_same _ _ _)
    exact ⟨2, s2, _, by omega, exec_next h1 h2, h3⟩

/-- A fiber in the middle of waking another one can always go on; after at most three steps of its thread it is done. -/
theorem waker_returns (h : Reach step init s tr) (hz : s.pc x = .push y ∨ s.pc x = .notify t ∨ s.pc x = .signal t) :
    ∃ k s' o, k ≤ 3 ∧ exec step s (List.replicate k (.run (s.home x))) = some (s', o) ∧ s'.pc x = .user := by
  have hb := (reach_inv h).a.busyAct x
  rcases hz with hz | hz | hz <;> have hb := hb (by rw [hz]; rfl)
  · have h1 : ∃ s1 o1, step s (.run (s.home x)) = some (s1, o1) ∧ s1.active = s.active ∧ s1.pc x = .notify (s.home y) := by
      by_cases hg : s.gone (s.home y) = true
      · simp [step, hb, run, hz, hg]
      · simp [step, hb, run, hz, hg]
    obtain ⟨s1, o1, h1, h2, h3⟩ := h1
    obtain ⟨k, s2, o2, hk, h4, h5⟩ := notify_returns (by rw [h2]; exact hb) h3
    exact ⟨k + 1, s2, _, by omega, exec_next h1 h4, h5⟩
  · obtain ⟨k, s2, o2, hk, h4, h5⟩ := notify_returns hb hz
    exact ⟨k, s2, o2, by omega, h4, h5⟩
  · obtain ⟨s2, o2, h4, h5⟩ := signal_returns hb hz
    exact ⟨1, s2, o2, by omega, h4, h5⟩

/-- A thread that is going to sleep, sleeping, or has just resumed its dispatcher, gets a fiber woken by another thread
into its ready queue by its own steps, and goes on with a ready fiber. -/
theorem remote_wake_not_lost (h : Reach step init s tr) (hx : Runnable x tr) (hw : WakersDone s)
    (hr : running (s.home x) tr = some (.disp (s.home x)))
    (hp : (∃ dl, s.pc (.disp (s.home x)) = .idle dl ∨ s.pc (.disp (s.home x)) = .cnd dl) ∨ s.pc (.disp (s.home x)) = .top) :
    ∃ s' o y, Alone (s.home x) s s' (o ++ [.run (s.home x) y, .ready (s.home x) (.disp (s.home x))]) ∧
      (x ∈ waiting (s.home x) tr ∨ .ready (s.home x) x ∈ o) := by
  have hs := reach_sim h
  rw [running, hs.2.cur] at hr
  have hi := reach_inv h
  rw [waiting_eq hs.1, hs.2.q]
  rcases runnable_where h hx with h1 | h1 | ⟨z, h1⟩
  · have h2 := hi.b.rq _ _ h1
    have hu : s.pc x = .user := by
      rcases h2.2.2 with h3 | h3
      · exact h3
      · cases x with
        | disp v => exact absurd hr h2.2.1
        | main v => have := (hi.a.kMain v).1; rw [h3] at this; simp [Pc.disp] at this
        | work v => have := (hi.a.kWork v).1; rw [h3] at this; simp [Pc.disp] at this
    obtain ⟨s', o, y, h3⟩ := go h hr (not_last hi rfl (.inr hu)) (fun z => (hw z _ x).2.1) (fun z => (hw z _ x).2.2) (.inl (List.ne_nil_of_mem h1))
    exact ⟨s', o, y, h3, .inl h1⟩
  · obtain ⟨s', o, y, h3, h4⟩ := go_wake h hr h1 (fun z => (hw z _ x).2.1) (fun z => (hw z _ x).2.2) (by
      rcases hp with ⟨dl, hp | hp⟩ | hp <;> simp [hp, Pc.wait])
    exact ⟨s', o, y, h3, .inr h4⟩
  · exact absurd h1 (hw z 0 x).1

/-- A dispatcher in any other place does not fall asleep either: it goes on with a ready fiber. -/
theorem runnable_keeps_awake (h : Reach step init s tr) (hx : Runnable x tr) (hw : WakersDone s)
    (hr : running (s.home x) tr = some (.disp (s.home x))) :
    ∃ s' o y, Alone (s.home x) s s' (o ++ [.run (s.home x) y, .ready (s.home x) (.disp (s.home x))]) := by
  have hs := reach_sim h
  rw [running, hs.2.cur] at hr
  have hi := reach_inv h
  rcases runnable_where h hx with h1 | h1 | ⟨z, h1⟩
  · have h2 := hi.b.rq _ _ h1
    have hu : s.pc x = .user := by
      rcases h2.2.2 with h3 | h3
      · exact h3
      · cases x with
        | disp v => exact absurd hr h2.2.1
        | main v => have := (hi.a.kMain v).1; rw [h3] at this; simp [Pc.disp] at this
        | work v => have := (hi.a.kWork v).1; rw [h3] at this; simp [Pc.disp] at this
    exact go h hr (not_last hi rfl (.inr hu)) (fun z => (hw z _ x).2.1) (fun z => (hw z _ x).2.2) (.inl (List.ne_nil_of_mem h1))
  · have h2 := hi.b.rr _ _ h1
    exact go h hr (not_last hi rfl (.inr h2.2.2.1)) (fun z => (hw z _ x).2.1) (fun z => (hw z _ x).2.2) (.inr (List.ne_nil_of_mem h1))
  · exact absurd h1 (hw z 0 x).1

/-- `demo`: thread 0 was asleep when the main fiber of thread 1 woke the main fiber of thread 0. -/
example : ∃ s tr, Reach step init s tr ∧ Runnable (.main 0) tr ∧ WakersDone s ∧ running (s.home (.main 0)) tr = some (.disp (s.home (.main 0))) ∧
    s.pc (.disp (s.home (.main 0))) = .cnd (some 5) := by
  obtain ⟨s, h, h1, -, h2, h3, h4, -, -, -, h5⟩ := demo_reach
  refine ⟨s, _, h, ⟨demoTr.take 14, _, [], rfl, .inr (.inl rfl), by simp⟩, ?_, rfl, h1⟩
  have hb := (reach_inv h).a.busyAct
  have key : ∀ z, (s.pc z).busy → s.pc z = .cnd (some 5) ∨ s.pc z = .user := by
    intro z hz
    have := hb z hz
    generalize s.home z = u at this
    match u with
    | 0 => rw [h2] at this; cases this; exact .inl h1
    | 1 => rw [h3] at this; cases this; exact .inr h4
    | u + 2 => rw [h5] at this; cases this
  intro z t y
  refine ⟨fun h6 => ?_, fun h6 => ?_, fun h6 => ?_⟩ <;> have := key z (by rw [h6]; rfl) <;> rw [h6] at this <;> simp at this

/-! ## C45: launch policies -/

/-- A running fiber can always create a fiber that does not exist yet. -/
theorem launch_enabled {n : Nat} {dispatch : Bool} (h : Reach step init s tr) (hr : running t tr = some x) (hu : s.pc x = .user)
    (hn : ∀ u z, .spawned u z (.work n) ∉ tr) : (step s (.act t (.spawn n dispatch))).isSome := by
  have hs := reach_sim h
  rw [running, hs.2.cur] at hr
  have : s.pc (.work n) = .unborn := Classical.byContradiction fun hp => by
    obtain ⟨u, z, h1⟩ := born_spawned (tr := tr) (n := n) (by
      rw [hs.2.st]
      intro h2
      unfold view at h2
      split at h2 <;> (try split at h2) <;> (try split at h2) <;> simp_all) hs.1
    exact hn u z h1
  simp only [step, hr, hu, if_true, act, this]
  cases dispatch <;> rfl

/-- `launch::post`: the new fiber is queued behind the ready fibers, the launching fiber goes on. -/
theorem post {n : Nat} (h : Reach step init s tr) (hs : step s (.act t (.spawn n false)) = some (s', o)) :
    ∃ x, running t tr = some x ∧ o = [.spawned t x (.work n), .ready t (.work n)] ∧ running t (tr ++ o) = some x ∧ s'.pc x = .user ∧
      waiting t (tr ++ o) = waiting t tr ++ [.work n] := by
  have h1 := reach_sim h
  have h2 := reach_sim (h.tail _ hs)
  rw [waiting_eq h1.1, waiting_eq h2.1, h1.2.q, h2.2.q]
  simp only [running, h1.2.cur, h2.2.cur]
  simp only [step] at hs
  split at hs
  case h_2 => simp at hs
  rename_i x hx
  split at hs
  case isFalse => simp at hs
  rename_i hu
  simp only [act] at hs
  split at hs
  case isFalse => simp at hs
  rename_i hn
  simp only [schedule, Bool.false_eq_true, if_false, Option.some.injEq, Prod.mk.injEq] at hs
  obtain ⟨rfl, rfl⟩ := hs
  refine ⟨x, hx, rfl, hx, ?_, by simp⟩
  by_cases e : x = .work n
  · subst e; rw [hn] at hu; cases hu
  · simp [e, hu]

/-- `launch::dispatch`: the new fiber runs at once, the launching fiber is queued behind the ready fibers. -/
theorem dispatch {n : Nat} (h : Reach step init s tr) (hs : step s (.act t (.spawn n true)) = some (s', o)) :
    ∃ x, running t tr = some x ∧ o = [.spawned t x (.work n), .direct t (.work n), .ready t x] ∧
      running t (tr ++ o) = some (.work n) ∧ s'.pc (.work n) = .user ∧ waiting t (tr ++ o) = waiting t tr ++ [x] := by
  have h1 := reach_sim h
  have h2 := reach_sim (h.tail _ hs)
  rw [waiting_eq h1.1, waiting_eq h2.1, h1.2.q, h2.2.q]
  simp only [running, h1.2.cur, h2.2.cur]
  simp only [step] at hs
  split at hs
  case h_2 => simp at hs
  rename_i x hx
  split at hs
  case isFalse => simp at hs
  rename_i hu
  simp only [act] at hs
  split at hs
  case isFalse => simp at hs
  rename_i hn
  simp only [schedule, switch, if_true, set_same, List.nil_append, Option.some.injEq, Prod.mk.injEq] at hs
  obtain ⟨rfl, rfl⟩ := hs
  exact ⟨x, hx, rfl, by simp, by simp, by simp⟩

/-- A fiber is created at most once. -/
theorem launched_once {n : Nat} (h : Reach step init s (a ++ .spawned t x (.work n) :: b)) : ∀ u z, .spawned u z (.work n) ∉ a := by
  intro u z hm
  have hr := (reach_sim h).1
  exact (spawned_on hr.left hm).1 hr.split.1

/-- After `demo`, the main fiber of thread 1 may launch fiber 1. -/
example : ∃ s, Reach step init s demoTr ∧ running 1 demoTr = some (.main 1) ∧ s.pc (.main 1) = .user ∧ ∀ u z, .spawned u z (.work 1) ∉ demoTr := by
  obtain ⟨s, h, -, -, -, -, h1, -⟩ := demo_reach
  exact ⟨s, h, rfl, h1, by simp [demoTr]⟩

/-! ## C46: changing the algorithm (for the generic loop see `Verif/Props/SetAlgo.lean`) -/

/-- Changing to a new round-robin algorithm: the same fibers are ready in the same order, nothing else happens. -/
theorem set_algo_keeps (h : Reach step init s tr) (hs : step s (.act t .setAlgo) = some (s', o)) :
    o = [] ∧ s'.rq = s.rq ∧ s'.rr = s.rr ∧ s'.sl = s.sl ∧ s'.active = s.active ∧ s'.pc = s.pc ∧ waiting u (tr ++ o) = waiting u tr := by
  have h1 := reach_sim h
  have h2 := reach_sim (h.tail _ hs)
  rw [waiting_eq h1.1, waiting_eq h2.1, h1.2.q, h2.2.q]
  simp only [step] at hs
  split at hs
  case h_2 => simp at hs
  split at hs
  case isFalse => simp at hs
  simp only [act, transfer_eq, Option.some.injEq, Prod.mk.injEq] at hs
  obtain ⟨rfl, rfl⟩ := hs
  have : upd s.rq t ([] ++ s.rq t) = s.rq := by
    funext z; by_cases hz : z = t
    · subst hz; simp
    · simp [upd, hz]
  exact ⟨rfl, this, rfl, rfl, rfl, rfl, congrFun this u⟩

example : ∃ s s', Reach step init s demoTr ∧ step s (.act 1 .setAlgo) = some (s', []) ∧ waiting 1 demoTr = [.disp 1] := by
  obtain ⟨s, h, -, -, -, h1, h2, -⟩ := demo_reach
  exact ⟨s, _, h, by simp only [step, h1, h2, if_true, act]; rfl, by decide⟩

/-! ## C47: the end of a thread -/

/-- When a thread has ended, every fiber created on it, whether detached or not, has terminated and been released. -/
theorem ended_after_all {n : Nat} (h : Reach step init s (a ++ .ended t :: b)) (hn : .spawned t x (.work n) ∈ a) :
    .finished (.work n) ∈ a ∧ .released (.work n) ∈ a := by
  have hr := (reach_sim h).1
  obtain ⟨-, h1⟩ := hr.split
  obtain ⟨h2, h3⟩ := spawned_on hr.left hn
  rcases h1 n (h3 ⟨n, rfl⟩) with h4 | h4
  · exact absurd h4 h2
  · exact (released_from hr.left).2 h4

/-- A thread ends only after its main function has returned. -/
theorem ended_after_exit (h : Reach step init s (a ++ .ended t :: b)) : .exit t ∈ a :=
  (main_from (reach_sim h).1.left).1 (reach_sim h).1.split.1

/-- On a thread that has ended no fiber is created or resumed. -/
theorem nothing_after_end (h : Reach step init s (a ++ .ended t :: b)) : .spawned t x y ∉ b ∧ .run t x ∉ b ∧ .direct t x ∉ b := by
  have hr := (reach_sim h).1
  have key : ∀ e ∈ b, ∃ b1, (replay (a ++ .ended t :: b1)).ok e ∧ (replay (a ++ .ended t :: b1)).cur t = none := by
    intro e he
    obtain ⟨b1, b2, rfl⟩ := List.append_of_mem he
    rw [show a ++ .ended t :: (b1 ++ e :: b2) = (a ++ .ended t :: b1) ++ e :: b2 by simp] at hr
    exact ⟨b1, hr.split, (stays_ended hr.left).2⟩
  refine ⟨fun he => ?_, fun he => ?_, fun he => ?_⟩
  · obtain ⟨b1, h1, h2⟩ := key _ he
    have := h1.2.1; rw [h2] at this; simp at this
  · obtain ⟨b1, ⟨l, h1⟩, h2⟩ := key _ he
    exact h1.2.2.2 h2
  · obtain ⟨b1, h1, h2⟩ := key _ he
    exact h1.2.2 h2

/-- Once the main function has returned and all fibers of the thread have terminated, the thread ends by its own steps. -/
theorem shutdown_completes (h : Reach step init s tr) (hx : .exit t ∈ tr) (hall : ∀ z n, .spawned t z (.work n) ∈ tr → .finished (.work n) ∈ tr)
    (hr : running t tr = some (.disp t)) : ∃ s' o, Alone t s s' (o ++ [.ended t]) := by
  have hs := reach_sim h
  have hi := reach_inv h
  rw [running, hs.2.cur] at hr
  have hsd : s.sd t = true := by
    rw [hi.a.sd]
    have := exit_st hs.1 hx
    rw [hs.2.st] at this
    have hk := hi.a.kMain t
    unfold view at this
    split at this <;> (try split at this) <;> (try split at this) <;> simp_all [Pc.shut]
  refine go_end h hr hsd (List.eq_nil_iff_forall_not_mem.2 fun z hz => ?_)
  obtain ⟨⟨n, rfl⟩, h1, h2, h3, h4⟩ := (hi.a.wq t z).1 hz
  have hne : (replay tr).st (.work n) ≠ .absent := by
    rw [hs.2.st]; intro h5; unfold view at h5
    split at h5 <;> (try split at h5) <;> (try split at h5) <;> simp_all
  obtain ⟨u, w, hm⟩ := born_spawned hne hs.1
  have hu : u = t := by
    have := (spawned_on hs.1 hm).2 ⟨n, rfl⟩
    rw [hs.2.on _ h2] at this
    exact this.symm.trans h1
  subst hu
  obtain ⟨c, d, rfl⟩ := List.append_of_mem (hall w n hm)
  have h5 := stays_done hs.1
  rw [hs.2.st] at h5
  unfold view at h5
  split at h5 <;> (repeat' split at h5) <;> simp_all

/-- Thread 0 creates a fiber, which waits; the main function of thread 0 returns after thread 1 has woken the fiber; the
fiber finishes and the thread ends. The waking fiber of thread 1 has not left `schedule` yet. -/
def endDemo : List Event :=
  [.thread 0, .thread 1, .act 0 (.spawn 0 false), .act 0 .yield, .run 0, .run 0, .run 0, .run 0, .run 0, .run 0,
   .act 0 (.wait none), .run 0, .act 1 (.wake (.work 0) 1), .run 1, .act 0 .exit, .run 0,
   .run 0, .run 0, .run 0, .run 0, .run 0, .act 0 .finish, .run 0, .run 0, .run 0, .run 0]

def endTr : List Obs :=
  [.started 0, .ready 0 (.disp 0), .started 1, .ready 1 (.disp 1), .spawned 0 (.main 0) (.work 0), .ready 0 (.work 0),
   .run 0 (.disp 0), .ready 0 (.main 0), .looked 0 0, .run 0 (.work 0), .ready 0 (.disp 0), .waits (.work 0) none,
   .run 0 (.main 0), .woken (.work 0), .exit 0, .run 0 (.disp 0), .ready 0 (.work 0), .looked 0 0, .run 0 (.work 0),
   .ready 0 (.disp 0), .finished (.work 0), .run 0 (.disp 0), .released (.work 0), .stopped 0, .ended 0]

theorem end_reach : ∃ s, Reach step init s endTr := ⟨_, reach_of_exec (es := endDemo) rfl⟩

example : ∃ s a, Reach step init s (a ++ .ended 0 :: []) ∧ .spawned 0 (.main 0) (.work 0) ∈ a := by
  obtain ⟨s, h⟩ := end_reach
  exact ⟨s, endTr.take 24, h, by decide⟩

example : ∃ s, Reach step init s (endTr.take 22) ∧ .exit 0 ∈ endTr.take 22 ∧ running 0 (endTr.take 22) = some (.disp 0) ∧
    ∀ z n, .spawned 0 z (.work n) ∈ endTr.take 22 → .finished (.work n) ∈ endTr.take 22 :=
  ⟨_, reach_of_exec (es := endDemo.take 23) rfl, by decide, rfl, by simp [endTr]⟩

/-! ## C65: waking a fiber of another thread never uses a destroyed scheduler -/

/-- No destroyed scheduler is used. -/
def NoUseAfterEnd : Prop := ∀ s tr t, Reach step init s tr → .uaf t ∉ tr

/-- False: `schedule_from_remote` calls `algo_->notify()` after it has unlocked the remote queue; meanwhile the thread may
take the fiber from the queue, run it to its end, and end itself. -/
theorem notify_after_free : ¬ NoUseAfterEnd := fun h =>
  h _ (endTr ++ [.uaf 0]) 0 (reach_of_exec (es := endDemo ++ [.run 1]) rfl) (by decide)

/-- What holds: it happens only if the thread has ended, … -/
theorem use_after_end_partial (h : Reach step init s (a ++ .uaf t :: b)) : .ended t ∈ a :=
  ((main_from (reach_sim h).1.left).2 (reach_sim h).1.split).2

/-- … and never while the fiber is put into the queue of the other thread: that scheduler still exists. -/
theorem push_safe_partial (h : Reach step init s tr) (hp : s.pc x = .push y) (ha : s.active t = some x) :
    ∃ s' o, step s (.run t) = some (s', o) ∧ (∀ u, .uaf u ∉ o) ∧ y ∈ s'.rr (s.home y) := by
  have hi := reach_inv h
  have hg := not_gone hi (hi.b.ps x y hp).1
  refine ⟨_, _, by simp only [step, ha, run, hp, hg]; rfl, ?_, by simp⟩
  intro u
  split <;> simp

example : ∃ s tr, Reach step init s tr ∧ s.pc (.main 1) = .push (.work 0) ∧ s.active 1 = some (.main 1) :=
  ⟨_, _, reach_of_exec (es := endDemo.take 13) rfl, rfl, rfl⟩

/-! ## C66: a fiber may be woken while its thread is ending -/

/-- The debug build does not stop with an assertion in the scheduler. -/
def NoAssert : Prop := ∀ s tr t, Reach step init s tr → .assert t ∉ tr

def lateDemo : List Event :=
  [.thread 0, .thread 1, .act 0 (.spawn 0 false), .act 0 .yield, .run 0, .run 0, .run 0, .run 0, .run 0, .run 0,
   .act 0 (.wait none), .run 0, .act 1 (.wake (.work 0) 1), .act 0 .exit, .run 1]

def lateTr : List Obs :=
  [.started 0, .ready 0 (.disp 0), .started 1, .ready 1 (.disp 1), .spawned 0 (.main 0) (.work 0), .ready 0 (.work 0),
   .run 0 (.disp 0), .ready 0 (.main 0), .looked 0 0, .run 0 (.work 0), .ready 0 (.disp 0), .waits (.work 0) none,
   .run 0 (.main 0), .woken (.work 0), .exit 0, .assert 0]

/-- False: `schedule_from_remote` asserts that the thread is not shutting down, although the main function of a thread may
return while (detached) fibers of the thread still wait for others. -/
theorem shutdown_assert : ¬ NoAssert := fun h => h _ lateTr 0 (reach_of_exec (es := lateDemo) rfl) (by decide)

/-- What holds: the assertion fails only if the main function of the thread has returned. -/
theorem assert_partial (h : Reach step init s (a ++ .assert t :: b)) : .exit t ∈ a :=
  (main_from (reach_sim h).1.left).1 (reach_sim h).1.split

example : ∃ s a, Reach step init s (a ++ .assert 0 :: []) := ⟨_, lateTr.take 15, reach_of_exec (es := lateDemo) rfl⟩

end Verif.Sch
