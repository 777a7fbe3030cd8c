import Verif.AsioLoopLive

/-!
# C101 Fibers and asio's main loop on one thread

Fiber `0` is the dispatcher, fiber `1` the main fiber, which runs the `io_context`. `sleeping`: the thread sleeps in `run_one`. `.remote` is the state of a fiber another thread has woken, and which the
dispatcher has not seen yet; `n1`, `n2` count the threads that are before and in `notify`; `waits`, `expiry`: how many handlers wait for the timer, and until when.
-/

namespace Verif.Props.AsioLoop
open Verif Verif.AsioLoop

/-! ## The order in which fibers run -/

/-- There is always a fiber to run. -/
theorem no_ub {s : State} {tr : List Obs} (h : Reach step init s tr) : .ub ∉ tr := by
  induction h with
  | refl => simp
  | @tail s1 s2 tr1 o e h1 hs ih =>
    obtain ⟨hb, _⟩ := reach_inv h1
    simp only [List.mem_append, not_or]
    refine ⟨ih, ?_⟩
    have hall : ∀ (l : List Nat) (s : State), .ub ∉ (scheduleAll s l).2 := by
      intro l
      induction l with
      | nil => intro s; simp [scheduleAll]
      | cons y l ih => intro s; simp [scheduleAll, schedule, ih]
    have hlv : ∀ (s : State) (r : St), s.queue ≠ [] → .ub ∉ (leave s r).2 := by
      intro s r hq; simp only [leave]; split
      · contradiction
      · split <;> simp [schedule]
    cases e
    case turn =>
      rw [turn_eq] at hs
      have hw : .ub ∉ (woken s1).2 := by simp only [woken, List.mem_append, not_or]; exact ⟨hall _ _, hall _ _⟩
      split at hs
      · split at hs
        · simp only [Option.some.injEq, Prod.mk.injEq] at hs; obtain ⟨rfl, rfl⟩ := hs
          simp only [List.mem_append, not_or]
          refine ⟨hw, ?_⟩
          simp only [suspendUntil]
          split <;> split <;> simp [schedule]
        · rename_i hq
          simp only [Option.some.injEq, Prod.mk.injEq] at hs; obtain ⟨rfl, rfl⟩ := hs
          simp only [List.mem_append, not_or]
          exact ⟨hw, hlv _ _ (by rw [hq]; simp)⟩
      · cases hs
    case mainStep =>
      simp only [step] at hs
      split at hs
      · rename_i hc
        have hne := (queue_ne hb (by rw [hc]; simp)).2
        have hcall : ∀ (s : State) (one : Bool) (h : H), s.queue ≠ [] → .ub ∉ (call s one h).2 := by
          intro s one h hq
          cases h with
          | user k => simp [call]
          | timer => simp only [call, List.mem_cons, reduceCtorEq, false_or]; exact hlv _ _ hq
        simp only [mainStep] at hs
        (repeat' split at hs) <;> simp only [Option.some.injEq, reduceCtorEq] at hs <;>
          (have := congrArg Prod.snd hs; dsimp only at this; rw [← this]; first | exact hlv _ _ hne | exact hcall _ _ _ hne | exact List.not_mem_nil)
      · cases hs
    all_goals
      simp only [step] at hs
      (repeat' split at hs) <;> simp only [Option.some.injEq, reduceCtorEq, Prod.mk.injEq] at hs <;>
        first
          | (have := hlv s1 .ready (queue_ne hb (by grind)).2; rw [hs] at this; exact this)
          | (have := hlv s1 .blocked (queue_ne hb (by grind)).2; rw [hs] at this; exact this)
          | (have := hlv s1 .ended (queue_ne hb (by grind)).2; rw [hs] at this; exact this)
          | (rename_i t _; have := hlv { s1 with sleepq := Verif.Priority.sleepIns t s1.cur s1.sleepq } (.asleep t) (queue_ne hb (by grind)).2; rw [hs] at this; exact this)
          | (have := congrArg Prod.snd hs; dsimp only at this; rw [← this]; simp [schedule]; done)
          | (obtain ⟨rfl, rfl⟩ := hs; simp [schedule])

/-- A ready fiber `x`. `L`: the fibers that are ready, besides it. At most as many fibers are taken before `x` as there are in `L`. -/
theorem its_turn {s0 s1 : State} {tr0 tr : List Obs} {x : Nat} {L : List Nat} (h0 : Reach step init s0 tr0) (hx : s0.st x = .ready) (hL : ∀ y, s0.st y = .ready → y ≠ x → y ∈ L)
    (h : Reach step s0 s1 tr) (hran : .ran x ∉ tr) : runs tr ≤ L.length := by
  obtain ⟨hb, _⟩ := reach_inv h0
  have hxq := (hb.st x).1 hx
  have n := (near_reach hxq h hran).idx
  have hlt := List.idxOf_lt_length_of_mem hxq
  have key : (s0.queue.erase x).length ≤ L.length := by
    have : ∀ {l L : List Nat}, l.Nodup → (∀ y ∈ l, y ∈ L) → l.length ≤ L.length := by
      intro l
      induction l with
      | nil => intro L _ _; simp
      | cons a l ih =>
        intro L hn hs
        rw [List.nodup_cons] at hn
        have ha : a ∈ L := hs a (by simp)
        have := ih (L := L.erase a) hn.2 (fun y hy => (List.mem_erase_of_ne (by rintro rfl; exact hn.1 hy)).2 (hs y (by simp [hy])))
        rw [List.length_erase_of_mem ha] at this
        have : 0 < L.length := List.length_pos_of_mem ha
        simp; omega
    refine this (hb.nodup.erase x) (fun y hy => ?_)
    rw [hb.nodup.mem_erase_iff] at hy
    exact hL y ((hb.st y).2 hy.2) hy.1
  rw [List.length_erase_of_mem hxq] at key
  omega

/-- First come, first served: a fiber that is not ready while `x` is does not run before `x` has, unless it is started at once. -/
theorem first_come {s0 s1 : State} {tr0 tr : List Obs} {x y : Nat} (h0 : Reach step init s0 tr0) (hx : s0.st x = .ready) (hy : s0.st y ≠ .ready) (h : Reach step s0 s1 tr) (hran : .ran y ∈ tr) : .ran x ∈ tr := by
  obtain ⟨hb, _⟩ := reach_inv h0
  refine Classical.byContradiction fun hn => ?_
  obtain ⟨a, b, hq⟩ := List.append_of_mem ((hb.st x).1 hx)
  refine (after_reach (y := y) (by rintro rfl; exact hy hx) h0 ⟨a, b, hq, fun hm => hy ((hb.st y).2 (by simp [hq, hm]))⟩ h hn).2 hran

/-! ## When the thread sleeps -/

/-- The thread sleeps only if no fiber but the dispatcher is ready. -/
theorem sleeps_idle {s : State} {tr : List Obs} {y : Nat} (h : Reach step init s tr) (hs : sleeping s) (hy : s.st y = .ready) : y = disp := by
  obtain ⟨hb, hm⟩ := reach_inv h
  have h0 := (hm.one hs.2.1).2
  refine Classical.byContradiction fun hne => ?_
  have := others_pos ((hb.st y).1 hy) hne
  rw [hb.counter] at h0; omega

/-- What tells the loop whether fibers are ready is right. -/
theorem has_ready {s : State} {tr : List Obs} (h : Reach step init s tr) : hasReady s = true ↔ ∃ y, y ≠ disp ∧ s.st y = .ready := by
  obtain ⟨hb, _⟩ := reach_inv h
  simp only [hasReady, hb.counter, decide_eq_true_eq]
  constructor
  · intro hp
    obtain ⟨y, hy⟩ := List.exists_mem_of_length_pos hp
    simp only [List.mem_filter, decide_eq_true_eq] at hy
    exact ⟨y, hy.2, (hb.st y).2 hy.1⟩
  · rintro ⟨y, hy, hr⟩
    exact others_pos ((hb.st y).1 hr) hy

/-! ## Fibers that another thread wakes -/

/-- If a fiber another thread has woken is still to be seen by the dispatcher while the thread sleeps, then another thread is about to call `notify`, or is in it, and what it does next makes a handler
of the timer due. -/
theorem remote_not_lost {s : State} {tr : List Obs} {x : Nat} (h : Reach step init s tr) (hs : sleeping s) (hx : s.st x = .remote) :
    (∃ s1 s2, step s .rWait = some (s1, []) ∧ step s1 .rExp = some (s2, []) ∧ .timer ∈ s2.handlers) ∨ (∃ s2, step s .rExp = some (s2, []) ∧ .timer ∈ s2.handlers) := by
  obtain ⟨hb, hm⟩ := reach_inv h
  have hr : s.remoteq ≠ [] := fun e => by have := (hb.rst x).2 hx; simp [e] at this
  rcases reach_kept h hr with h1 | h1 | h1 | h1
  · exact .inl ⟨_, _, by simp only [step, h1, if_true]; rfl, by simp [step, asyncWait]; rfl, by simp [expiresAt]⟩
  · exact .inr ⟨_, by simp only [step, h1.1, if_true]; rfl, by simp [expiresAt]; omega⟩
  · rw [hs.2.2.1] at h1; simp at h1
  · exact absurd hs.1 h1.1

/-- After a handler of the timer was called, the main fiber does not run again before the dispatcher has. -/
theorem dispatcher_first {s0 s1 s : State} {tr0 o tr : List Obs} (h0 : Reach step init s0 tr0) (h1 : step s0 .mainStep = some (s1, o)) (ht : .handled .timer ∈ o) (h : Reach step s1 s tr) (hc : s.cur = main) :
    .ran disp ∈ o ++ tr := by
  obtain ⟨hb, hm⟩ := reach_inv h0
  have key : s0.cur = main ∧ toCome s1 ∧ (.ran disp ∉ o → s1.cur ≠ disp) := by
    simp only [step] at h1
    split at h1
    · rename_i hc
      refine ⟨hc, ?_⟩
      have hlv : ∀ (s : State) (r : St), .handled .timer ∉ (leave s r).2 := by
        intro s r; simp only [leave]; split <;> (try split) <;> simp [schedule]
      have hcall : ∀ (hs : List H) (one : Bool) (h : H), call { s0 with handlers := hs } one h = (s1, o) → toCome s1 ∧ (.ran disp ∉ o → s1.cur ≠ disp) := by
        intro hs one h e
        cases h with
        | user k => simp only [call, Prod.mk.injEq] at e; obtain ⟨_, rfl⟩ := e; simp at ht
        | timer =>
          simp only [call, Prod.mk.injEq] at e; obtain ⟨rfl, rfl⟩ := e
          have := leave_toCome (s := { s0 with handlers := hs, mpc := .handler one .timer }) (r := .ready) (ahead_of (s := s0) hb hc)
          exact ⟨this.1, fun hh => this.2 (fun hh' => hh (by simp [hh']))⟩
      simp only [mainStep] at h1
      (repeat' split at h1) <;> simp only [Option.some.injEq, reduceCtorEq] at h1 <;>
        first
          | exact hcall _ _ _ h1
          | (exfalso; have := hlv { s0 with mpc := .waiting } .blocked; rw [h1] at this; exact this ht)
          | (exfalso; simp only [Prod.mk.injEq] at h1; obtain ⟨_, rfl⟩ := h1; simp at ht)
    · cases h1
  refine Classical.byContradiction fun hn => ?_
  simp only [List.mem_append, not_or] at hn
  exact absurd hc (toCome_reach (h0.tail _ h1) key.2.1 (key.2.2 hn.1) h hn.2).1.1

/-- When the dispatcher has its turn, every fiber whose sleep is over, and every fiber another thread has woken, becomes ready. -/
theorem turn_wakes {s s' : State} {tr o : List Obs} {x : Nat} (h : Reach step init s tr) (he : step s .turn = some (s', o)) (hx : s.st x = .remote ∨ ∃ t, s.st x = .asleep t ∧ t ≤ s.now) : .ready x ∈ o := by
  have hw := woken_ready (reach_inv h).1 hx
  rw [turn_eq] at he
  split at he
  · split at he <;> simp only [Option.some.injEq, Prod.mk.injEq] at he <;> obtain ⟨rfl, rfl⟩ := he <;> simp [hw]
  · cases he

/-! ## Fibers that sleep -/

/-- While the thread sleeps, a handler waits for the timer, which expires no later than the sleep of any fiber is over, provided no other thread wakes a fiber, and the main fiber does not give way to
another before it calls `run` nor in a handler. What is missing is that it holds without these conditions: `dispatch_hangs`, `notify_hangs`. -/
theorem deadline_partial {s : State} {tr : List Obs} {x t : Nat} (h : Reach calmStep init s tr) (hs : sleeping s) (hx : s.st x = .asleep t) : 0 < s.waits ∧ s.expiry ≤ t := by
  obtain ⟨hr, hset⟩ := calm_reach h
  obtain ⟨hb, hm⟩ := reach_inv hr
  have ha : Armed s := by have := hset.2; simp only [hs.2.1] at this; exact this
  have hmem := (hb.sst x t).2 hx
  cases hq : s.sleepq with
  | nil => simp [hq] at hmem
  | cons a q =>
    rcases ha a.1 a.2 q hq with h1 | ⟨h1, _⟩
    · refine ⟨h1.1, ?_⟩
      rw [h1.2]
      have hso := hb.sorted
      rw [hq] at hmem hso
      rcases List.mem_cons.1 hmem with e | e
      · rw [← e]; exact Nat.le_refl _
      · exact (List.pairwise_cons.1 hso).1 _ e
    · rw [hs.2.2.1] at h1; simp at h1

/-- No operation completes, no other thread wakes a fiber, and nobody stops the loop. -/
def aloneStep (s : State) : Event → Option (State × List Obs)
  | .arrive _ | .stop | .remote _ => none
  | e => step s e

/-- If the thread sleeps, no handler waits for the timer, and no thread is about to call `notify`, then nothing happens any more, however much time goes by. -/
theorem stuck_forever {s s' : State} {tr : List Obs} (hs : sleeping s) (hw : s.waits = 0) (h1 : s.n1 = 0) (h2 : s.n2 = 0) (h : Reach aloneStep s s' tr) : tr = [] ∧ ∃ n, s' = { s with now := n } := by
  induction h with
  | refl => exact ⟨rfl, s.now, rfl⟩
  | tail e _ he ih =>
    obtain ⟨rfl, n, rfl⟩ := ih
    obtain ⟨a1, a2, a3, a4⟩ := hs
    cases e <;> simp only [aloneStep, step, reduceCtorEq, hw, h1, h2, a1, a2, mainStep, a3, a4, MPc.user, main, disp, Nat.lt_irrefl, if_false, if_true, false_and, and_self, and_false, or_true, Nat.one_ne_zero, Bool.false_eq_true,
      Option.some.injEq, Prod.mk.injEq] at he
    obtain ⟨rfl, rfl⟩ := he
    rename_i n'
    refine ⟨rfl, n + n', ?_⟩
    simp only [a1, a2, a3, a4, hw, h1, h2]

/-- A fiber started at once, before `run` is called, goes to sleep; so the loop finds no ready fiber, and calls `run_one` although no timer is set. The fiber sleeps for ever. -/
theorem dispatch_hangs : ∃ s tr, Reach step init s tr ∧ s.st 2 = .asleep 1 ∧ ∀ s' tr', Reach aloneStep s s' tr' → s'.st 2 = .asleep 1 := by
  obtain ⟨s, h, a1, a2, a3, a4, a5, a6, a7, a8⟩ : ∃ s, exec step init [.dispatch 2, .sleep 1, .turn, .run, .mainStep] = some (s, [.started 2, .ready 1, .ran 0, .ran 1, .ready 0]) ∧
      s.st 2 = .asleep 1 ∧ s.cur = main ∧ s.mpc = .runOne ∧ s.handlers = [] ∧ s.stopped = false ∧ s.waits = 0 ∧ s.n1 = 0 ∧ s.n2 = 0 := ⟨_, rfl, rfl, rfl, rfl, rfl, rfl, rfl, rfl, rfl⟩
  refine ⟨s, _, reach_of_exec h, a1, fun s' tr' h' => ?_⟩
  obtain ⟨_, n, rfl⟩ := stuck_forever ⟨a2, a3, a4, a5⟩ a6 a7 a8 h'
  exact a1

/-- The same with a handler that yields once, so that a fiber it has just created runs, and goes to sleep. -/
theorem handler_yield_hangs : ∃ s tr, Reach step init s tr ∧ s.st 2 = .asleep 1 ∧ ∀ s' tr', Reach aloneStep s s' tr' → s'.st 2 = .asleep 1 := by
  obtain ⟨s, h, a1, a2, a3, a4, a5, a6, a7, a8⟩ : ∃ s, exec step init [.run, .arrive 0, .mainStep, .mainStep, .post 2, .yield, .turn, .sleep 1, .mainStep, .mainStep] =
        some (s, [.handled (.user 0), .ready 2, .ran 0, .ready 1, .ran 2, .ready 0, .ran 1]) ∧
      s.st 2 = .asleep 1 ∧ s.cur = main ∧ s.mpc = .runOne ∧ s.handlers = [] ∧ s.stopped = false ∧ s.waits = 0 ∧ s.n1 = 0 ∧ s.n2 = 0 := ⟨_, rfl, rfl, rfl, rfl, rfl, rfl, rfl, rfl, rfl⟩
  refine ⟨s, _, reach_of_exec h, a1, fun s' tr' h' => ?_⟩
  obtain ⟨_, n, rfl⟩ := stuck_forever ⟨a2, a3, a4, a5⟩ a6 a7 a8 h'
  exact a1

/-- Fiber 2 sleeps until 10, fiber 4 until 1; another thread wakes fiber 3, and calls `notify` only after the sleep of fiber 4 is over. -/
def late : List Event := [.post 2, .post 3, .post 4, .run, .mainStep, .mainStep, .turn, .sleep 10, .block, .sleep 1, .turn, .turn, .mainStep, .mainStep, .remote 3, .tick 1, .fire, .mainStep, .turn,
  .mainStep, .mainStep, .mainStep, .finish, .finish, .turn, .turn, .mainStep, .mainStep, .rWait, .rExp, .mainStep, .turn, .mainStep, .mainStep, .mainStep, .turn, .mainStep, .mainStep]

/-- A `notify` that comes late moves the timer, which was set for the next deadline: its handlers run, find nothing to do, and nobody sets the timer again. -/
theorem notify_hangs : ∃ s tr, Reach step init s tr ∧ s.st 2 = .asleep 10 ∧ ∀ s' tr', Reach aloneStep s s' tr' → s'.st 2 = .asleep 10 := by
  obtain ⟨s, tr, h, a1, a2, a3, a4, a5, a6, a7, a8⟩ : ∃ s tr, exec step init late = some (s, tr) ∧
      s.st 2 = .asleep 10 ∧ s.cur = main ∧ s.mpc = .runOne ∧ s.handlers = [] ∧ s.stopped = false ∧ s.waits = 0 ∧ s.n1 = 0 ∧ s.n2 = 0 := ⟨_, _, rfl, rfl, rfl, rfl, rfl, rfl, rfl, rfl, rfl⟩
  refine ⟨s, _, reach_of_exec h, a1, fun s' tr' h' => ?_⟩
  obtain ⟨_, n, rfl⟩ := stuck_forever ⟨a2, a3, a4, a5⟩ a6 a7 a8 h'
  exact a1

/-! ## Handlers and fibers -/

theorem poll_again {s : State} (h1 : s.cur = main) (h2 : s.mpc = .poll) (h3 : s.handlers = [.user 0]) (h4 : s.stopped = false) : Reach step s s [.handled (.user 0)] := by
  have e : exec step s [.mainStep, .arrive 0, .mainStep] = some (s, [.handled (.user 0)]) := by
    cases s
    dsimp only at h1 h2 h3 h4
    subst h1; subst h2; subst h3; subst h4
    rfl
  exact reach_of_exec e

/-- Handlers that become due again and again keep the loop in `poll`: a fiber that is ready does not run. -/
theorem poll_starves : ∃ s tr, Reach step init s tr ∧ s.st 2 = .ready ∧ ∀ k, Reach step s s (List.replicate k (.handled (.user 0))) := by
  obtain ⟨s, h, a1, a2, a3, a4, a5⟩ : ∃ s, exec step init [.post 2, .run, .arrive 0, .mainStep] = some (s, [.ready 2]) ∧ s.st 2 = .ready ∧ s.cur = main ∧ s.mpc = .poll ∧ s.handlers = [.user 0] ∧ s.stopped = false :=
    ⟨_, rfl, rfl, rfl, rfl, rfl, rfl⟩
  refine ⟨s, _, reach_of_exec h, a1, fun k => ?_⟩
  induction k with
  | zero => exact .refl
  | succ k ih => rw [List.replicate_succ']; exact ih.trans (poll_again a2 a3 a4 a5)

/-- A handler that blocks its fiber: no other handler is called until it is woken, and meanwhile the dispatcher does not wait, but has its turn over and over. -/
theorem blocked_handler_spins : ∃ s tr, Reach step init s tr ∧ s.handlers = [.user 1] ∧ step s .turn = some (s, []) ∧
    ∀ e, (∃ k, e = .arrive k) ∨ (∃ y, e = .remote y) ∨ (∃ n, e = .tick n) ∨ e = .stop ∨ e = .turn ∨ step s e = none := by
  obtain ⟨s, h, a1, a2, a3, a4, a5, a6⟩ : ∃ s, exec step init [.run, .arrive 0, .arrive 1, .mainStep, .mainStep, .block] = some (s, [.handled (.user 0), .ran 0]) ∧ s.handlers = [.user 1] ∧ step s .turn = some (s, []) ∧
      s.cur = disp ∧ s.waits = 0 ∧ s.n1 = 0 ∧ s.n2 = 0 := ⟨_, rfl, rfl, rfl, rfl, rfl, rfl, rfl⟩
  refine ⟨s, _, reach_of_exec h, a1, a2, fun e => ?_⟩
  cases e <;> simp [step, a3, a4, a5, a6]

/-- Nothing keeps the dispatcher and another thread from using the timer at the same time: here the dispatcher is about to set it, and another thread about to wait for it in `notify`. -/
theorem timer_race : ∃ s tr s1 s2, Reach step init s tr ∧ step s .turn = some (s1, [.ready 1]) ∧ s1.expiry ≠ s.expiry ∧ step s .rWait = some (s2, []) ∧ s2.waits ≠ s.waits :=
  ⟨_, _, _, _, reach_of_exec (es := [.post 2, .post 3, .run, .mainStep, .mainStep, .turn, .sleep 10, .block, .remote 3, .turn, .finish]) rfl, rfl, by decide, rfl, by decide⟩

/-! ## Examples -/

/-- Fiber 2 sleeps until 5, and the thread sleeps; the timer expires, and the fiber runs again. -/
def nap : List Event := [.post 2, .run, .mainStep, .mainStep, .turn, .sleep 5, .turn, .turn, .mainStep, .mainStep]

-- deadline_partial
example : ∃ s tr, Reach calmStep init s tr ∧ sleeping s ∧ s.st 2 = .asleep 5 ∧ s.waits = 1 ∧ s.expiry = 5 :=
  ⟨_, _, reach_of_exec (step := calmStep) (es := nap) rfl, ⟨rfl, rfl, rfl, rfl⟩, rfl, rfl, rfl⟩

example : ∃ s, exec step init (nap ++ [.tick 5, .fire, .mainStep, .turn, .mainStep, .mainStep, .mainStep]) =
    some (s, [.ready 2, .ran 0, .ran 2, .ready 0, .ran 0, .ready 1, .ran 1, .ready 0, .handled .timer, .ran 0, .ready 1, .ready 2, .ran 1, .ready 0, .ran 2]) ∧ s.cur = 2 := ⟨_, rfl, rfl⟩

/-- Fiber 2 blocks, and the thread sleeps; another thread wakes it. -/
def woken : List Event := [.post 2, .run, .mainStep, .mainStep, .turn, .block, .turn, .turn, .mainStep, .mainStep, .remote 2]

-- remote_not_lost, before and in `notify`
example : ∃ s tr, Reach step init s tr ∧ sleeping s ∧ s.st 2 = .remote ∧ s.n1 = 1 ∧ s.waits = 0 := ⟨_, _, reach_of_exec (es := woken) rfl, ⟨rfl, rfl, rfl, rfl⟩, rfl, rfl, rfl⟩

example : ∃ s tr, Reach step init s tr ∧ sleeping s ∧ s.st 2 = .remote ∧ s.n1 = 0 ∧ s.n2 = 1 ∧ s.waits = 1 := ⟨_, _, reach_of_exec (es := woken ++ [.rWait]) rfl, ⟨rfl, rfl, rfl, rfl⟩, rfl, rfl, rfl, rfl⟩

-- dispatcher_first, turn_wakes: `notify` returns, the timer's handler is called, the dispatcher makes fiber 2 ready
example : ∃ s0 tr0 s1 s, Reach step init s0 tr0 ∧ step s0 .mainStep = some (s1, [.handled .timer, .ran 0, .ready 1]) ∧ s1.st 2 = .remote ∧ step s1 .turn = some (s, [.ready 2, .ran 1, .ready 0]) ∧ s.cur = main :=
  ⟨_, _, _, _, reach_of_exec (es := woken ++ [.rWait, .rExp]) rfl, rfl, rfl, rfl, rfl⟩

-- its_turn, first_come: fibers 2 and 3 are ready, 4 is not
example : ∃ s0 s1, Reach step init s0 [.ready 2, .ready 3] ∧ s0.st 3 = .ready ∧ s0.st 4 ≠ .ready ∧ (∀ y, s0.st y = .ready → y ≠ 3 → y ∈ [0, 2]) ∧
    Reach step s0 s1 [.ready 4, .ran 0, .ran 2, .ready 0, .ran 3, .ready 2, .ran 4, .ready 3] := by
  refine ⟨_, _, reach_of_exec (es := [.post 2, .post 3]) rfl, rfl, by decide, ?_, reach_of_exec (es := [.post 4, .run, .mainStep, .mainStep, .turn, .yield, .yield]) rfl⟩
  intro y hy h3
  simp only [schedule, awakened, init, upd_apply] at hy
  grind

end Verif.Props.AsioLoop
