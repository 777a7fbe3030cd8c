import Verif.OrderWaitLive

/-!
# C95: fibers that wait in an order come to their end
-/

namespace Verif.Props.OrderWait

open Verif.OrderWait

/-- All fibers have ended. -/
def Over (c : Config) (s : State) : Prop := ∀ f, f < c.n → s.st f = .ended

/-- An infinite execution from the start. -/
structure Forever (c : Config) (σ : Nat → State) : Prop where
  begins : σ 0 = init c
  goes : ∀ i, ∃ e o, step c (σ i) e = some (σ (i + 1), o)

/-- If the fibers of a program follow an order, then no operation throws: no `lock_error`, no `promise_already_satisfied`, no `fiber_error`. -/
theorem nothing_throws {c : Config} {P : Plan} (hF : Follows c P) {s : State} {tr : List Unit} (h : Reach (step c) (init c) s tr) : s.threw = false := by
  obtain ⟨H, I⟩ := inv_reach hF h
  exact I.fine

/-- And there is no deadlock: as long as not all fibers have ended, some fiber can run, or one waits with a time limit. -/
theorem no_deadlock {c : Config} {P : Plan} (hF : Follows c P) {s : State} {tr : List Unit} (h : Reach (step c) (init c) s tr) (hno : ¬ Over c s) :
    ∃ e s' o, step c s e = some (s', o) := by
  obtain ⟨H, I⟩ := inv_reach hF h
  refine Classical.byContradiction fun hc => hno (all_ended hF I ?_ ?_)
  · intro f hf hr
    exact hc ⟨.run f 0, runs c s f 0 (s.code f), [], by simp only [step]; rw [if_pos ⟨hf, hr⟩]⟩
  · intro f hf hw m k hk
    exact hc ⟨.timeout f, gives s f m k, [], by simp only [step]; rw [if_pos hw, hk]; rfl⟩

/-- As long as no fiber waits with a time limit, a fiber can run without any time passing. -/
theorem some_fiber_runs {c : Config} {P : Plan} (hF : Follows c P) {s : State} {tr : List Unit} (h : Reach (step c) (init c) s tr) (hno : ¬ Over c s)
    (hnt : ∀ f, f < c.n → s.st f = .waits → ∀ m k, s.code f ≠ .tryLockUntil m k) : ∃ f, f < c.n ∧ s.st f = .ready := by
  obtain ⟨H, I⟩ := inv_reach hF h
  exact Classical.byContradiction fun hc => hno (all_ended hF I (fun f hf hr => hc ⟨f, hf, hr⟩) hnt)

/-- And no execution goes on for ever, whatever the schedule. -/
theorem every_execution_ends {c : Config} {P : Plan} (hF : Follows c P) (σ : Nat → State) : ¬ Forever c σ := by
  intro hσ
  have hreach : ∀ i, ∃ tr, Reach (step c) (init c) (σ i) tr := by
    intro i
    induction i with
    | zero => exact ⟨[], by rw [hσ.begins]; exact .refl⟩
    | succ i ih =>
      obtain ⟨tr, h⟩ := ih
      obtain ⟨e, o, he⟩ := hσ.goes i
      exact ⟨_, .tail e h he⟩
  have key : ∀ x : (Nat → Prog) × (Nat × Nat), ∀ i, x = ((σ i).code, counts c (σ i)) → False := by
    intro x
    induction (less_wf c).apply x with
    | intro x _ ih =>
      intro i hx
      obtain ⟨tr, h⟩ := hreach i
      obtain ⟨H, I⟩ := inv_reach hF h
      obtain ⟨e, o, he⟩ := hσ.goes i
      refine ih _ ?_ (i + 1) rfl
      rw [hx]
      exact step_less I he
  exact key _ 0 rfl

/-- An execution that cannot go on has come to its end: all fibers have ended, all mutexes are free, nobody waits, and all promises that are to be set are set. -/
theorem comes_to_its_end {c : Config} {P : Plan} (hF : Follows c P) {s : State} {tr : List Unit} (h : Reach (step c) (init c) s tr)
    (hstop : ∀ e, step c s e = none) :
    Over c s ∧ (∀ m, s.owner m = none) ∧ (∀ r, s.queue r = []) ∧ ∀ f p, f < c.n → .fut p ∈ P.duty f → ∃ v, s.val p = some v := by
  have hover : Over c s := Classical.byContradiction fun hc => by
    obtain ⟨e, s', o, hs⟩ := no_deadlock hF h hc
    rw [hstop] at hs; cases hs
  obtain ⟨H, I⟩ := inv_reach hF h
  have hH : ∀ f, H f = [] := by
    intro f
    by_cases hf : f < c.n
    · exact held_nil I hf (hover f hf)
    · exact I.out f hf
  refine ⟨hover, ?_, ?_, ?_⟩
  · intro m
    cases ho : s.owner m with
    | none => rfl
    | some f => have := (I.own f m).2 ho; rw [hH] at this; cases this
  · intro r
    refine List.eq_nil_iff_forall_not_mem.2 fun f hq => ?_
    have := (I.inq f r).1 hq
    have := hover f this.1
    simp_all
  · intro f p hf hd
    exact Option.ne_none_iff_exists'.1 (I.isSet f p hf hd (by simp [hH])).1

/-- From everywhere the end can be reached. -/
theorem the_end_is_reached {c : Config} {P : Plan} (hF : Follows c P) {s : State} {tr : List Unit} (h : Reach (step c) (init c) s tr) :
    ∃ s' tr', Reach (step c) s s' tr' ∧ Over c s' := by
  have key : ∀ x : (Nat → Prog) × (Nat × Nat), ∀ s tr, Reach (step c) (init c) s tr → x = (s.code, counts c s) → ∃ s' tr', Reach (step c) s s' tr' ∧ Over c s' := by
    intro x
    induction (less_wf c).apply x with
    | intro x _ ih =>
      intro s tr h hx
      by_cases ho : Over c s
      · exact ⟨s, [], .refl, ho⟩
      · obtain ⟨e, s1, o, he⟩ := no_deadlock hF h ho
        obtain ⟨H, I⟩ := inv_reach hF h
        obtain ⟨s', tr', h1, h2⟩ := ih (s1.code, counts c s1) (by rw [hx]; exact step_less I he) s1 _ (.tail _ h he) rfl
        exact ⟨s', _, Reach.trans (.tail _ .refl he) h1, h2⟩
  exact key _ s tr h rfl

/-! ## Examples -/

/-- Three fibers; fiber 0 launches two, which lock two mutexes (one of them in turns, recursively); fiber 1 sets a promise that fiber 2 waits for; fiber 0 joins both. -/
def team : Config where
  n := 3
  recursive m := m == 2
  prog
    | 0 => .launch 1 <| .launch 2 <| .lock 0 <| .lock 1 <| .unlock 0 <| .unlock 1 <| .join 2 <| .join 1 .done
    | 1 => .lock 0 <| .lock 1 <| .unlock 1 <| .unlock 0 <| .choose fun x => if x = 0 then .lock 1 <| .unlock 1 <| .set 0 5 .done else .set 0 x .done
    | 2 => .tryLockUntil 3 fun a => if a then .unlock 3 .done else .tryLock 1 fun b => if b then .unlock 1 (.get 0 fun _ => .done) else .lock 2 <| .lock 2 <| .get 0 fun v => if v = 5 then .unlock 2 (.unlock 2 .done) else .unlock 2 (.lock 1 (.unlock 1 (.unlock 2 .done)))
    | _ => .done

def teamPlan : Plan where
  timed m := m == 3
  rank
    | .mtx 0 => 1
    | .mtx 1 => 0
    | .mtx _ => 4
    | .fut _ => 3
    | .start _ => 2
    | .fib 0 => 6
    | .fib _ => 5
  duty
    | 0 => [.start 1, .start 2]
    | 1 => [.fut 0]
    | _ => []

theorem team_follows : Follows team teamPlan where
  ordered := by
    intro f hf
    match f, hf with
    | 0, _ => simp [team, teamPlan, Ordered, Below]
    | 1, _ =>
      simp only [team, teamPlan, Ordered]
      refine ⟨rfl, by simp [Below], rfl, by simp [Below], by simp, by simp, fun x => ?_⟩
      split <;> simp [Ordered, Below]
    | 2, _ =>
      simp only [team, teamPlan, Ordered]
      refine ⟨rfl, by simp [Ordered], ?_⟩
      simp only [Bool.false_eq_true, if_false, Ordered]
      refine ⟨by simp, ?_, ?_⟩
      · simp [Ordered, Below]
        exact ⟨1, by decide, by simp⟩
      · refine ⟨rfl, by simp [Below], rfl, by simp, by simp [Below], ⟨1, by decide, by simp⟩, fun v => ?_⟩
        split <;> simp [Ordered, Below]
  plain := by
    intro f hf
    match f, hf with
    | 0, _ => simp [team, Plain]
    | 1, _ => simp only [team, Plain]; intro x; split <;> simp [Plain]
    | 2, _ =>
      simp only [team, Plain]
      intro a; cases a <;> simp only [Bool.false_eq_true, if_false, if_true, Plain]
      intro b; cases b <;> simp only [Bool.false_eq_true, if_false, if_true, Plain]
      · intro v; split <;> simp [Plain]
      · simp
  kinds := by
    intro f r h
    match f with
    | 0 => simp [teamPlan] at h; rcases h with rfl | rfl <;> simp [team]
    | 1 => simp [teamPlan] at h; simp [h]
    | f + 2 => simp [teamPlan] at h
  once := by
    intro f
    match f with
    | 0 => simp [teamPlan]
    | 1 => simp [teamPlan]
    | f + 2 => simp [teamPlan]
  one := by
    intro f g r h1 h2
    match f, g with
    | 0, 0 => rfl
    | 1, 1 => rfl
    | 0, 1 => simp [teamPlan] at h1 h2; simp [h2] at h1
    | 1, 0 => simp [teamPlan] at h1 h2; simp [h1] at h2
    | f + 2, _ => simp [teamPlan] at h1
    | 0, g + 2 => simp [teamPlan] at h2
    | 1, g + 2 => simp [teamPlan] at h2
  born := by
    intro g h1 h2
    match g, h1, h2 with
    | 1, _, _ => exact ⟨0, by simp [teamPlan]⟩
    | 2, _, _ => exact ⟨0, by simp [teamPlan]⟩
  first := by
    intro f r hf h
    match f, hf with
    | 0, _ => simp [teamPlan] at h; rcases h with rfl | rfl <;> simp [teamPlan]
    | 1, _ => simp [teamPlan] at h; simp [h, teamPlan]
    | 2, _ => simp [teamPlan] at h
  before := by
    intro f hf
    match f, hf with
    | 0, _ => simp [teamPlan]
    | 1, _ => simp [teamPlan]
    | 2, _ => simp [teamPlan]

/-- All its executions come to the end. -/
example {s : State} {tr : List Unit} (h : Reach (step team) (init team) s tr) (hstop : ∀ e, step team s e = none) : Over team s ∧ ∃ v, s.val 0 = some v :=
  let ⟨h1, _, _, h2⟩ := comes_to_its_end team_follows h hstop
  ⟨h1, h2 1 0 (by decide) (by simp [teamPlan])⟩

/-- The states of the fibers, the owners of mutexes 0-2 and the wait queues of mutexes 0, 1 and promise 0 after an execution. -/
def after (c : Config) (es : List Event) : Option (List St × List (Option Fid) × List (List Fid)) :=
  (exec (step c) (init c) es).map fun x =>
    ((List.range c.n).map x.1.st, (List.range 3).map x.1.owner, [x.1.queue (.mtx 0), x.1.queue (.mtx 1), x.1.queue (.fut 0), x.1.queue (.fib 2)])

/-- An execution of it in which fibers wait for a mutex, for the promise and for the end of another fiber. -/
example : after team ((List.replicate 4 (.run 0 0)) ++ [.run 1 0, .run 2 1, .run 2 0, .run 2 0, .run 2 0, .run 2 0] ++ List.replicate 3 (.run 0 0))
    = some ([.waits, .ready, .waits], [none, none, some 2], [[], [], [2], [0]]) := by
  decide +kernel

/-- Two fibers that lock two mutexes in opposite orders. -/
def opposite : Config where
  n := 2
  recursive _ := false
  prog
    | 0 => .launch 1 <| .lock 0 <| .lock 1 <| .unlock 1 <| .unlock 0 .done
    | 1 => .lock 1 <| .lock 0 <| .unlock 0 <| .unlock 1 .done
    | _ => .done

/-- There is no order they follow. -/
example (P : Plan) : ¬ Follows opposite P := by
  intro h
  have h0 := h.ordered 0 (by decide)
  have h1 := h.ordered 1 (by decide)
  simp only [opposite, Ordered, Below] at h0 h1
  have a := h0.2.2.2.2.1
  have b := h1.2.2.2.1
  simp at a b
  omega

/-- They can deadlock. -/
example : after opposite [.run 0 0, .run 0 0, .run 1 0, .run 0 0, .run 1 0] = some ([.waits, .waits], [some 0, some 1, none], [[1], [0], [], []]) := by
  decide +kernel

/-- A fiber that waits for its child while it holds a mutex the child needs. -/
def father : Config where
  n := 2
  recursive _ := true
  prog
    | 0 => .launch 1 <| .lock 0 <| .join 1 <| .unlock 0 .done
    | 1 => .lock 0 <| .unlock 0 .done
    | _ => .done

example : after father [.run 0 0, .run 0 0, .run 0 0, .run 1 0] = some ([.waits, .waits], [some 0, none, none], [[1], [], [], []]) := by
  decide +kernel

/-- Why a mutex with timed attempts must not be locked without a time limit: fiber 1 is woken by the `unlock` of fiber 0 and finds that its time is over; fiber 2, which is in the wait queue too, is woken by nobody and waits for ever, though the mutex is free. -/
def timed : Config where
  n := 3
  recursive _ := false
  prog
    | 0 => .launch 1 <| .launch 2 <| .lock 0 <| .unlock 0 .done
    | 1 => .tryLockUntil 0 fun b => if b then .unlock 0 .done else .done
    | 2 => .lock 0 <| .unlock 0 .done
    | _ => .done

example : after timed [.run 0 0, .run 0 0, .run 0 0, .run 1 0, .run 2 0, .run 0 0, .run 0 0, .run 1 1, .run 1 0] = some ([.ended, .ended, .waits], [none, none, none], [[2], [], [], []]) := by
  decide +kernel

end Verif.Props.OrderWait
