import Verif.SchedTurn

/-!
# Fibers of a thread take turns only where they say so, and always in the same way
-/

namespace Verif.Props.SchedTurn
open Verif.Sch

theorem exec_cons {s s' : State} {e : Event} {es : List Event} {tr : List Obs} (h : exec step s (e :: es) = some (s', tr)) :
    ∃ s1 o tr', step s e = some (s1, o) ∧ exec step s1 es = some (s', tr') ∧ tr = o ++ tr' := by
  simp only [exec] at h
  split at h
  · cases h
  · rename_i s1 o he
    split at h
    · cases h
    · rename_i s2 tr' hx
      simp only [Option.some.injEq, Prod.mk.injEq] at h
      obtain ⟨rfl, rfl⟩ := h
      exact ⟨s1, o, tr', he, hx, rfl⟩

/-- A fiber `x` is in its own code on thread `t`. As long as it makes only calls that do not give way - whatever other threads do, whoever is woken
and whichever deadlines pass - the thread runs no other fiber, and `x` is the running fiber of the thread. -/
theorem uninterrupted {s s' : State} {tr tr' : List Obs} {t : Tid} {x : Cx} {es : List Event} (h : Reach step init s tr)
    (ha : s.active t = some x) (hu : s.pc x = .user) (hg : ∀ a, .act t a ∈ es → a.gives = false) (he : exec step s es = some (s', tr')) :
    s'.active t = some x ∧ ∀ y, .run t y ∉ tr' ∧ .direct t y ∉ tr' := by
  have hp : (s.pc x).own := by rw [hu]; rfl
  clear hu
  induction es generalizing s tr tr' with
  | nil => simp only [exec, Option.some.injEq, Prod.mk.injEq] at he; obtain ⟨rfl, rfl⟩ := he; exact ⟨ha, by simp⟩
  | cons e es ih =>
    obtain ⟨s1, o, tr1, h1, h2, rfl⟩ := exec_cons he
    have hg1 : ∀ a, e = .act t a → a.gives = false := fun a hea => hg a (by simp [hea])
    have k := keeps (reach_inv h) ha hp hg1 h1
    have r := ih (Reach.tail e h h1) k.1 (fun a hm => hg a (by simp [hm])) h2 k.2
    refine ⟨r.1, fun y => ?_⟩
    have n := no_switch ha hp hg1 h1 y
    have := r.2 y
    simp only [List.mem_append, not_or]
    exact ⟨⟨n.1, this.1⟩, n.2, this.2⟩

/-- So if another fiber of the thread is running after a while, or has been in between, the first one has made a call that gives way. -/
theorem gave_way {s s' : State} {tr tr' : List Obs} {t : Tid} {x : Cx} {es : List Event} (h : Reach step init s tr)
    (ha : s.active t = some x) (hu : s.pc x = .user) (he : exec step s es = some (s', tr'))
    (ho : s'.active t ≠ some x ∨ ∃ y, .run t y ∈ tr' ∨ .direct t y ∈ tr') : ∃ a, .act t a ∈ es ∧ a.gives := by
  apply Classical.byContradiction
  intro hn
  have := uninterrupted h ha hu (fun a hm => by cases hb : a.gives <;> grind) he
  grind

/-- A program that runs on one thread and does not wait with deadlines: any two executions of it make the same calls, by the same fibers,
in the same order and with the same results - one of them may have come further. Neither the clock nor spurious wake-ups have an influence. -/
theorem same_order {p : Program} (hp : Timeless p) {ms1 ms2 : List Move} {r1 r2 : State} {h1 h2 : History}
    (e1 : moves p (alone, []) ms1 = some (r1, h1)) (e2 : moves p (alone, []) ms2 = some (r2, h2)) : h1 <+: h2 ∨ h2 <+: h1 := by
  have hk : Like alone alone := ⟨rfl, rfl, fun _ => .inl rfl, rfl, rfl, rfl, rfl, rfl, rfl, rfl, rfl, rfl, rfl, rfl, rfl⟩
  exact same_history hp _ (Nat.le_refl _) hk good_alone good_alone e1 e2

/-! ## Instances -/

/-- Two threads. The main fiber of thread 0 has made a fiber, which is ready; thread 1 wakes nobody, time passes; the main fiber goes on. -/
example : ∃ s tr s' tr', Reach step init s tr ∧ s.active 0 = some (.main 0) ∧ s.pc (.main 0) = .user ∧
    (∀ a, .act 0 a ∈ [Event.act 0 (.spawn 0 false), .tick 5, .act 1 .yield, .run 1, .run 1, .act 0 (.spawn 1 false), .act 0 .setAlgo] → a.gives = false) ∧
    exec step s [.act 0 (.spawn 0 false), .tick 5, .act 1 .yield, .run 1, .run 1, .act 0 (.spawn 1 false), .act 0 .setAlgo] = some (s', tr') ∧
    .run 1 (.disp 1) ∈ tr' ∧ s'.rq 0 = [.disp 0, .work 0, .work 1] := by
  refine ⟨_, _, _, _, reach_of_exec (es := [.thread 0, .thread 1]) rfl, rfl, rfl, ?_, rfl, by decide, rfl⟩
  simp [Act.gives]

/-- It gives way by `yield`, and the dispatcher runs. -/
example : ∃ s tr s' tr', Reach step init s tr ∧ s.active 0 = some (.main 0) ∧ s.pc (.main 0) = .user ∧
    exec step s [.act 0 .yield, .run 0] = some (s', tr') ∧ s'.active 0 = some (.disp 0) :=
  ⟨_, _, _, _, reach_of_exec (es := [.thread 0]) rfl, rfl, rfl, rfl, rfl⟩

/-- The main fiber makes two fibers, one of them with `launch::dispatch`, and waits; the second wakes it; and so on. -/
def team : Program
  | .main _, h => if h.length = 0 then .spawn 0 false else if h.length = 1 then .spawn 1 true else if h.length < 6 then .wait none else .exit
  | .work 0, h => if h.length < 5 then .yield else if h.length = 6 then .wake (.main 0) 1 else .finish
  | _, h => if h.length < 4 then .yield else .finish

theorem team_timeless : Timeless team := by
  intro x h
  constructor <;> intro d <;> rcases x with t | t | ⟨_ | n⟩ <;> simp only [team] <;> (repeat' split) <;> simp

/-- Two executions in which time passes differently: the second has come further. -/
example : ∃ r1 r2 h1 h2,
    moves team (alone, []) [.call, .call, .call, .run, .run, .tick 7, .run, .run, .run, .run, .call, .run, .call] = some (r1, h1) ∧
    moves team (alone, []) [.tick 3, .call, .call, .call, .run, .run, .run, .run, .tick 8, .run, .run, .call, .run, .call, .run, .call] = some (r2, h2) ∧
    h1.map (·.1) = [.main 0, .main 0, .work 1, .work 0, .main 0] ∧ h1 <+: h2 ∧ h1 ≠ h2 := by
  refine ⟨_, _, _, _, rfl, rfl, ?_, ?_, ?_⟩ <;> decide +kernel

/-- With deadlines the order depends on the clock: a fiber sleeps, another one yields. -/
def sleepy : Program
  | .main _, h => if h.length = 0 then .spawn 0 false else if h.length = 1 then .sleep 5 else .exit
  | _, _ => .yield

example : ∃ ms1 ms2 r1 r2 h1 h2, moves sleepy (alone, []) ms1 = some (r1, h1) ∧ moves sleepy (alone, []) ms2 = some (r2, h2) ∧
    ¬ (h1 <+: h2 ∨ h2 <+: h1) := by
  refine ⟨[.call, .call, .run, .run, .run, .run, .run, .run, .call, .run, .run, .run, .run, .run, .run, .call],
    [.tick 9, .call, .call, .run, .run, .run, .run, .run, .run, .run, .call, .run, .call], _, _, _, _, rfl, rfl, ?_⟩
  decide +kernel

end Verif.Props.SchedTurn
