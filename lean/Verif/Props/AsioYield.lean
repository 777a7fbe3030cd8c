import Verif.AsioYieldInv

/-!
# An asynchronous operation of asio suspends the calling fiber until it is completed, and gives it the result
-/

namespace Verif.Props.AsioYield
open Verif.AsioYield

variable {s : State} {tr : List Obs}

/-- The operation returns the value its handler was called with, and the error code is then in the variable of the user; without such a variable it returns if there was no error, and throws the error
code otherwise. -/
theorem gives_the_result (h : Reach step init s tr) (k : Nat) :
    (∀ v, .returned k v ∈ tr → ∃ f b e, .started f k b ∈ tr ∧ .completed k v e ∈ tr ∧ (∀ x, b = some x → .stored k x e ∈ tr) ∧ (b = none → e = 0)) ∧
    (∀ e, .threw k e ∈ tr → e ≠ 0 ∧ ∃ f v, .started f k none ∈ tr ∧ .completed k v e ∈ tr) := by
  have I := inv_reach h
  obtain ⟨b1, b2, b3, b4, b5, -⟩ := I.said k
  have hp := (I.op k).pass
  refine ⟨fun v hv => ?_, fun e he => ?_⟩
  · obtain ⟨h1, rfl, h3⟩ := b4 v hv
    refine ⟨(s.op k).own, (s.op k).bound, (s.op k).hec, (b1 _ _).2 ⟨by simp [h1], rfl, rfl⟩, (b2 _ _).2 ⟨?_, rfl, rfl⟩, fun x hx => (b3 _ _).2 ⟨?_, ?_, hx, rfl⟩, h3⟩
    all_goals rcases hp (.inr (.inl h1)) with h4 | h4 <;> simp [h4, HPc.past]
  · obtain ⟨h1, rfl, h3, h4⟩ := b5 e he
    refine ⟨h4, (s.op k).own, (s.op k).hval, (b1 _ _).2 ⟨by simp [h1], rfl, h3.symm⟩, (b2 _ _).2 ⟨?_, rfl, rfl⟩⟩
    rcases hp (.inr (.inl h1)) with h4 | h4 <;> simp [h4]

/-- The fiber goes on at most once, with one result; it is scheduled at most once, and only while it is suspended; the shared object is deleted at most once, and neither it nor a variable on the
stack of the fiber is used when it is gone. -/
theorem once_and_safe (h : Reach step init s tr) (k : Nat) :
    tr.countP (isResult k) ≤ 1 ∧ tr.count (.woken k) ≤ 1 ∧ tr.count (.deleted k) ≤ 1 ∧ .ub ∉ tr := by
  have I := inv_reach h
  obtain ⟨-, -, -, -, -, b6, b7, b8⟩ := I.said k
  refine ⟨?_, ?_, ?_, I.noub⟩
  · rw [b6]; split <;> simp
  · rw [b8]; split <;> simp
  · rw [b7]; split <;> simp

/-- How many steps the fiber and the handler of an operation have before them. -/
def left (o : Op) : Nat :=
  (match o.pc with | .unborn => 0 | .called => 6 | .locked => 5 | .parked => 4 | .blocked => 3 | .ready => 2 | .passed => 1 | .done => 0) +
  (match o.hpc with | .pending => 0 | .moved => 10 | .locked => 8 | .set => 6 | .written => 4 | .unlocked => 2 | .finished => 0)

theorem step_left {s' : State} {o : List Obs} {k : Nat} {e : Event} (he : step s e = some (s', o)) (hk : e = .fiber k ∨ e = .handler k) :
    left (s'.op k) < left (s.op k) := by
  rcases hk with rfl | rfl
  · simp only [step, fiber, setOp, release] at he
    cases hp : (s.op k).pc <;> simp only [hp, reduceCtorEq] at he
    all_goals
      (repeat' split at he) <;> simp only [Option.some.injEq, Prod.mk.injEq, reduceCtorEq] at he <;> obtain ⟨rfl, -⟩ := he <;> simp [left, hp] <;> omega
  · simp only [step, handler, setOp] at he
    cases hp : (s.op k).hpc <;> simp only [hp, reduceCtorEq] at he
    all_goals
      (repeat' split at he) <;> simp only [Option.some.injEq, Prod.mk.injEq, reduceCtorEq] at he <;> obtain ⟨rfl, -⟩ := he <;> simp [left, hp, *] <;> omega

/-- When the handler of an operation has been called, the result is delivered as soon as the fiber and the handler have made their steps, of which there are finitely many (`left`): as long as there is no
result, one of them can go on. No wake-up is lost. -/
theorem no_lost_completion (h : Reach step init s tr) {k v e : Nat} (hc : .completed k v e ∈ tr) :
    (∃ o ∈ tr, isResult k o) ∨ ∃ a, (a = .fiber k ∨ a = .handler k) ∧ (step s a).isSome := by
  have I := inv_reach h
  have hO := I.op k
  obtain ⟨a1, a2, a3, a4, a5, a6, a7, a8, a9, a10, a11, a12, a13, a14⟩ := hO
  obtain ⟨b1, b2, b3, b4, b5, b6, b7, b8⟩ := I.said k
  have hp := ((b2 v e).1 hc).1
  by_cases hd : (s.op k).pc = .done
  · left
    rw [if_pos hd] at b6
    have := List.countP_pos_iff.1 (by rw [b6]; exact Nat.one_pos)
    exact this
  · right
    cases hq : (s.op k).hpc
    case pending => exact absurd hq hp
    case moved =>
      cases hl : (s.op k).lock with
      | none => exact ⟨.handler k, .inr rfl, by simp [step, handler, hq, hl]⟩
      | some w =>
        cases w with
        | fiber => exact ⟨.fiber k, .inl rfl, by rcases a4.1 hl with h4 | h4 <;> simp only [step, fiber, h4] <;> (try split) <;> simp⟩
        | handler => simp [hl, hq, HPc.holds] at a5
    case locked => exact ⟨.handler k, .inr rfl, by simp [step, handler, hq]⟩
    case set => exact ⟨.handler k, .inr rfl, by simp only [step, handler, hq]; split <;> simp⟩
    case written => exact ⟨.handler k, .inr rfl, by simp [step, handler, hq]⟩
    case unlocked => exact ⟨.handler k, .inr rfl, by simp only [step, handler, hq]; (repeat' split) <;> simp⟩
    case finished =>
      refine ⟨.fiber k, .inl rfl, ?_⟩
      have hl : (s.op k).lock ≠ some .handler := by simp [a5, hq, HPc.holds]
      cases hr : (s.op k).pc
      case unborn => simp [a1 hr] at hq
      case called =>
        have : (s.op k).lock = none := by
          cases hw : (s.op k).lock with
          | none => rfl
          | some w => cases w <;> simp_all
        simp [step, fiber, hr, this]
      case locked => simp only [step, fiber, hr]; split <;> simp
      case parked => simp [step, fiber, hr]
      case blocked => exact absurd hq (a9 hr (by simp [hq, HPc.past])).1
      case ready => simp [step, fiber, hr]
      case passed => simp [step, fiber, hr]
      case done => exact absurd hr hd

/-- An execution in which only the fiber and the handler of operation `k` make steps is short, -/
theorem short {s' : State} {tr' : List Obs} {k : Nat} {es : List Event} (hk : ∀ e ∈ es, e = .fiber k ∨ e = .handler k) (he : exec step s es = some (s', tr')) :
    es.length ≤ 16 := by
  have : es.length ≤ left (s.op k) := by
    induction es generalizing s tr' with
    | nil => simp
    | cons e es ih =>
      simp only [exec] at he
      split at he
      · cases he
      · rename_i s1 o h1
        split at he
        · cases he
        · rename_i s2 tr2 h2
          simp only [Option.some.injEq, Prod.mk.injEq] at he
          obtain ⟨rfl, rfl⟩ := he
          have := ih (fun e h => hk e (by simp [h])) h2
          have := step_left h1 (hk e (by simp))
          simp only [List.length_cons]; omega
  have : left (s.op k) ≤ 16 := by simp only [left]; split <;> split <;> omega
  omega

/-- and if it has come to its end the fiber has its result. -/
theorem comes_back (h : Reach step init s tr) {k v e : Nat} (hc : .completed k v e ∈ tr) (hn : step s (.fiber k) = none ∧ step s (.handler k) = none) :
    ∃ o ∈ tr, isResult k o := by
  rcases no_lost_completion h hc with hr | ⟨a, rfl | rfl, ha⟩
  · exact hr
  · simp [hn.1] at ha
  · simp [hn.2] at ha

/-- The shared object is deleted when the fiber has its result and asio has destroyed its handlers. -/
theorem nothing_is_left (h : Reach step init s tr) {k : Nat} (hr : ∃ o ∈ tr, isResult k o) (hc : (s.op k).copies = 0) : .deleted k ∈ tr := by
  have I := inv_reach h
  obtain ⟨-, -, -, -, -, b6, b7, -⟩ := I.said k
  have hp : 0 < tr.countP (isResult k) := List.countP_pos_iff.2 hr
  have hd : (s.op k).pc = .done := by
    apply Classical.byContradiction
    intro hn
    rw [b6, if_neg hn] at hp
    omega
  have hf : (s.op k).freed := (I.op k).freed.2 ⟨by simp [hd], by rw [(I.op k).refs, hc, hd]; rfl⟩
  rw [if_pos hf] at b7
  exact List.count_pos_iff.1 (by rw [b7]; exact Nat.one_pos)

/-! ## Instances -/

/-- The handler is called while the fiber is about to suspend itself: it waits for the lock, and then schedules the fiber; asio has made and destroyed a copy of the handler. -/
example : (exec step init [.start 3 0 none, .copy 0, .fiber 0, .drop 0, .call 0 7 0, .fiber 0, .fiber 0, .handler 0, .handler 0, .handler 0, .handler 0, .handler 0,
    .fiber 0, .drop 0, .fiber 0]).map (·.2) =
    some [.started 3 0 none, .completed 0 7 0, .woken 0, .returned 0 7, .deleted 0] := by decide +kernel

/-- The handler is called before the fiber waits: nobody is scheduled. The error is thrown. -/
example : (exec step init [.start 3 0 none, .call 0 7 5, .handler 0, .handler 0, .handler 0, .handler 0, .fiber 0, .handler 0, .fiber 0, .fiber 0]).map (·.2) =
    some [.started 3 0 none, .completed 0 7 5, .threw 0 5] := by decide +kernel

/-- With a bound error code it is stored. -/
example : (exec step init [.start 3 0 (some 9), .fiber 0, .fiber 0, .fiber 0, .call 0 7 5, .handler 0, .handler 0, .handler 0, .handler 0, .handler 0, .fiber 0, .fiber 0]).map
    (fun r => (r.2, r.1.var 9)) =
    some ([.started 3 0 (some 9), .completed 0 7 5, .stored 0 9 5, .woken 0, .returned 0 7], 5) := by decide +kernel

/-- If asio destroys the handler without having called it, the fiber waits for ever. -/
example : (exec step init [.start 3 0 none, .fiber 0, .fiber 0, .fiber 0, .drop 0]).map (fun r => ((r.1.op 0).pc, (r.1.op 0).copies, (r.1.op 0).freed)) =
    some (.blocked, 0, false) := by decide +kernel

end Verif.Props.AsioYield
