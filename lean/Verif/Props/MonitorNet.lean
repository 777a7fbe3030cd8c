import Verif.Props.MonitorChan
import Verif.MonitorNetDet

/-!
# Properties of networks of buffered channels, on weak memory: results do not depend on the schedule
-/

namespace Verif.Props.MonitorNet

open Verif Verif.Weak Verif.Monitor Verif.Monitor.Chan Verif.Props.MonitorChan
open Verif.WeakDrf (State init step)
open Verif.Rtm (Tid Lock Addr Req Done Hist Prog mine)

/-- Threads that communicate only through channels with one producer and one consumer each, with blocking operations, and hand data over through them: what a thread sees does not
depend on the schedule, nor on anything else that the memory model leaves open. In any two executions each thread has done and seen the same, as far as it has got in both. -/
theorem results_do_not_depend_on_the_schedule (C : Chans) (V : UProg Op Res) (prod cons : Obj → Tid) (hn : Network C V prod cons) (named : Nat → Bool) (first : Addr → Tid)
    (hc : Careful (lib C) V (ports named) first) (s1 s2 : State) (tr1 tr2 : List Unit) (h1 : Reach (step (compile (lib C) V)) init s1 tr1)
    (h2 : Reach (step (compile (lib C) V)) init s2 tr2) (t : Tid) :
    (∃ later, seen C V s2 t = later ++ seen C V s1 t) ∨ ∃ later, seen C V s1 t = later ++ seen C V s2 t := by
  have hcl := careful_clean hc
  obtain ⟨_, hI⟩ := handoff hc (repeats named) (Kept C named first) (kept_init named first) (fun _ _ _ hl hk hg => kept_step hcl hl hk hg)
    (fun _ _ _ _ _ _ _ hl hk ht => kept_safe hcl hl hk ht)
  obtain ⟨_, l1, p1, _⟩ := data_handed_over_through_channels C V named first hc s1 tr1 h1
  obtain ⟨_, l2, p2, _⟩ := data_handed_over_through_channels C V named first hc s2 tr2 h2
  rw [p1, p2]
  exact (determined hn hcl hc hI _ _ _ (Nat.le_refl _) l1 l2).1 t

/-- A thread that has come to its end in one execution does nothing else in any other. -/
theorem an_end_is_the_only_end (C : Chans) (V : UProg Op Res) (prod cons : Obj → Tid) (hn : Network C V prod cons) (named : Nat → Bool) (first : Addr → Tid)
    (hc : Careful (lib C) V (ports named) first) (s1 s2 : State) (tr1 tr2 : List Unit) (h1 : Reach (step (compile (lib C) V)) init s1 tr1)
    (h2 : Reach (step (compile (lib C) V)) init s2 tr2) (t : Tid) (hend : V t (seen C V s1 t) = none) :
    (∃ later, seen C V s1 t = later ++ seen C V s2 t) ∧ (V t (seen C V s2 t) = none → seen C V s1 t = seen C V s2 t) := by
  obtain ⟨_, l1, p1, _⟩ := data_handed_over_through_channels C V named first hc s1 tr1 h1
  obtain ⟨_, l2, p2, _⟩ := data_handed_over_through_channels C V named first hc s2 tr2 h2
  have hback : ∀ s : State, ULegal (lib C) V (sections C V s) → (∀ t, seen C V s t = upast (sections C V s) t) → ∀ p, V t p = none → ∀ later, seen C V s t = later ++ p →
      later = [] := by
    intro s l hp p hp0 later he
    rw [hp] at he
    rcases List.eq_nil_or_concat later with rfl | ⟨l', d, rfl⟩
    · rfl
    · exact absurd hp0 (had_work hn l l' d p (by simpa using he))
  rcases results_do_not_depend_on_the_schedule C V prod cons hn named first hc s1 s2 tr1 tr2 h1 h2 t with ⟨l, hl⟩ | ⟨l, hl⟩
  · have := hback s2 l2 p2 _ hend l hl
    subst this
    simp at hl
    exact ⟨⟨[], by simp [hl]⟩, fun _ => hl.symm⟩
  · refine ⟨⟨l, hl⟩, fun he => ?_⟩
    have := hback s1 l1 p1 _ he l hl
    subst this
    simpa using hl

/-- Whether a network comes to its end does not depend on the schedule, either. If all threads come to their ends in one execution, then no execution gets stuck: in each, either all threads have come
to the same ends, or it can be continued such that a thread completes what it does next. -/
theorem no_execution_gets_stuck_if_one_ends (C : Chans) (V : UProg Op Res) (prod cons : Obj → Tid) (hn : Network C V prod cons) (named : Nat → Bool) (first : Addr → Tid)
    (hc : Careful (lib C) V (ports named) first) (s1 s2 : State) (tr1 tr2 : List Unit) (h1 : Reach (step (compile (lib C) V)) init s1 tr1)
    (h2 : Reach (step (compile (lib C) V)) init s2 tr2) (hend : ∀ t, V t (seen C V s1 t) = none) :
    (∀ t, seen C V s2 t = seen C V s1 t) ∨
      ∃ t e d s3 tr3, Reach (step (compile (lib C) V)) init s3 tr3 ∧ sections C V s3 = (t, e) :: sections C V s2 ∧ seen C V s3 t = d :: seen C V s2 t := by
  have hcl := careful_clean hc
  obtain ⟨hd, hI⟩ := handoff hc (repeats named) (Kept C named first) (kept_init named first) (fun _ _ _ hl hk hg => kept_step hcl hl hk hg)
    (fun _ _ _ _ _ _ _ hl hk ht => kept_safe hcl hl hk ht)
  obtain ⟨_, l1, p1, _⟩ := data_handed_over_through_channels C V named first hc s1 tr1 h1
  obtain ⟨_, l2, p2, _⟩ := data_handed_over_through_channels C V named first hc s2 tr2 h2
  by_cases hall : ∃ t, ¬ ∃ r, upast (sections C V s2) t = r ++ upast (sections C V s1) t
  · right
    obtain ⟨t, e, d, h3, h4⟩ := goes_on hn hcl hc hI l2 l1 hall
    obtain ⟨s3, tr3, h5, h6⟩ := Monitor.every_history_of_operations_happens _ _ hd _ h3
    obtain ⟨_, _, p3, _⟩ := data_handed_over_through_channels C V named first hc s3 tr3 h5
    refine ⟨t, e, d, s3, tr3, h5, h6, ?_⟩
    rw [p3, p2]
    unfold sections at h6 ⊢
    rw [h6]; exact h4
  · left
    intro t
    obtain ⟨r, hr⟩ := Classical.byContradiction fun h => hall ⟨t, h⟩
    obtain ⟨⟨l, hl⟩, _⟩ := an_end_is_the_only_end C V prod cons hn named first hc s1 s2 tr1 tr2 h1 h2 t (hend t)
    rw [← p1, ← p2] at hr
    have h5 := congrArg List.length hr
    rw [hl] at h5
    simp at h5
    have : l = [] := List.length_eq_zero_iff.1 (by omega)
    rw [hl, this]; rfl

/-! ## Examples -/

theorem pipeline_network (C : Chans) : Network C pipeline (fun o => o - 1) (fun o => o) := by
  intro h t o op _ hV
  unfold pipeline at hV
  split at hV <;> simp at hV
  · obtain ⟨rfl, rfl⟩ := hV; exact .inl ⟨rfl, .inr ⟨_, rfl⟩⟩
  · obtain ⟨rfl, rfl⟩ := hV; exact .inl ⟨rfl, .inr ⟨_, rfl⟩⟩
  · obtain ⟨rfl, rfl⟩ := hV; exact .inr ⟨rfl, rfl⟩

/-- A pipeline of any length, with channels of any capacities. -/
example (C : Chans) (s1 s2 : State) (tr1 tr2 : List Unit) (h1 : Reach (step (compile (lib C) pipeline)) init s1 tr1)
    (h2 : Reach (step (compile (lib C) pipeline)) init s2 tr2) (t : Tid) :
    (∃ later, seen C pipeline s2 t = later ++ seen C pipeline s1 t) ∨ ∃ later, seen C pipeline s1 t = later ++ seen C pipeline s2 t :=
  results_do_not_depend_on_the_schedule C pipeline _ _ (pipeline_network C) every source (pipeline_careful C) s1 s2 tr1 tr2 h1 h2 t

/-- The sum of the elements popped. -/
def total : List (UDone Op Res) → Nat
  | [] => 0
  | .did _ _ (.value v) :: p => v + total p
  | _ :: p => total p

/-- Thread 0 pushes 1 two times and closes channel 0; thread 1 pops until the channel is closed, and pushes the sum to channel 1; thread 2 pops it. -/
def sums : UProg Op Res
  | 0, [] => some (.call 0 (.push 1))
  | 0, [_] => some (.call 0 (.push 1))
  | 0, [_, _] => some (.call 0 .close)
  | 1, .did 0 _ .closed :: p => some (.call 1 (.push (total p)))
  | 1, .did 1 _ _ :: _ => none
  | 1, _ => some (.call 0 .pop)
  | 2, [] => some (.call 1 .pop)
  | _, _ => none

theorem sums_network (C : Chans) : Network C sums (fun o => o) (fun o => o + 1) := by
  intro h t o op _ hV
  unfold sums at hV
  split at hV <;> simp at hV <;> obtain ⟨rfl, rfl⟩ := hV <;> first | exact .inl ⟨rfl, .inl rfl⟩ | exact .inl ⟨rfl, .inr ⟨_, rfl⟩⟩ | exact .inr ⟨rfl, rfl⟩

theorem sums_careful (C : Chans) : Careful (lib C) sums (ports fun _ => false) source := by
  intro h t _
  refine ⟨fun a hV => ?_, fun o op a _ ho => ?_⟩
  · exfalso
    unfold sums at hV
    split at hV <;> simp at hV
  · simp only [ports, Option.bind_eq_some_iff] at ho
    obtain ⟨_, _, ho⟩ := ho
    simp [name] at ho

deriving instance DecidableEq for UDone

/-- An execution: thread 0 waits for room, threads 1 and 2 wait for elements. -/
def run : List (Tid × Nat) :=
  [(0, 0), (0, 2), (0, 2), (0, 2), (0, 2), (0, 2), (0, 2), (0, 2), (0, 2), (0, 4), (0, 4), (0, 4), (0, 4), (0, 4), (0, 4), (1, 4), (1, 6), (1, 6), (1, 6), (1, 6), (1, 6), (1, 6),
    (1, 6), (2, 0), (2, 8), (2, 8), (2, 8), (2, 8), (2, 8), (2, 8), (0, 6), (0, 10), (0, 10), (0, 10), (0, 10), (0, 10), (0, 10), (0, 10), (1, 10), (1, 12), (1, 12), (1, 12),
    (1, 12), (1, 12), (1, 12), (1, 12), (1, 14), (1, 14), (1, 14), (1, 14), (1, 14), (1, 14), (0, 14), (0, 16), (0, 16), (0, 16), (0, 16), (0, 16), (1, 16), (1, 18), (1, 18),
    (1, 18), (1, 18), (1, 8), (1, 20), (1, 20), (1, 20), (1, 20), (1, 20), (1, 20), (1, 20), (1, 20), (2, 20), (2, 22), (2, 22), (2, 22), (2, 22), (2, 22), (2, 22)]

theorem run_seen : ((exec (step (compile (lib two) sums)) init run).map fun r => (seen two sums r.1 0, seen two sums r.1 1, seen two sums r.1 2)) =
    some ([.did 0 .close .none, .did 0 (.push 1) .success, .did 0 (.push 1) .success],
      [.did 1 (.push 2) .success, .did 0 .pop .closed, .did 0 .pop (.value 1), .did 0 .pop (.value 1)], [.did 1 .pop (.value 2)]) := by
  decide +kernel

theorem run_ends : ∃ s tr, Reach (step (compile (lib two) sums)) init s tr ∧ seen two sums s 2 = [.did 1 .pop (.value 2)] ∧ ∀ t, sums t (seen two sums s t) = none := by
  have h := run_seen
  cases he : exec (step (compile (lib two) sums)) init run with
  | none => rw [he] at h; cases h
  | some r =>
    rw [he] at h
    simp only [Option.map_some, Option.some.injEq, Prod.mk.injEq] at h
    obtain ⟨h0, h1, h2⟩ := h
    refine ⟨r.1, r.2, reach_of_exec he, h2, ?_⟩
    rintro (_ | _ | _ | t)
    · rw [h0]; rfl
    · change sums 1 (seen two sums r.1 1) = _
      rw [h1]; rfl
    · change sums 2 (seen two sums r.1 2) = _
      rw [h2]; rfl
    · rfl

/-- From one execution we know all: in each, thread 2 gets 2 or nothing yet, and no execution gets stuck. -/
example (s : State) (tr : List Unit) (h : Reach (step (compile (lib two) sums)) init s tr) :
    (seen two sums s 2 = [] ∨ seen two sums s 2 = [.did 1 .pop (.value 2)]) ∧
      (seen two sums s 2 = [.did 1 .pop (.value 2)] ∨
        ∃ t e d s3 tr3, Reach (step (compile (lib two) sums)) init s3 tr3 ∧ sections two sums s3 = (t, e) :: sections two sums s ∧ seen two sums s3 t = d :: seen two sums s t) := by
  obtain ⟨s1, tr1, h1, h2, h3⟩ := run_ends
  refine ⟨?_, ?_⟩
  · obtain ⟨⟨l, hl⟩, _⟩ := an_end_is_the_only_end two sums _ _ (sums_network two) _ source (sums_careful two) s1 s tr1 tr h1 h 2 (h3 2)
    rw [h2] at hl
    cases l with
    | nil => exact .inr hl.symm
    | cons x l =>
      simp at hl
      exact .inl hl.2.2
  · rcases no_execution_gets_stuck_if_one_ends two sums _ _ (sums_network two) _ source (sums_careful two) s1 s tr1 tr h1 h h3 with h4 | h4
    · exact .inl (by rw [h4, h2])
    · exact .inr h4

/-- Not a network: thread 1 does not wait. -/
def impatient : UProg Op Res
  | 0, [] => some (.call 0 (.push 5))
  | 1, [] => some (.call 0 .tryPop)
  | _, _ => none

/-- What thread 1 sees depends on the schedule. -/
example : ((exec (step (compile (lib two) impatient)) init [(0, 0), (0, 2), (0, 2), (0, 2), (0, 2), (0, 2), (0, 2), (0, 2), (1, 2), (1, 4), (1, 4), (1, 4), (1, 4), (1, 4), (1, 4)]).map
    fun r => seen two impatient r.1 1) = some [.did 0 .tryPop (.value 5)] := by
  decide +kernel

example : ((exec (step (compile (lib two) impatient)) init [(1, 0), (1, 2), (1, 2), (1, 2), (1, 2), (0, 2), (0, 4), (0, 4), (0, 4), (0, 4), (0, 4), (0, 4), (0, 4)]).map
    fun r => seen two impatient r.1 1) = some [.did 0 .tryPop .empty] := by
  decide +kernel

/-- Not a network: threads 0 and 2 push to the same channel. -/
def twoProducers : UProg Op Res
  | 0, [] => some (.call 0 (.push 5))
  | 2, [] => some (.call 0 (.push 6))
  | 1, [] => some (.call 0 .pop)
  | _, _ => none

/-- What thread 1 sees depends on the schedule. -/
example : ((exec (step (compile (lib two) twoProducers)) init [(0, 0), (0, 2), (0, 2), (0, 2), (0, 2), (0, 2), (0, 2), (0, 2), (1, 2), (1, 4), (1, 4), (1, 4), (1, 4), (1, 4), (1, 4)]).map
    fun r => seen two twoProducers r.1 1) = some [.did 0 .pop (.value 5)] := by
  decide +kernel

example : ((exec (step (compile (lib two) twoProducers)) init [(2, 0), (2, 2), (2, 2), (2, 2), (2, 2), (2, 2), (2, 2), (2, 2), (1, 2), (1, 4), (1, 4), (1, 4), (1, 4), (1, 4), (1, 4)]).map
    fun r => seen two twoProducers r.1 1) = some [.did 0 .pop (.value 6)] := by
  decide +kernel

end Verif.Props.MonitorNet
