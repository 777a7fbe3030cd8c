import Verif.WeakFiberGo
import Verif.WeakFiberOrd

/-!
# C84: launching, joining and migrating fibers order memory

For every run of any number of threads (each with `round_robin`, `shared_work` or `work_stealing`), every interleaving and every
choice of messages that the C++ memory model allows.
-/

namespace Verif.Props.WeakFiber

open Verif Verif.WeakFiber Verif.Weak

variable {alg : Nat → Alg} {s : State} {tr : List Obs}

theorem split_at {i : Nat} {b : Obs} (h : tr[i]? = some b) : tr = tr.take i ++ b :: tr.drop (i + 1) := by
  obtain ⟨hi, rfl⟩ := List.getElem?_eq_some_iff.1 h
  rw [← List.drop_eq_getElem_cons hi, List.take_append_drop]

theorem good_at (h : Reach step (init alg) s tr) {i : Nat} {b : Obs} (hb : tr[i]? = some b) : Good (tr.take i) b :=
  good_reach h _ _ _ (split_at hb)

/-- A use of data that all former uses of the data happen before is not a data race: what a fiber has done is visible to the fibers
that it launches, and to whoever has joined it, whichever threads run them. -/
theorem ordered_uses_do_not_race (h : Reach step (init alg) s tr) {j x : Nat} {f : Fib} {race : Bool} (hj : tr[j]? = some (.acc f x race))
    (ho : ∀ i g r, i < j → tr[i]? = some (.acc g x r) → HB tr i j) : race = false := by
  cases race with
  | false => rfl
  | true =>
    have h1 : (ord tr j).know f x < (ord tr j).count x := (good_at h hj).1 rfl
    rcases last_use (tr := tr) (x := x) j with h2 | ⟨i, g, r, h2, h3, h4⟩
    · omega
    · obtain ⟨a, g', h5, h6, h7⟩ := (ho i g r h2 h3).before hj
      rw [h3] at h5; cases h5; cases h6
      have := h7 x
      omega

/-- The library itself has no data race. -/
theorem library_has_no_race (h : Reach step (init alg) s tr) (w : Nat) (race : Bool) (hr : Obs.lib w race ∈ tr) : race = false := by
  obtain ⟨p, q, rfl⟩ := List.append_of_mem hr
  exact good_reach h p _ q rfl

/-- `join()` returns only when the function of the fiber has returned. -/
theorem join_waits (h : Reach step (init alg) s tr) {j : Nat} {f g : Fib} (hj : tr[j]? = some (.joined f g)) :
    ∃ i, i < j ∧ tr[i]? = some (.finished g) := by
  have h1 : Obs.finished g ∈ tr.take j := good_at h hj
  obtain ⟨i, hi, he⟩ := List.mem_iff_getElem.1 h1
  rw [List.length_take] at hi
  rw [List.getElem_take] at he
  exact ⟨i, by omega, by rw [List.getElem?_eq_some_iff]; exact ⟨by omega, he⟩⟩

/-- A fiber whose function has returned uses nothing any more. -/
theorem nothing_after_the_end (h : Reach step (init alg) s tr) {i j x : Nat} {f : Fib} {race : Bool} (hi : tr[i]? = some (.finished f))
    (hj : tr[j]? = some (.acc f x race)) : j < i := by
  have h1 : Obs.finished f ∉ tr.take j := (good_at h hj).2
  have h2 : i ≠ j := by rintro rfl; rw [hi] at hj; cases hj
  have h3 : ¬ i < j := by
    intro h4
    obtain ⟨h5, h6⟩ := List.getElem?_eq_some_iff.1 hi
    refine h1 (List.mem_iff_getElem.2 ⟨i, by rw [List.length_take]; omega, ?_⟩)
    rw [List.getElem_take]; exact h6
  omega

/-- No null pointer is used: a fiber that is woken has a scheduler, wherever it came from. -/
theorem no_null (h : Reach step (init alg) s tr) (w : Nat) : Obs.null w ∉ tr := by
  intro hn
  obtain ⟨p, q, rfl⟩ := List.append_of_mem hn
  exact good_reach h p _ q rfl

/-- Every joiner is woken by the fiber it waits for: the waker is never stale. -/
theorem joiners_are_woken (h : Reach step (init alg) s tr) (f g : Fib) (ok : Bool) (hw : Obs.woke f g ok ∈ tr) : ok = true := by
  obtain ⟨p, q, rfl⟩ := List.append_of_mem hw
  exact good_reach h p _ q rfl

/-- A fiber runs on one thread at a time. -/
theorem one_thread (h : Reach step (init alg) s tr) {w w' : Nat} {f : Fib} (h1 : s.ph w = .run f) (h2 : s.ph w' = .run f) : w = w' := by
  obtain ⟨pl, hi⟩ := inv_reach h
  have h3 := hi.str.car w f (by simp [h1, Ph.carry])
  have h4 := hi.str.car w' f (by simp [h2, Ph.carry])
  rw [h3] at h4; cases h4; rfl

/-- A ready fiber is in one queue, once, and does not run. -/
theorem one_queue (h : Reach step (init alg) s tr) {j : Nat} {f : Fib} (hq : f ∈ s.sq j) :
    (s.sq j).count f = 1 ∧ (∀ i, f ∈ s.sq i → i = j) ∧ (∀ w, f ∉ s.own w) ∧ (∀ w, f ∉ s.rq w) ∧ ∀ w, s.ph w ≠ .run f := by
  obtain ⟨pl, hi⟩ := inv_reach h
  have h1 := (hi.str.sq j f hq).1
  refine ⟨by rw [(hi.str.sqN j).count, if_pos hq], fun i h2 => ?_, fun w h2 => ?_, fun w h2 => ?_, fun w h2 => ?_⟩
  · have := (hi.str.sq i f h2).1; rw [h1] at this; cases this; rfl
  · have := (hi.str.own w f h2).1; rw [h1] at this; cases this
  · have := (hi.str.rq w f h2).1; rw [h1] at this; cases this
  · have := hi.str.car w f (by simp [h2, Ph.carry]); rw [h1] at this; cases this

/-! ## Examples -/

/-- Two threads with `shared_work`. The main fiber of thread 0 uses the data and launches a fiber; thread 1 takes it over and runs it;
the main fiber of thread 0 waits for it, is woken from thread 1 and uses the data again. -/
def demo : List Event :=
  [.use 0 0, .spawn 0 2 false, .go 0 0, .go 0 0, .go 0 0, .go 0 2,
   .yield 1, .look 1 0 2, .took 1 2, .go 1 4, .go 1 0, .go 1 0, .go 1 0,
   .join 0 2, .go 0 0, .go 0 0, .go 0 0, .go 0 0, .go 0 0, .own 0 1, .go 0 0, .go 0 2, .go 0 0,
   .use 1 0, .finish 1, .go 1 2, .go 1 0, .go 1 0, .go 1 1, .go 1 0, .go 1 0, .go 1 0, .go 1 2, .go 1 0, .go 1 4, .own 1 3, .go 1 0,
   .fetch 0, .go 0 2, .go 0 0, .go 0 4, .go 0 0, .go 0 0, .go 0 0, .yield 0, .own 0 0, .go 0 0, .go 0 0, .ret 0, .use 0 0]

/-- The uses, the launch and the join in a trace. -/
def main (tr : List Obs) : List Obs := tr.filter fun o => o.actor.isSome

theorem demo_runs : (exec step (init fun _ => .sharedWork) demo).map (fun p => (main p.2, p.2.contains (.woke 2 0 true))) =
    some ([.acc 0 0 false, .spawned 0 2, .acc 2 0 false, .finished 2, .joined 0 2, .acc 0 0 false], true) := by decide +kernel

/-- The memory model does have races: two main fibers that use the same data without any order. -/
theorem race_demo : (exec step (init fun _ => .sharedWork) [.use 0 0, .use 1 0]).map (fun p => main p.2) =
    some [.acc 0 0 false, .acc 3 0 true] := by decide +kernel

/-- A launched fiber and the one that launched it are not ordered. -/
theorem race_demo2 : (exec step (init fun _ => .sharedWork)
    [.spawn 0 2 false, .go 0 0, .go 0 0, .go 0 0, .go 0 2, .use 0 0, .yield 1, .look 1 0 2, .took 1 2, .go 1 4, .go 1 0, .go 1 0, .go 1 0, .use 1 0]).map
      (fun p => main p.2) = some [.spawned 0 2, .acc 0 0 false, .acc 2 0 true] := by decide +kernel

/-- Thread 1 steals a fiber from thread 0. -/
theorem steal_demo : (exec step (init fun _ => .workStealing)
    [.use 0 0, .spawn 0 2 false, .go 0 0, .go 0 0, .go 0 0, .go 0 2, .yield 1, .look 1 1 2, .took 1 2, .go 1 4, .go 1 0, .go 1 0, .go 1 0, .go 1 0, .go 1 0, .go 1 2,
      .use 1 0]).map (fun p => main p.2) = some [.acc 0 0 false, .spawned 0 2, .acc 2 0 false] := by decide +kernel

/-- The demo meets the hypotheses of `ordered_uses_do_not_race`, `join_waits`, `joiners_are_woken`. -/
example : ∃ s tr j, Reach step (init fun _ => .sharedWork) s tr ∧ tr[j]? = some (.acc 0 0 false) ∧
    (∀ i g r, i < j → tr[i]? = some (.acc g 0 r) → HB tr i j) ∧ (∃ i, i < j ∧ tr[i]? = some (.joined 0 2)) ∧
    (∃ i, i < j ∧ tr[i]? = some (.acc 2 0 false)) ∧ Obs.woke 2 0 true ∈ tr := by
  obtain ⟨s, tr, he, ht⟩ : ∃ s tr, exec step (init fun _ => .sharedWork) demo = some (s, tr) ∧
      (tr.zipIdx.filter (fun o => o.1.actor.isSome) = [(.acc 0 0 false, 1), (.spawned 0 2, 3), (.acc 2 0 false, 19), (.finished 2, 20), (.joined 0 2, 36), (.acc 0 0 false, 38)] ∧
        tr.contains (.woke 2 0 true) = true) := by
    cases he : exec step (init fun _ => .sharedWork) demo with
    | none => exact absurd (show (exec step (init fun _ => .sharedWork) demo).isSome = true by decide +kernel) (by simp [he])
    | some p =>
      refine ⟨p.1, p.2, rfl, ?_⟩
      have h1 : (exec step (init fun _ => .sharedWork) demo).map (fun p => (p.2.zipIdx.filter (fun o => o.1.actor.isSome), p.2.contains (.woke 2 0 true))) =
        some ([(.acc 0 0 false, 1), (.spawned 0 2, 3), (.acc 2 0 false, 19), (.finished 2, 20), (.joined 0 2, 36), (.acc 0 0 false, 38)], true) := by decide +kernel
      rw [he] at h1
      simp only [Option.map_some, Option.some.injEq, Prod.mk.injEq] at h1
      exact h1
  obtain ⟨ht, hw⟩ := ht
  have hat : ∀ i b, b.actor.isSome = true → (tr[i]? = some b ↔ (b, i) ∈ [(Obs.acc 0 0 false, 1), (.spawned 0 2, 3), (.acc 2 0 false, 19), (.finished 2, 20), (.joined 0 2, 36), (.acc 0 0 false, 38)]) := by
    intro i b hb
    rw [← ht, List.mem_filter, List.mem_zipIdx_iff_getElem?]
    simp [hb]
  refine ⟨s, tr, 38, reach_of_exec he, (hat _ _ rfl).2 (by simp), ?_, ⟨36, by omega, (hat _ _ rfl).2 (by simp)⟩, ⟨19, by omega, (hat _ _ rfl).2 (by simp)⟩, by simpa using hw⟩
  intro i g r hi hb
  have h1 := (hat _ _ rfl).1 hb
  simp only [List.mem_cons, Prod.mk.injEq, Obs.acc.injEq, List.not_mem_nil, or_false, reduceCtorEq, false_and, false_or] at h1
  have h36 : tr[36]? = some (.joined 0 2) := (hat _ _ rfl).2 (by simp)
  have h38 : tr[38]? = some (.acc 0 0 false) := (hat _ _ rfl).2 (by simp)
  rcases h1 with ⟨⟨rfl, _, rfl⟩, rfl⟩ | ⟨⟨rfl, _, rfl⟩, rfl⟩ | ⟨⟨rfl, _, rfl⟩, rfl⟩
  · exact .prog 0 (by omega) hb h38 rfl rfl
  · exact .trans (.join 0 2 (by omega) hb rfl h36) (.prog 0 (by omega) h36 h38 rfl rfl)
  · omega

end Verif.Props.WeakFiber
