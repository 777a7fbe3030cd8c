import Verif.WeakSpmcReach
import Verif.Props.Spmc

/-!
# The lock-free ready queue under the C++ memory model (C75, C76)

`replay tr`: the contents of the queue according to the observations, oldest first; `ok`: what each operation may return
(`Verif/WeakSpmc.lean`, `Verif/Spmc.lean`). `init pinned fix cap`: `fix = false` is the code, `fix = true` publishes a new array with
a release store. All theorems hold for every choice of the messages read.
-/

namespace Verif.WeakSpmc

variable {s s' : State} {tr a b o : List Obs} {p : Nat → Bool} {fix : Bool} {cap : Nat}

theorem runs_to {es : List Event} {s0 : State} (h : (exec step s0 es).map (·.2) = some tr) : ∃ s, Reach step s0 s tr := by
  rw [Option.map_eq_some_iff] at h
  obtain ⟨⟨s, tr'⟩, h1, rfl⟩ := h
  exact ⟨s, reach_of_exec h1⟩

/-! ## C75: each fiber is handed out once, with everything it did -/

/-- Every fiber pushed is obtained by one pop or steal, or still in the queue. -/
theorem exactly_once (hc : 0 < cap) (h : Reach step (init p fix cap) s tr) : Spmc.ExactlyOnce (tr.filterMap Obs.q?) :=
  Spmc.runs_exactly_once (runs_q (reach_inv hc h).2.2.1)

/-- A pop takes the youngest fiber, a steal the oldest; a pop fails only if the queue is empty; `empty()` returns `true` only then. -/
theorem results {x : Obs} (hc : 0 < cap) (h : Reach step (init p fix cap) s (a ++ x :: b)) : ok (replay a) x :=
  (reach_inv hc h).2.2.1.split

/-- If the fibers pushed are pairwise different, none is handed out twice. -/
theorem handed_out_once (hc : 0 < cap) (h : Reach step (init p fix cap) s tr) (hn : (Spmc.pushes (tr.filterMap Obs.q?)).Nodup) :
    (Spmc.takes (tr.filterMap Obs.q?)).Nodup ∧ ∀ x ∈ Spmc.takes (tr.filterMap Obs.q?), x ∈ Spmc.pushes (tr.filterMap Obs.q?) := by
  have h1 := exactly_once hc h
  have h2 := (h1.nodup_iff).1 hn
  rw [List.nodup_append] at h2
  exact ⟨h2.1, fun x hx => h1.mem_iff.2 (List.mem_append_left _ hx)⟩

/-- Whoever steals a fiber has seen everything that fiber did on the thread of the owner. -/
theorem steal_sees_all (hc : 0 < cap) (h : Reach step (init p fix cap) s tr) : ∀ i x, .torn i x ∉ tr := (reach_race hc h).2.2

/-- `pop` never finds `nullptr` in the array (the assertion `nullptr != ctx` holds). -/
theorem pop_asserts {t : Nat} (hc : 0 < cap) (h : Reach step (init p fix cap) s tr) (hs : step s (.own t) = some (s', o)) : .q .ub ∉ o := by
  obtain ⟨_, _, _, T, L, E, h1⟩ := reach_inv hc h
  obtain ⟨s1, h2, rfl⟩ := step_act hs
  have hown := h1.own
  have hA := h1.core.mineArr
  simp only [act] at h2
  unfold ownStep at h2
  split at h2
  case h_8 b hb =>
    rw [hb] at hown
    obtain ⟨_, hL, _, _⟩ := hown
    split at h2
    · cases h2
    · rename_i v m1 hl
      obtain ⟨g, hg⟩ := Weak.load_spec hl
      obtain ⟨hv1, hv2⟩ := h1.core.top.val hg.read
      have hold := hg.old
      have hval := hg.val
      split at h2
      · rw [hA] at h2
        have hnn := h1.core.nonnull b (by omega) (by omega)
        split at h2
        · rename_i hd
          exfalso
          have := enc_dec (mine s.mem (elem (s.mem.cur 0 ARR) (b % s.cap (s.mem.cur 0 ARR))))
          rw [hd] at this
          exact hnn this.symm
        · split at h2 <;> cases h2 <;> simp
      · cases h2; simp
  all_goals ((repeat' split at h2) <;> cases h2 <;> simp)

/-- Three fibers run and are pushed, the array grows twice; the thief takes the oldest, the owner pops the others. Asked before its view of
    `top_` is up to date, `empty()` says `false` although nothing is left. -/
def demo : List Event :=
  [.work 5, .push 5, .own 0, .own 0, .own 0, .own 0, .work 6, .push 6, .own 0, .own 0, .own 0, .own 0, .own 0,
    .work 7, .push 7, .own 0, .own 0, .own 0, .own 0, .own 0, .pop, .own 0, .own 0, .pop, .own 0, .own 0,
    .steal 0 0, .thief 0 0, .thief 0 5, .thief 0 2, .thief 0 0, .thief 0 0, .thief 0 0, .empty 0, .empty 1]

def demoTrace : List Obs :=
  [.q (.pushed 5), .q (.pushed 6), .q (.pushed 7), .q (.popped (some 7)), .q (.popped (some 6)), .q (.touch 0 5), .q (.stolen 0 (some 5)), .empty false, .empty true]

theorem demo_runs : ∃ s, Reach step (init (fun _ => false) false 1) s demoTrace := runs_to (es := demo) (by decide +kernel)

example : ∃ s, Reach step (init (fun _ => false) false 1) s demoTrace ∧ (Spmc.pushes (demoTrace.filterMap Obs.q?)).Nodup ∧
    Spmc.takes (demoTrace.filterMap Obs.q?) = [7, 6, 5] := by
  obtain ⟨s, h⟩ := demo_runs
  exact ⟨s, h, by decide, by decide⟩

/-- The owner and a thief race for the only fiber: the thief wins although the owner has decremented `bottom_`. -/
example : ∃ s, Reach step (init (fun _ => false) false 4) s [.q (.pushed 5), .q (.touch 0 5), .q (.stolen 0 (some 5)), .q (.popped none)] :=
  runs_to (es := [.work 5, .push 5, .own 0, .own 0, .own 0, .own 0, .steal 0 0, .thief 0 0, .thief 0 1, .thief 0 0, .thief 0 1,
    .pop, .own 0, .own 0, .thief 0 0, .thief 0 0, .own 1]) (by decide +kernel)

/-! ## C76: data races -/

/-- Nobody uses an array or a fiber whose construction does not happen before. -/
def RaceFree (tr : List Obs) : Prop := ∀ i x, .race i ∉ tr ∧ .unseen i x ∉ tr

/-- `array_.store( a, relaxed)`: the owner pushes one fiber more than fits; a thief reaches the new array before `bottom_` tells it that
    anything has happened. -/
theorem steal_races : ∃ s tr, Reach step (init (fun _ => false) false 1) s tr ∧ tr = [.q (.pushed 5), .race 0] ∧ ¬ RaceFree tr :=
  ⟨_, [.q (.pushed 5), .race 0],
    reach_of_exec (es := [.push 5, .own 0, .own 0, .own 0, .own 0, .push 6, .steal 0 0, .thief 0 0, .thief 0 1, .own 0, .own 0, .thief 0 1]) rfl, rfl,
    fun h => (h 0 0).1 (by simp)⟩

/-- With `array_.store( a, release)` this does not happen. -/
theorem fixed_no_array_race (hc : 0 < cap) (h : Reach step (init p true cap) s tr) (i : Nat) : .race i ∉ tr := fun hm => by
  have := ((reach_race hc h).2.1 i hm).1
  cases this

/-- Before as many pushes as the first array has elements (4096) there is no race on the array.
    (Missing: any number of pushes; false, see `steal_races`.) -/
theorem no_array_race_partial (hc : 0 < cap) (h : Reach step (init p fix cap) s tr) (hn : pushed tr < cap) (i : Nat) : .race i ∉ tr := fun hm => by
  have := ((reach_race hc h).2.1 i hm).2
  omega

/-- A thief that has been overtaken looks at a fiber created meanwhile: it reads `ctx->type_` without seeing the construction. This does
    not depend on how arrays are published. -/
theorem steal_reads_unseen : ∃ s tr, Reach step (init (fun _ => false) true 1) s tr ∧
    tr = [.q (.pushed 5), .q (.touch 1 5), .q (.stolen 1 (some 5)), .q (.pushed 6), .q (.touch 0 6), .unseen 0 6] ∧ ¬ RaceFree tr := by
  obtain ⟨s, hs⟩ := runs_to (s0 := init (fun _ => false) true 1)
    (tr := [.q (.pushed 5), .q (.touch 1 5), .q (.stolen 1 (some 5)), .q (.pushed 6), .q (.touch 0 6), .unseen 0 6])
    (es := [.work 5, .push 5, .own 0, .own 0, .own 0, .own 0, .steal 0 0, .thief 0 0, .thief 0 1,
      .steal 1 0, .thief 1 0, .thief 1 1, .thief 1 0, .thief 1 1, .thief 1 0, .thief 1 0,
      .work 6, .push 6, .own 1, .own 0, .own 0, .own 0, .thief 0 0, .thief 0 2, .thief 0 0]) (by decide +kernel)
  exact ⟨s, _, hs, rfl, fun h => (h 0 6).2 (by simp)⟩

/-- A thief that has not been overtaken (`top_` has the value it has read) reads only fibers whose construction it has seen.
    (Missing: the others; false, see `steal_reads_unseen`.) -/
theorem no_fiber_race_partial {e : Event} {i x : Nat} (hc : 0 < cap) (h : Reach step (init p fix cap) s tr) (hs : step s e = some (s', o))
    (ht : ∀ v, s.th i = .pin v x → s.mem.msg TOP (v + 1) = none) : .unseen i x ∉ o := fun hm => by
  obtain ⟨_, _, _, T, L, E, h1⟩ := reach_inv hc h
  obtain ⟨v, h2, h3⟩ := (step_race h1 (reach_race hc h).1 hs).2.2.2 i x hm
  exact h3 (ht v h2)

/-- The hypotheses of both partial theorems are met: one push in an array with four elements, and a thief that is not overtaken. -/
example : ∃ s tr, Reach step (init (fun _ => false) false 4) s tr ∧ pushed tr < 4 ∧ s.th 0 = .pin 0 5 ∧ s.mem.msg TOP 1 = none :=
  ⟨_, [.q (.pushed 5)], reach_of_exec (es := [.work 5, .push 5, .own 0, .own 0, .own 0, .own 0, .steal 0 0, .thief 0 0, .thief 0 1, .thief 0 0, .thief 0 1]) rfl,
    by decide, rfl, rfl⟩

end Verif.WeakSpmc
