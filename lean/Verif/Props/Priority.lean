import Verif.PriorityInv

/-!
# C100 Fibers with priorities

`Spec`, `spec` (`Verif/PriorityInv.lean`) tell from what was observed which fibers are ready, since when, and which priority each has. `before p a b`: the priority of `a` is higher, or it is the same and
`a` has been ready longer.
-/

namespace Verif.Props.Priority
open Verif Verif.Priority

/-! ## Which fiber runs -/

/-- The fiber that is taken is ready, and comes before every other ready fiber: its priority is the highest, and among those of the same priority it has been ready for the longest time. The priorities
are those last set, also those set while the fiber was ready. -/
theorem highest_first {s : State} {tr1 tr2 : List Obs} {x : Nat} (h : Reach step init s (tr1 ++ .ran x :: tr2)) :
    (∃ k, (spec tr1).since x = some k) ∧ ∀ y, y ≠ x → (∃ k, (spec tr1).since y = some k) →
      (spec tr1).prio y < (spec tr1).prio x ∨
        (spec tr1).prio x = (spec tr1).prio y ∧ ∃ i j, (spec tr1).since x = some i ∧ (spec tr1).since y = some j ∧ i < j :=
  good_mid (reach_good h)

/-- What the observations tell is so: no fiber that became ready is lost, none is ready that ought not to be, and the priorities are those that were set. -/
theorem told {s : State} {tr : List Obs} (h : Reach step init s tr) (y : Nat) : (s.st y = .ready ↔ ∃ k, (spec tr).since y = some k) ∧ s.prio y = (spec tr).prio y := by
  have hi := reach_inv h
  exact ⟨(hi.st y).trans (hi.q.mem y), by rw [hi.q.prio]⟩

/-- There is always a fiber to run. -/
theorem no_ub {s : State} {tr : List Obs} (h : Reach step init s tr) : .ub ∉ tr := (reach_inv h).noub

/-- A running fiber can always yield, block, or sleep; the dispatcher can always go on. -/
theorem goes_on {s : State} {tr : List Obs} (h : Reach step init s tr) :
    (s.cur = disp → ∃ r, step s .turn = some r) ∧ (s.cur ≠ disp → ∀ e, e = .yield ∨ e = .block ∨ (∃ t, e = .sleep t) → ∃ s' o x, step s e = some (s', o) ∧ .ran x ∈ o ∧ s'.cur = x) := by
  refine ⟨fun hc => ?_, fun hc e he => ?_⟩
  · simp only [step, hc, if_true]
    split <;> exact ⟨_, rfl⟩
  · cases hq : s.queue with
    | nil => exact absurd hq (queue_ne (reach_inv h) hc)
    | cons x q =>
      rcases he with rfl | rfl | ⟨t, rfl⟩
      · refine ⟨_, _, x, by simp only [step, hc, if_false]; rfl, ?_, ?_⟩ <;> simp [leave, hq, schedule]
      · refine ⟨_, _, x, by simp only [step, hc, if_false]; rfl, ?_, ?_⟩ <;> simp [leave, hq]
      · refine ⟨_, _, x, by simp only [step, hc, if_false]; rfl, ?_, ?_⟩ <;> simp [leave, hq]

/-! ## Fibers of the same priority take turns -/

theorem length_le {l : List Nat} : ∀ {L : List Nat}, l.Nodup → (∀ y ∈ l, y ∈ L) → l.length ≤ L.length := by
  induction l with
  | nil => intro L _ _; simp
  | cons a l ih =>
    intro L hn hs
    rw [List.nodup_cons] at hn
    have ha : a ∈ L := hs a (by simp)
    have := ih (L := L.erase a) hn.2 (fun y hy => (List.mem_erase_of_ne (by rintro rfl; exact hn.1 hy)).2 (hs y (by simp [hy])))
    rw [List.length_erase_of_mem ha] at this
    have : 0 < L.length := List.length_pos_of_mem ha
    simp; omega

/-- A ready fiber `x`. `L`: the ready fibers that come before it. As long as no fiber of a higher priority becomes ready, and the priority of `x` is not set, at most as many fibers are taken before `x` as
there are in `L`: the other fibers of its priority, however often they become ready again, come after it. -/
theorem its_turn {s0 s1 : State} {tr0 tr : List Obs} {x : Nat} {L : List Nat} (h0 : Reach step init s0 tr0) (hx : ∃ k, (spec tr0).since x = some k)
    (hL : ∀ y, (∃ k, (spec tr0).since y = some k) → before (spec tr0) y x → y ∈ L) (h : Reach step s0 s1 tr)
    (hready : ∀ y p, .ready y p ∈ tr → p ≤ (spec tr0).prio x) (hset : ∀ p, .set x p ∉ tr) (hran : .ran x ∉ tr) :
    runs tr ≤ L.length := by
  have hi := reach_inv h0
  have hxq := (hi.q.mem x).2 hx
  have n := near_reach h0 hxq h (fun ob hb => by
    cases ob with
    | ready y p => rw [hi.q.prio]; exact hready y p hb
    | set y p => rintro rfl; exact hset p hb
    | ran y => rintro rfl; exact hran hb
    | _ => trivial)
  have hlen : (s0.queue.take (s0.queue.idxOf x)).length ≤ L.length := by
    refine length_le (hi.q.nodup.sublist (List.take_sublist _ _)) (fun y hy => hL y ((hi.q.mem y).1 (List.mem_of_mem_take hy)) ?_)
    have hs := hi.q.sorted
    rw [← List.take_append_drop (s0.queue.idxOf x) s0.queue, List.pairwise_append] at hs
    refine hs.2.2 y hy x ?_
    have hlt : s0.queue.idxOf x < s0.queue.length := List.idxOf_lt_length_of_mem hxq
    rw [List.drop_eq_getElem_cons hlt, List.getElem_idxOf hlt]
    simp
  rw [List.length_take] at hlen
  have hlt : s0.queue.idxOf x < s0.queue.length := List.idxOf_lt_length_of_mem hxq
  have := n.idx
  omega

/-! ## Fibers that sleep, or are woken by another thread -/

/-- When the dispatcher has its turn, every fiber whose sleep is over, and every fiber another thread has woken, becomes ready. -/
theorem turn_wakes {s s' : State} {tr o : List Obs} {x : Nat} (h : Reach step init s tr) (he : step s .turn = some (s', o)) (hx : s.st x = .remote ∨ ∃ t, s.st x = .asleep t ∧ t ≤ s.now) :
    .ready x ((spec tr).prio x) ∈ o := by
  have hi := reach_inv h
  rw [← hi.q.prio]
  exact turn_ready hi he hx

/-- If no fiber of a positive priority becomes ready, the dispatcher has its turn after at most as many switches as there are ready fibers before it. What is missing is that it has one whatever the
priorities are: `sleeper_starves`. -/
theorem dispatcher_turn_partial {s0 s1 : State} {tr0 tr : List Obs} {L : List Nat} (h0 : Reach step init s0 tr0) (hc : s0.cur ≠ disp) (hL : ∀ y, (∃ k, (spec tr0).since y = some k) → y ≠ disp → y ∈ L)
    (h : Reach step s0 s1 tr) (hready : ∀ y p, .ready y p ∈ tr → p ≤ 0) (hruns : L.length < runs tr) : .ran disp ∈ tr := by
  have hi := reach_inv h0
  refine Classical.byContradiction fun hran => ?_
  have hd : s0.st disp = .ready := by
    rcases hi.dst with h1 | h1
    · exact h1
    · exact absurd ((hi.run disp).1 h1).symm hc
  have hset : ∀ p, .set disp p ∉ tr := by
    clear hready hruns hL hran
    induction h with
    | refl => simp
    | tail e h1 hs ih =>
      intro p
      simp only [List.mem_append, not_or]
      refine ⟨ih p, fun hm => ?_⟩
      have hall : ∀ (l : List Nat) (s : State), .set disp p ∉ (scheduleAll s l).2 := by
        intro l
        induction l with
        | nil => intro s; simp [scheduleAll]
        | cons y l ih => intro s; simp [scheduleAll, schedule, ih]
      have hlv : ∀ (s : State) (r : St), .set disp p ∉ (leave s r).2 := by
        intro s r; simp only [leave]; split <;> (try split) <;> simp [schedule]
      cases e <;> simp only [step] at hs <;> (repeat' split at hs) <;>
        simp only [Option.some.injEq, Prod.mk.injEq, reduceCtorEq] at hs <;>
        grind [schedule]
  have hp : (spec tr0).prio disp = 0 := by rw [← hi.q.prio]; exact hi.dprio
  have := its_turn (L := L) h0 ((hi.q.mem _).1 ((hi.st _).1 hd)) (fun y hy hb => hL y hy (by
    rintro rfl
    rcases hb with hb | ⟨_, i, j, h1, h2, hij⟩
    · omega
    · rw [h1] at h2; cases h2; omega)) h (fun y p hm => by rw [hp]; exact hready y p hm) hset hran
  omega

/-- Two fibers of priority 1 (main and 2) and one of priority 100 (3), which goes to sleep until 1. -/
def setup : List Event := [.setPriority 1 1, .post 2, .setPriority 2 1, .post 3, .setPriority 3 100, .yield, .sleep 1]

def setupTr : List Obs := [.set 1 1, .ready 2 0, .set 2 1, .ready 2 1, .ready 3 0, .set 3 100, .ready 3 100, .yielded 1, .ran 3, .ready 1 1, .ran 2]

/-- Each of the two yields once, and time goes on. -/
def round : List Event := [.tick 1, .yield, .yield]

theorem round_again {s : State} (hq : s.queue = [1, disp]) (hc : s.cur = 2) (h1 : s.prio 1 = 1) (h2 : s.prio 2 = 1) (h0 : s.prio 0 = 0) (h3 : s.st 3 = .asleep 1) (h4 : (1, 3) ∈ s.sleepq) :
    ∃ s', Reach step s s' [.yielded 2, .ran 1, .ready 2 1, .yielded 1, .ran 2, .ready 1 1] ∧ s'.queue = [1, disp] ∧ s'.cur = 2 ∧ s'.prio = s.prio ∧ s'.st 3 = .asleep 1 ∧
      (1, 3) ∈ s'.sleepq ∧ s'.now = s.now + 1 := by
  refine ⟨_, reach_of_exec (es := round) (by simp [exec, round, step, leave, schedule, hq, hc, h1, h2, h0, Verif.Priority.insert, disp]; rfl), ?_⟩
  simp [upd_apply, h3, h4]

/-- A fiber whose sleep is over need not run again although its priority is the highest: two fibers of priority 1 yield to each other, and the dispatcher, of priority 0, which would wake it, never has its
turn. -/
theorem sleeper_starves : ∃ s0 tr0, Reach step init s0 tr0 ∧ s0.st 3 = .asleep 1 ∧ (∀ y, (spec tr0).prio 3 = 100 ∧ (y ≠ 3 → (spec tr0).prio y ≤ 1)) ∧
    ∀ k, ∃ s tr, Reach step s0 s tr ∧ k ≤ s.now ∧ k ≤ runs tr ∧ (∀ x, .ran x ∈ tr → x = 1 ∨ x = 2) ∧ (∀ p, .ready 3 p ∉ tr) := by
  obtain ⟨s0, h0, a1, a2, a3, a4, a5, a6, a7⟩ : ∃ s, exec step init setup = some (s, setupTr) ∧ s.queue = [1, disp] ∧ s.cur = 2 ∧ s.prio 1 = 1 ∧ s.prio 2 = 1 ∧ s.prio 0 = 0 ∧ s.st 3 = .asleep 1 ∧
      (1, 3) ∈ s.sleepq := ⟨_, rfl, rfl, rfl, rfl, rfl, rfl, rfl, by decide⟩
  refine ⟨_, _, reach_of_exec h0, a6, fun y => ?_, fun k => ?_⟩
  · simp only [spec, setupTr, List.foldl_cons, List.foldl_nil, Spec.feed, Spec.start, upd_apply]
    refine ⟨by simp, fun hy => ?_⟩
    simp only [hy, if_false]
    split <;> (try split) <;> simp
  · have key : ∀ k, ∃ s tr, Reach step s0 s tr ∧ (s.queue = [1, disp] ∧ s.cur = 2 ∧ s.prio 1 = 1 ∧ s.prio 2 = 1 ∧ s.prio 0 = 0 ∧ s.st 3 = .asleep 1 ∧ (1, 3) ∈ s.sleepq) ∧ k ≤ s.now ∧ k ≤ runs tr ∧
        (∀ x, .ran x ∈ tr → x = 1 ∨ x = 2) ∧ (∀ p, .ready 3 p ∉ tr) := by
      intro k
      induction k with
      | zero => exact ⟨_, [], .refl, ⟨a1, a2, a3, a4, a5, a6, a7⟩, by simp, by simp, by simp, by simp⟩
      | succ k ih =>
        obtain ⟨s, tr, hr, ⟨a1, a2, a3, a4, a5, a6, a7⟩, b1, b2, b3, b4⟩ := ih
        obtain ⟨s', hr', c1, c2, c3, c4, c5, c6⟩ := round_again a1 a2 a3 a4 a5 a6 a7
        refine ⟨s', _, hr.trans hr', ⟨c1, c2, by rw [c3]; exact a3, by rw [c3]; exact a4, by rw [c3]; exact a5, c4, c5⟩, by omega, ?_, ?_, ?_⟩
        · rw [runs_append]; have : runs [.yielded 2, .ran 1, .ready 2 1, .yielded 1, .ran 2, .ready 1 1] = 2 := rfl
          omega
        · intro x hx; rcases List.mem_append.1 hx with h | h
          · exact b3 x h
          · simp at h; exact h
        · intro p hx; rcases List.mem_append.1 hx with h | h
          · exact b4 p h
          · simp at h
    obtain ⟨s, tr, hr, _, h⟩ := key k
    exact ⟨s, tr, hr, h⟩

/-! ## A fiber that yields -/

/-- A fiber that yields becomes ready only after the next one was taken, so that any other fiber, whatever its priority, is preferred to it: here a fiber of priority 1 to one of priority 5. -/
theorem yield_to_lower : ∃ s tr, Reach step init s (tr ++ [.yielded 2, .ran 1, .ready 2 5]) ∧ (spec tr).prio 2 = 5 ∧ (spec tr).prio 1 = 1 := by
  have h : ∃ s, exec step init [.setPriority 1 1, .post 2, .setPriority 2 5, .yield, .yield] =
      some (s, [.set 1 1, .ready 2 0, .set 2 5, .ready 2 5, .yielded 1, .ran 2, .ready 1 1] ++ [.yielded 2, .ran 1, .ready 2 5]) := ⟨_, rfl⟩
  obtain ⟨s, h⟩ := h
  exact ⟨s, _, reach_of_exec h, by decide, by decide⟩

/-! ## Examples -/

/-- Three fibers; the priority of one is set while it is ready. -/
def demo : List Event := [.post 2, .post 3, .setPriority 3 7, .dispatch 4, .setPriority 2 9, .block]

def demoTr : List Obs := [.ready 2 0, .ready 3 0, .set 3 7, .ready 3 7, .started 4, .ready 1 0, .set 2 9, .ready 2 9, .ran 2]

theorem demo_reach : ∃ s, Reach step init s demoTr := ⟨_, reach_of_exec (es := demo) rfl⟩

-- fiber 2 has got the higher priority, and runs before fiber 3
example : (spec (demoTr.take 8)).prio 3 < (spec (demoTr.take 8)).prio 2 ∧ (spec (demoTr.take 8)).since 3 = some 4 := by decide

example : ∃ s, Reach step init s ([.ready 2 0, .ready 3 0, .set 3 7, .ready 3 7, .started 4, .ready 1 0, .set 2 9, .ready 2 9] ++ .ran 2 :: []) := demo_reach

-- its_turn: the dispatcher, main, and fiber 2, all of priority 0, take turns; fiber 3 is the third
example : ∃ s0 s1, Reach step init s0 [.ready 2 0, .ready 3 0] ∧ Reach step s0 s1 [.yielded 1, .ran 0, .ready 1 0, .ran 2, .ready 0 0] ∧
    (∀ y, (∃ k, (spec [.ready 2 0, .ready 3 0]).since y = some k) → before (spec [.ready 2 0, .ready 3 0]) y 3 → y ∈ [0, 2]) := by
  refine ⟨_, _, reach_of_exec (es := [.post 2, .post 3]) rfl, reach_of_exec (es := [.yield, .turn]) rfl, fun y ⟨k, hk⟩ _ => ?_⟩
  rename_i hb
  simp only [spec, List.foldl_cons, List.foldl_nil, Spec.feed, Spec.start, upd_apply, disp] at hk
  unfold before at hb
  by_cases h3 : y = 3
  · subst h3; revert hb; simp [spec, Spec.feed, Spec.start, upd_apply]
  · simp [h3] at hk; grind

-- turn_wakes: main sleeps until 3, and the dispatcher has its turn at 4
example : ∃ s s' o, Reach step init s [.ran 0] ∧ s.st 1 = .asleep 3 ∧ s.now = 4 ∧ step s .turn = some (s', o) ∧ .ready 1 0 ∈ o :=
  ⟨_, _, _, reach_of_exec (es := [.sleep 3, .tick 4]) rfl, rfl, rfl, rfl, by decide⟩

-- woken by another thread
example : ∃ s s' o, Reach step init s [.ran 0] ∧ s.st 1 = .remote ∧ step s .turn = some (s', o) ∧ .ready 1 0 ∈ o :=
  ⟨_, _, _, reach_of_exec (es := [.block, .remote 1]) rfl, rfl, rfl, by decide⟩

end Verif.Props.Priority
