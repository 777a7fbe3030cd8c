import Verif.FibLive

/-!
# Property C113: joins return

`Run` and `Run.Fair` (whoever can go on goes on) are in `Verif/Fair.lean`. A call is seen as `called f op x` (`x` is the fiber the handle
refers to) and its return as `ret f op x result`; `returned g`: the function of fiber `g` has returned; `freed g`: its stack and control block
are gone.
-/

namespace Verif.Props.FibLive

open Verif Verif.Fib

variable {r : Run step init}

/-- A `join` that was just called is under way, unless it is over at once (own handle, empty handle). -/
theorem in_after {i : Nat} {f g : Fid} {h : Hid} (hc : .called f (.join h) (some g) ∈ r.ob i) (hfg : f ≠ g) :
    pendOf ((r.st (i + 1)).pc f) = some (.join h, some g) := by
  obtain ⟨hR, sim⟩ := reach_sim (r.reach (i + 1))
  rw [← sim.pend (run_aborted r (i + 1))]
  have : r.ob i = [.called f (.join h) (some g)] := by
    rcases (called_join (reach_inv (r.reach i)).1 (r.next i) hc).2 with h1 | h1 | ⟨_, _, _, h1⟩
    · simp at h1
    · exact absurd (Option.some.inj h1.1).symm hfg
    · exact h1
  have htr : r.tr (i + 1) = r.tr i ++ [.called f (.join h) (some g)] := by rw [← this]; rfl
  rw [htr]
  simp [replay, Spec.after]

/-- **C113.** When the function of a fiber has returned, or returns later, every `join` of it returns. -/
theorem join_returns (hf : r.Fair Event.run) {i m : Nat} {f g : Fid} {h : Hid} (hc : .called f (.join h) (some g) ∈ r.ob i) (hfg : f ≠ g)
    (hg : .returned g ∈ r.ob m) : ∃ j, i < j ∧ .ret f (.join h) (some g) .ok ∈ r.ob j := by
  obtain ⟨T, _, hT⟩ := terminates hf (done_after hg)
  refine Classical.byContradiction fun hno => ?_
  have hin : ∀ d, pendOf ((r.st (i + 1 + d)).pc f) = some (.join h, some g) := by
    intro d
    induction d with
    | zero => exact in_after hc hfg
    | succ d ih =>
      rcases in_join ih with h1 | h1
      · exact h1
      · exact absurd ⟨_, by omega, h1⟩ hno
  obtain ⟨j, hj, h1⟩ := join_ends hf (hin T) (over_le (r := r) (by omega) hT)
  exact hno ⟨j, by omega, h1⟩

/-- **C113.** A fiber whose function has returned terminates and leaves its stack. If the dispatcher releases terminated fibers, and the program
lets go of the fiber (no handle refers to it any more), its memory is freed. -/
theorem finished_fiber_is_freed (hf : r.Fair Event.run) {m : Nat} {g : Fid} (hg : .returned g ∈ r.ob m) :
    (∃ j ws, .terminated g ws ∈ r.ob j) ∧ (∃ j, .left g ∈ r.ob j) ∧
      (r.Fair Event.reap → (∃ N, m < N ∧ ∀ h, handles (r.tr N) h ≠ some (some g)) → ∃ j, .freed g ∈ r.ob j) := by
  obtain ⟨T, h1, hT⟩ := terminates hf (done_after hg)
  obtain ⟨U, h2, hU⟩ := leaves hf hT
  refine ⟨?_, ?_, fun hre ⟨N, hN, hh⟩ => ?_⟩
  · obtain ⟨_, sim⟩ := reach_sim (r.reach T)
    rw [← sim.over, replay_over] at hT
    obtain ⟨ws, hw⟩ := hT
    obtain ⟨j, _, hj⟩ := mem_tr hw
    exact ⟨j, ws, hj⟩
  · obtain ⟨_, sim⟩ := reach_sim (r.reach U)
    rw [← sim.left, replay_left] at hU
    obtain ⟨j, _, hj⟩ := mem_tr hU
    exact ⟨j, hj⟩
  · obtain ⟨W, h3, hW⟩ := reaped hre hU
    have hob : handles (r.tr N) = (r.st N).hd := (reach_sim (r.reach N)).2.obj
    rw [hob] at hh
    have hdN : (r.st N).pc g ≠ .unborn := by
      intro h
      have h5 := (reach_sim (r.reach N)).2.ret g
      rw [h] at h5
      have := (replay_ret (r.tr N) g).2 (mem_tr_of hg hN)
      rw [this] at h5; cases h5
    have hK := reaped_le (r := r) (show W ≤ max W N by omega) hW
    obtain ⟨_, hh'⟩ := no_handle_le (r := r) (show N ≤ max W N by omega) hdN hh
    obtain ⟨hcore, -, -⟩ := reach_inv (r.reach (max W N))
    obtain ⟨_, sim⟩ := reach_sim (r.reach (max W N))
    have hmn : (r.st (max W N)).main g = false := by
      cases hm : (r.st (max W N)).main g with
      | false => rfl
      | true => have := (hcore.mn g hm).2.2.2; rw [hcore.trm, hK] at this; simp [Pc.over] at this
    have h5 := hcore.free g (by simp [hK]) hmn hh'
    rw [hK] at h5
    have h6 : (r.st (max W N)).live g = false := by
      cases hl : (r.st (max W N)).live g with
      | false => rfl
      | true => have := (hcore.liv g).1 hl; rw [h5] at this; exact absurd this (by decide)
    have h7 := sim.freed g
    rw [h6, hK] at h7
    obtain ⟨j, _, hj⟩ := mem_tr ((replay_freed _ _).1 (h7.trans (by simp)))
    exact ⟨j, hj⟩

/-- Fiber `f` is stuck in a `join`: it has called one that never returns. -/
def StuckInJoin (r : Run step init) (f : Fid) : Prop :=
  ∃ i h x, .called f (.join h) x ∈ r.ob i ∧ ∀ j res, .ret f (.join h) x res ∉ r.ob j ∨ j < i

/-- The fiber a `join` waits for was spawned. -/
theorem joined_was_spawned {i : Nat} {f g : Fid} {h : Hid} (hc : .called f (.join h) (some g) ∈ r.ob i) :
    ∃ k f' h', .called f' (.spawn h' g) (some g) ∈ r.ob k := by
  have hcore := (reach_inv (r.reach i)).1
  have hk := (called_join hcore (r.next i) hc).1
  obtain ⟨h1, h2⟩ := hcore.hold h g hk
  rcases spawned (r.reach i) g with h3 | h3 | ⟨f', h', h3⟩
  · exact absurd h3 h1
  · rw [h2] at h3; cases h3
  · obtain ⟨k, _, hk⟩ := mem_tr h3
    exact ⟨k, f', h', hk⟩

/-- **C113.** Nested joins: every spawned fiber returns from its function unless it is stuck in a `join`, and there is a number for every fiber
such that a fiber only joins fibers with smaller numbers (for example: how deep the recursion below it goes). Then every `join` returns and
every spawned fiber returns from its function. -/
theorem nested_joins_return (hf : r.Fair Event.run) {depth : Fid → Nat}
    (hwork : ∀ k f h g, .called f (.spawn h g) (some g) ∈ r.ob k → (∃ j, .returned g ∈ r.ob j) ∨ StuckInJoin r g)
    (hdepth : ∀ i f h g, .called f (.join h) (some g) ∈ r.ob i → f ≠ g → depth g < depth f) :
    (∀ k f h g, .called f (.spawn h g) (some g) ∈ r.ob k → ∃ j, .returned g ∈ r.ob j) ∧
      ∀ i f h x, .called f (.join h) x ∈ r.ob i → ∃ j res, i ≤ j ∧ .ret f (.join h) x res ∈ r.ob j := by
  have key : ∀ n g, depth g ≤ n → ∀ k f h, .called f (.spawn h g) (some g) ∈ r.ob k → ∃ j, .returned g ∈ r.ob j := by
    intro n
    induction n with
    | zero =>
      intro g hg k f h hs
      rcases hwork k f h g hs with h1 | ⟨i, h', x, h1, h2⟩
      · exact h1
      · rcases (called_join (reach_inv (r.reach i)).1 (r.next i) h1).2 with h3 | h3 | ⟨g', rfl, h3, _⟩
        · have := h2 i .invalid; rw [h3.2] at this; simp at this
        · have := h2 i .deadlock; rw [h3.2] at this; simp at this
        · have := hdepth _ _ _ _ h1 h3; omega
    | succ n ih =>
      intro g hg k f h hs
      rcases hwork k f h g hs with h1 | ⟨i, h', x, h1, h2⟩
      · exact h1
      · rcases (called_join (reach_inv (r.reach i)).1 (r.next i) h1).2 with h3 | h3 | ⟨g', rfl, h3, _⟩
        · have := h2 i .invalid; rw [h3.2] at this; simp at this
        · have := h2 i .deadlock; rw [h3.2] at this; simp at this
        · have := hdepth _ _ _ _ h1 h3
          obtain ⟨k', f', h'', h4⟩ := joined_was_spawned h1
          obtain ⟨m, hm⟩ := ih g' (by omega) _ _ _ h4
          obtain ⟨j, hj, h5⟩ := join_returns hf h1 h3 hm
          rcases h2 j .ok with h6 | h6
          · exact absurd h5 h6
          · omega
  refine ⟨fun k f h g hs => key _ g (Nat.le_refl _) k f h hs, fun i f h x hc => ?_⟩
  rcases (called_join (reach_inv (r.reach i)).1 (r.next i) hc).2 with h3 | h3 | ⟨g', rfl, h3, _⟩
  · exact ⟨i, .invalid, Nat.le_refl _, by rw [h3.2]; simp⟩
  · exact ⟨i, .deadlock, Nat.le_refl _, by rw [h3.2]; simp⟩
  · obtain ⟨k', f', h'', h4⟩ := joined_was_spawned hc
    obtain ⟨m, hm⟩ := key _ g' (Nat.le_refl _) _ _ _ h4
    obtain ⟨j, hj, h5⟩ := join_returns hf hc h3 hm
    exact ⟨j, .ok, by omega, h5⟩

/-! ## The hypotheses can be met -/

/-- A finite history after which nobody can go on is the beginning of a fair execution. -/
theorem extend {pre : List Event} {t : List Obs} (h : ∃ s, exec step init pre = some (s, t) ∧ s.aborted = false ∧ s.pc 0 = .idle ∧
      ∀ f, step s (.run f) = none ∧ step s (.reap f) = none) :
    ∃ r : Run step init, r.Fair Event.run ∧ r.Fair Event.reap ∧ (∀ i, pre.length ≤ i → r.tr i = t) ∧ (∀ i, ∀ o ∈ r.ob i, o ∈ t) ∧ ∀ o ∈ t, ∃ i, o ∈ r.ob i := by
  obtain ⟨s, h0, ha, hp, hq⟩ := h
  obtain ⟨r, h1, h2⟩ := Run.rests (e0 := .elsewhere 0 0) h0 (by
    have : upd s.c.epoch 0 (s.c.epoch 0 + 0) = s.c.epoch := by funext k; simp only [upd_apply]; grind
    cases s; simp only at ha hp this; subst ha; simp only [step, hp, this, Bool.false_eq_true, if_false, if_true])
  refine ⟨r, r.rests_fair h2 (fun f => (hq f).1), r.rests_fair h2 (fun f => (hq f).2), fun i hi => (h2 i hi).2.2, fun i o ho => ?_, fun o ho => ?_⟩
  · have := mem_tr_of (j := max (i + 1) pre.length) ho (by omega)
    rwa [(h2 _ (by omega)).2.2] at this
  · obtain ⟨j, _, hj⟩ := mem_tr (r := r) (i := pre.length) (by rw [(h2 _ (Nat.le_refl _)).2.2]; exact ho)
    exact ⟨j, hj⟩

/-- Nested joins: fiber 1 spawns and joins fiber 2, the main fiber joins fiber 1. -/
def nested : List Event :=
  [.thread 0, .call 0 (.spawn 0 1), .call 0 (.join 0), .call 1 (.spawn 1 2), .call 1 (.join 1), .finish 2, .run 2, .run 2, .run 1, .run 1, .reap 2,
   .finish 1, .run 1, .run 1, .run 0, .run 0, .reap 1]

example : ∃ r : Run step init, r.Fair Event.run ∧ r.Fair Event.reap ∧ (∃ i, .called 0 (.join 0) (some 1) ∈ r.ob i) ∧ (∃ m, .returned 1 ∈ r.ob m) ∧
    (∀ k f h g, .called f (.spawn h g) (some g) ∈ r.ob k → (∃ j, .returned g ∈ r.ob j) ∨ StuckInJoin r g) ∧
    (∀ i f h g, .called f (.join h) (some g) ∈ r.ob i → f ≠ g → 2 - g < 2 - f) ∧ ∀ h, handles (r.tr 17) h ≠ some (some 1) := by
  obtain ⟨r, h1, h2, h3, h4, h5⟩ := extend (pre := nested)
    (t := [.called 0 (.spawn 0 1) (some 1), .ret 0 (.spawn 0 1) (some 1) .ok, .called 0 (.join 0) (some 1), .called 1 (.spawn 1 2) (some 2),
      .ret 1 (.spawn 1 2) (some 2) .ok, .called 1 (.join 1) (some 2), .returned 2, .terminated 2 [1], .left 2, .ret 1 (.join 1) (some 2) .ok, .freed 2,
      .returned 1, .terminated 1 [0], .left 1, .ret 0 (.join 0) (some 1) .ok, .freed 1])
    ⟨_, rfl, rfl, rfl, fun f => by
      by_cases hf : f = 0
      · subst hf; exact ⟨rfl, rfl⟩
      by_cases hf1 : f = 1
      · subst hf1; exact ⟨rfl, rfl⟩
      by_cases hf2 : f = 2
      · subst hf2; exact ⟨rfl, rfl⟩
      constructor <;> simp [step, run, upd, hf, hf1, hf2, init, release, consumeReady]⟩
  refine ⟨r, h1, h2, h5 _ (by simp), h5 _ (by simp), fun k f h g hs => .inl ?_, fun i f h g hc _ => ?_, fun h => ?_⟩
  · have := h4 k _ hs
    simp at this
    rcases this with ⟨_, _, rfl⟩ | ⟨_, _, rfl⟩ <;> exact h5 _ (by simp)
  · have := h4 i _ hc
    simp at this
    rcases this with ⟨rfl, _, rfl⟩ | ⟨rfl, _, rfl⟩ <;> decide
  · rw [h3 17 (by decide)]
    simp [handles, replay, List.foldl, Spec.after, Spec.init, apply, upd_apply]
    (repeat' split) <;> simp

/-- Fibers 1 and 2 join each other. -/
def cyclic : List Event := [.thread 0, .call 0 (.spawn 0 1), .call 0 (.spawn 1 2), .call 1 (.join 1), .call 2 (.join 0)]

/-- Without the order: two fibers that join each other wait for ever, in a fair execution in which nobody is stuck elsewhere. -/
theorem mutual_joins_never_return : ∃ r : Run step init, r.Fair Event.run ∧ (∃ i, .called 1 (.join 1) (some 2) ∈ r.ob i) ∧
    (∃ i, .called 2 (.join 0) (some 1) ∈ r.ob i) ∧
    (∀ k f h g, .called f (.spawn h g) (some g) ∈ r.ob k → (∃ j, .returned g ∈ r.ob j) ∨ StuckInJoin r g) ∧
    ∀ j f h x res, .ret f (.join h) x res ∉ r.ob j := by
  obtain ⟨r, h1, h2, h3, h4, h5⟩ := extend (pre := cyclic)
    (t := [.called 0 (.spawn 0 1) (some 1), .ret 0 (.spawn 0 1) (some 1) .ok, .called 0 (.spawn 1 2) (some 2), .ret 0 (.spawn 1 2) (some 2) .ok,
      .called 1 (.join 1) (some 2), .called 2 (.join 0) (some 1)])
    ⟨_, rfl, rfl, rfl, fun f => by
      by_cases hf : f = 0
      · subst hf; exact ⟨rfl, rfl⟩
      by_cases hf1 : f = 1
      · subst hf1; exact ⟨rfl, rfl⟩
      by_cases hf2 : f = 2
      · subst hf2; exact ⟨rfl, rfl⟩
      constructor <;> simp [step, run, upd, hf, hf1, hf2, init]⟩
  have hno : ∀ j f h x res, Obs.ret f (.join h) x res ∉ r.ob j := fun j f h x res hm => by
    have := h4 j _ hm
    simp at this
  refine ⟨r, h1, h5 _ (by simp), h5 _ (by simp), fun k f h g hs => .inr ?_, hno⟩
  have := h4 k _ hs
  simp at this
  rcases this with ⟨_, _, rfl⟩ | ⟨_, _, rfl⟩
  · obtain ⟨i, hi⟩ := h5 (.called 1 (.join 1) (some 2)) (by simp)
    exact ⟨i, 1, some 2, hi, fun j res => .inl (hno j _ _ _ _)⟩
  · obtain ⟨i, hi⟩ := h5 (.called 2 (.join 0) (some 1)) (by simp)
    exact ⟨i, 0, some 1, hi, fun j res => .inl (hno j _ _ _ _)⟩

end Verif.Props.FibLive
