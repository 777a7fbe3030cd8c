import Verif.SkynetInv

/-!
# C125: a tree of fibers that return their results through channels computes the right sum and ends
-/

namespace Verif.Props.Skynet
open Verif Verif.Skynet

theorem sumTo_range (f : Nat → Nat) (n : Nat) : sumTo f n = ((List.range n).map f).sum := by
  induction n with
  | zero => rfl
  | succ n ih => simp [sumTo, List.range_succ, ih]

/-- Whatever the order in which fibers run: what `main` gets is the sum of the numbers `num, num + 1, …, num + size - 1`, and it gets it at most once,
if the size is a power of `div`. -/
theorem result_correct {P : Prog} {k : Nat} (hk : P.size = P.div ^ k) {s : State} {tr : List Obs} (h : Reach (step P) (init P) s tr) :
    (∀ v, .result v ∈ tr → v = ((List.range P.size).map (P.num + ·)).sum) ∧
    (tr.filter fun o => match o with | .result _ => true | _ => false).length ≤ 1 := by
  obtain ⟨ht, hc⟩ := reach_inv ⟨k, hk⟩ h
  have ho := obs_inv h
  have e : rangeSum (s.arg []) = ((List.range P.size).map (P.num + ·)).sum := by
    rw [ht.root.2]; exact sumTo_range _ _
  constructor
  · intro v hv
    have : v ∈ s.out := by rw [← ho]; exact List.mem_filterMap.2 ⟨_, hv, rfl⟩
    rw [hc.out, e] at this
    split at this <;> simp_all
  · have hl : ∀ tr : List Obs, (tr.filter fun o => match o with | .result _ => true | _ => false).length =
        (tr.filterMap resultOf).length := by
      intro tr
      induction tr with
      | nil => rfl
      | cons o tr ih => cases o <;> simp [List.filter_cons, List.filterMap_cons, resultOf, ih]
    rw [hl, ho, hc.out]; split <;> simp

/-- If fibers are detached, or there are fewer of them than slots in a channel: where no fiber can go on, `main` has its result and
every fiber that was started has returned. -/
theorem no_deadlock {P : Prog} {k : Nat} (hk : P.size = P.div ^ k) (h2 : 2 ≤ P.cap) (hj : P.joins = false ∨ P.div < P.cap)
    {s : State} {tr : List Obs} (h : Reach (step P) (init P) s tr) (hr : ∀ p, step P s p = none) :
    .result (((List.range P.size).map (P.num + ·)).sum) ∈ tr ∧ ∀ p, s.pc p = .new ∨ s.pc p = .done := by
  obtain ⟨ht, hc⟩ := reach_inv ⟨k, hk⟩ h
  have ho := obs_inv h
  have hroot : s.pc [] = .done := by
    rcases rest_call ht hc h2 hj hr k [] ht.root.1 (by rw [ht.root.2]; exact hk) with e | ⟨v, hv⟩
    · exact e
    · have := hr []
      have hout := hc.out
      rw [hv, if_neg (by simp)] at hout
      simp [step, hv, push, hout] at this
  constructor
  · have : rangeSum (s.arg []) ∈ s.out := by rw [hc.out, hroot]; simp
    rw [← ho] at this
    obtain ⟨o, ho1, ho2⟩ := List.mem_filterMap.1 this
    have e : rangeSum (s.arg []) = ((List.range P.size).map (P.num + ·)).sum := by rw [ht.root.2]; exact sumTo_range _ _
    cases o with
    | pushed p v => cases ho2
    | result v => simp only [resultOf, Option.some.injEq] at ho2; rw [← e, ← ho2]; exact ho1
  · intro p
    induction p with
    | nil => exact .inr hroot
    | cons i p ih =>
      by_cases hn : s.pc (i :: p) = .new
      · exact .inl hn
      · refine .inr ?_
        have hl := (ht.kids p i).1 hn
        have hle := ht.le p
        rcases ih with e | e
        · rw [e] at hl; simp [launched] at hl
        · refine (hc.closed p (by rw [e]; rfl)).2 ?_ i (by omega)
          intro e1; rw [e, e1] at hl; simp [launched] at hl

/-- The channel of a call is a local variable, which detached fibers refer to. A call that has its sum, and is about to destroy its channel, or has
returned, has no fiber that could still use the channel: those it has started have returned. -/
theorem channel_outlives {P : Prog} {k : Nat} (hk : P.size = P.div ^ k) {s : State} {tr : List Obs} (h : Reach (step P) (init P) s tr) {p : Path}
    (hp : s.pc p = .done ∨ ∃ v, s.pc p = .push v) (i : Nat) : s.pc (i :: p) = .new ∨ s.pc (i :: p) = .done := by
  obtain ⟨ht, hc⟩ := reach_inv ⟨k, hk⟩ h
  by_cases hn : s.pc (i :: p) = .new
  · exact .inl hn
  · refine .inr ?_
    have hl := (ht.kids p i).1 hn
    have hle := ht.le p
    refine (hc.closed p (by rcases hp with e | ⟨v, e⟩ <;> rw [e] <;> rfl)).2 ?_ i (by omega)
    intro e1; rw [e1] at hl
    rcases hp with e | ⟨v, e⟩ <;> rw [e] at hl <;> simp [launched] at hl

/-- Every execution is finite: there is a bound on its length. -/
theorem steps_bounded {P : Prog} {k : Nat} (hk : P.size = P.div ^ k) :
    ∃ B, ∀ es s tr, exec (step P) (init P) es = some (s, tr) → es.length ≤ B := by
  refine ⟨left P (init P).pc k [], ?_⟩
  have gen : ∀ es s0 t0, Reach (step P) (init P) s0 t0 → ∀ s tr, exec (step P) s0 es = some (s, tr) → es.length ≤ left P s0.pc k [] := by
    intro es
    induction es with
    | nil => intros; simp
    | cons e es ih =>
      intro s0 t0 h0 s tr he
      simp only [exec] at he
      split at he
      · cases he
      · rename_i s1 o1 h1
        split at he
        · cases he
        · rename_i s2 o2 h3
          have := ih s1 _ (.tail e h0 h1) _ _ h3
          have := left_step hk (reach_inv ⟨k, hk⟩ h0).1 h1
          simp only [List.length_cons]; omega
  intro es s tr he
  exact gen es _ _ .refl s tr he

/-- The channels of `skynet_join.cpp` have 16 slots (`:35`). -/
def joinProg (div size : Nat) : Prog := { div := div, cap := 16, num := 0, size := size, joins := true }

set_option synthInstance.maxSize 2000 in
set_option synthInstance.maxHeartbeats 200000 in
/-- The condition on the number of fibers is necessary: with 16 fibers and 16 slots `skynet_join` deadlocks. Fifteen results fill the channel,
the last fiber waits in `push` for a place, and the caller waits in `join` for this fiber before it takes any result. -/
theorem join_deadlocks : ∃ s tr, Reach (step (joinProg 16 16)) (init (joinProg 16 16)) s tr ∧ (∀ p, step (joinProg 16 16) s p = none) ∧
    ∀ v, .result v ∉ tr := by
  have h : ((exec (step (joinProg 16 16)) (init (joinProg 16 16))
      (List.replicate 18 [] ++ (List.range 15).flatMap (fun i => [[i], [i]]) ++ [[15]] ++ List.replicate 15 [])).map
      fun x => (x.1.pc [], (List.range 16).map (fun i => x.1.pc [i]), (x.1.rc []).length, x.1.out)) =
      some (.join 15, (List.range 16).map (fun i => if i < 15 then .done else .push 15), 15, []) := by decide +kernel
  simp only [Option.map_eq_some_iff, Prod.mk.injEq] at h
  obtain ⟨⟨s, tr⟩, h1, h2, h3, h4, h5⟩ := h
  have hr := reach_of_exec h1
  obtain ⟨ht, hc⟩ := reach_inv ⟨1, rfl⟩ hr
  simp only at h2 h3 h4 h5
  have kid : ∀ i, i < 16 → s.pc [i] = if i < 15 then .done else .push 15 := by
    intro i hi
    have := congrArg (fun l => l[i]?) h3
    simpa only [List.getElem?_map, List.getElem?_range hi, Option.map_some, Option.some.injEq] using this
  have deep : ∀ p : Path, 2 ≤ p.length → s.pc p = .new := by
    intro p hp
    by_cases hn : s.pc p = .new
    · exact hn
    · obtain ⟨_, k, _, hk⟩ := pow_depth ht (K := 1) rfl p hn; omega
  refine ⟨s, tr, hr, ?_, ?_⟩
  · intro p
    match p with
    | [] => simp [step, h2, joinProg, kid]
    | [i] =>
      by_cases hi : i < 16
      · have := kid i hi
        by_cases e : i < 15
        · rw [if_pos e] at this; simp [step, this]
        · rw [if_neg e] at this; simp [step, this, push, h4, joinProg]
      · have : s.pc [i] = .new := by
          have := ht.kids [] i; rw [h2] at this; simp only [launched, joinProg] at this
          by_cases hn : s.pc [i] = .new
          · exact hn
          · have := this.1 hn; omega
        simp [step, this]
    | i :: j :: p => simp [step, deep (i :: j :: p) (by simp)]
  · intro v hv
    have : v ∈ s.out := by rw [← obs_inv hr]; exact List.mem_filterMap.2 ⟨_, hv, rfl⟩
    rw [h5] at this; cases this

/-- The condition on the size is necessary: with size 3 and two fibers the result is 1, not `0 + 1 + 2`. -/
theorem other_size_wrong : ∃ s tr, Reach (step (joinProg 2 3)) (init (joinProg 2 3)) s tr ∧ .result 1 ∈ tr ∧
    1 ≠ ((List.range (joinProg 2 3).size).map ((joinProg 2 3).num + ·)).sum := by
  have h : ((exec (step (joinProg 2 3)) (init (joinProg 2 3))
      [[], [], [], [], [0], [0], [1], [1], [], [], [], [], [], [], []]).map fun x => x.2) =
      some [.pushed [0] 0, .pushed [1] 1, .result 1] := by decide +kernel
  simp only [Option.map_eq_some_iff] at h
  obtain ⟨⟨s, tr⟩, h1, h2⟩ := h
  simp only at h2; subst h2
  exact ⟨s, _, reach_of_exec h1, by simp, by decide⟩

theorem exec_append {P : Prog} {s s1 : State} {es fs : List Path} {t1 : List Obs} {r : State × List Obs}
    (h1 : exec (step P) s es = some (s1, t1)) (h2 : exec (step P) s1 fs = some r) : exec (step P) s (es ++ fs) = some (r.1, t1 ++ r.2) := by
  induction es generalizing s t1 with
  | nil => simp only [exec, Option.some.injEq, Prod.mk.injEq] at h1; obtain ⟨rfl, rfl⟩ := h1; simpa using h2
  | cons e es ih =>
    simp only [exec] at h1
    split at h1
    · cases h1
    · rename_i s2 o2 hs
      split at h1
      · cases h1
      · rename_i s3 o3 he
        simp only [Option.some.injEq, Prod.mk.injEq] at h1; obtain ⟨rfl, rfl⟩ := h1
        simp only [List.cons_append, exec, hs, ih he, List.append_assoc]

/-- A range that is smaller than the number of fibers, and not 1, has no end: parts of size 0 are divided for ever. There are executions of any
length (with `launch::dispatch` it is this one: every fiber runs at once the first fiber that it starts). -/
theorem small_size_endless {P : Prog} (hd : P.size < P.div) (h1 : P.size ≠ 1) (n : Nat) :
    ∃ es s tr, n ≤ es.length ∧ exec (step P) (init P) es = some (s, tr) := by
  suffices h : ∃ es s tr, n ≤ es.length ∧ exec (step P) (init P) es = some (s, tr) ∧
      s.pc (List.replicate n 0) = .start ∧ (s.arg (List.replicate n 0)).2 < P.div ∧ (s.arg (List.replicate n 0)).2 ≠ 1 by
    obtain ⟨es, s, tr, a, b, _⟩ := h; exact ⟨es, s, tr, a, b⟩
  induction n with
  | zero => exact ⟨[], _, [], by simp, rfl, by simp [init, set_apply], by simpa [init, set_apply] using hd, by simpa [init, set_apply] using h1⟩
  | succ n ih =>
    obtain ⟨es, s, tr, hl, he, hp, ha, hn⟩ := ih
    generalize hq : List.replicate n 0 = p at *
    have hne := ne_cons 0 p
    have e2 : exec (step P) s [p, p] = some ({ s with
        pc := set (set (set s.pc p (.loop 0)) (0 :: p) .start) p (.loop (0 + 1)),
        arg := set s.arg (0 :: p) ((s.arg p).1 + 0 * (s.arg p).2 / P.div, (s.arg p).2 / P.div) }, []) := by
      have a : step P s p = some ({ s with pc := set s.pc p (.loop 0) }, []) := by simp only [step, hp, if_neg hn]
      simp only [exec, a]
      have b : set s.pc p (.loop 0) p = .loop 0 := by simp [set_apply]
      simp only [step, b, if_pos (show 0 < P.div by omega), List.append_nil]
    refine ⟨es ++ [p, p], _, _, by simp; omega, exec_append he e2, ?_, ?_, ?_⟩
    · rw [List.replicate_succ, hq]; simp [set_apply, hne]
    · rw [List.replicate_succ, hq]; simp [set_apply, Nat.div_eq_of_lt ha]; omega
    · rw [List.replicate_succ, hq]; simp [set_apply, Nat.div_eq_of_lt ha]

/-! ## Examples -/

-- `small_size_endless`: five numbers for ten fibers
example : (joinProg 10 5).size < (joinProg 10 5).div ∧ (joinProg 10 5).size ≠ 1 := by decide

-- `result_correct`, `no_deadlock`, `steps_bounded`: a run with four leaves, the results of which arrive in another order than the fibers were started
def detachProg : Prog := { div := 2, cap := 2, num := 5, size := 4, joins := false }

example : ∃ s tr, Reach (step detachProg) (init detachProg) s tr ∧ .result 26 ∈ tr ∧ detachProg.size = detachProg.div ^ 2 ∧ 2 ≤ detachProg.cap ∧
    ∀ p, step detachProg s p = none := by
  have h : ((exec (step detachProg) (init detachProg)
      ([[], [], [], [], [1], [1], [1], [1], [1, 1], [1, 1], [1], [0, 1], [0, 1], [1], [1], [1], [], [0], [0], [0], [0], [0, 0], [0, 0], [0], [1, 0], [1, 0],
        [0], [0], [0], [], [], []])).map fun x => (x.2, x.1.pc [])) =
      some ([.pushed [1, 1] 8, .pushed [0, 1] 7, .pushed [1] 15, .pushed [0, 0] 5, .pushed [1, 0] 6, .pushed [0] 11, .result 26], .done) := by
    decide +kernel
  simp only [Option.map_eq_some_iff, Prod.mk.injEq] at h
  obtain ⟨⟨s, tr⟩, h1, h2, h3⟩ := h
  simp only at h2 h3; subst h2
  have hr := reach_of_exec h1
  obtain ⟨ht, hc⟩ := reach_inv ⟨2, rfl⟩ hr
  refine ⟨s, _, hr, by simp, rfl, by decide, ?_⟩
  have all : ∀ p, s.pc p = .new ∨ s.pc p = .done := by
    intro p
    induction p with
    | nil => exact .inr h3
    | cons i p ih =>
      by_cases hn : s.pc (i :: p) = .new
      · exact .inl hn
      · have hl := (ht.kids p i).1 hn
        have hle := ht.le p
        rcases ih with e | e
        · rw [e] at hl; simp [launched] at hl
        · refine .inr ((hc.closed p (by rw [e]; rfl)).2 ?_ i (by omega))
          intro e1; rw [e, e1] at hl; simp [launched] at hl
  intro p
  rcases all p with e | e <;> simp [step, e]

-- the constants of the programs (`skynet_join.cpp:35`, `:57-58`) meet the hypotheses
example : (joinProg 10 1000000).size = (joinProg 10 1000000).div ^ 6 ∧ 2 ≤ (joinProg 10 1000000).cap ∧
    (joinProg 10 1000000).div < (joinProg 10 1000000).cap := by decide

end Verif.Props.Skynet
