import Verif.AsyncTreeInv

/-!
# C126: a tree of `async` calls has the outcome of the sequential program, on every schedule
-/

namespace Verif.Props.AsyncTree
open Verif Verif.AsyncTree

/-- The specification: the leaves are called one after the other, for `num`, `num + 1`, …; the outcome is the first exception or the sum. -/
def sequential (leaf : Nat → Res) (num : Nat) : Nat → Res
  | 0 => .ok 0
  | n + 1 =>
    match sequential leaf num n with
    | .error e => .error e
    | .ok v =>
      match leaf (num + n) with
      | .error e => .error e
      | .ok w => .ok (v + w)

theorem val_sequential (P : Prog) (n m : Nat) : val P (n, m) = sequential P.leaf n m := by
  induction m with
  | zero => rfl
  | succ m ih =>
    have h := sumRes_succ (fun j => P.leaf (n + j)) m
    simp only [val] at ih ⊢
    rw [h, ih]
    simp only [sequential]
    cases sequential P.leaf n m with
    | error e => rfl
    | ok v => cases P.leaf (n + m) <;> rfl

/-- On every schedule the outcome is the one of the sequential program: the sum, or the exception of the first leaf that throws, even if another one
throws earlier. There is at most one outcome, and no undefined behaviour. -/
theorem outcome {P : Prog} {k : Nat} (hk : P.size = P.div ^ k) (hd : 0 < P.div) {s : State} {tr : List Obs} (h : Reach (step P) (init P) s tr) :
    (∀ r, .result r ∈ tr → r = sequential P.leaf P.num P.size) ∧ (∀ r, tr.count (.result r) ≤ 1) ∧ .ub ∉ tr := by
  obtain ⟨ht, hv, ho, hu⟩ := reach_inv hk h
  have only : ∀ r, .result r ∈ tr → s.pc [] = .done r := by
    intro r hr
    have : r ∈ outOf (s.pc []) := by rw [← ho]; exact List.mem_filterMap.2 ⟨_, hr, rfl⟩
    cases hc : s.pc [] <;> rw [hc] at this <;> simp [outOf] at this
    rw [this]
  refine ⟨fun r hr => ?_, fun r => ?_, hu hd⟩
  · rw [hv.done _ _ (only r hr), ht.root.2, val_sequential]
  · have hle : tr.count (.result r) ≤ (tr.filterMap resultOf).length := by
      clear h ho hu only
      induction tr with
      | nil => simp
      | cons o tr ih =>
        cases o with
        | ub => simpa [List.count_cons, List.filterMap_cons, resultOf] using ih
        | result r' => simp only [List.count_cons, List.filterMap_cons, resultOf, List.length_cons]; split <;> omega
    rw [ho] at hle
    cases hc : s.pc [] <;> rw [hc] at hle <;> simp [outOf] at hle <;> omega

/-- Where no call can go on, the outcome has been delivered and every call that was started has ended, those too whose futures were destroyed by an
exception. There is no condition on the number of calls. -/
theorem no_deadlock {P : Prog} {k : Nat} (hk : P.size = P.div ^ k) (hd : 0 < P.div) {s : State} {tr : List Obs} (h : Reach (step P) (init P) s tr)
    (hr : ∀ p, step P s p = none) : .result (sequential P.leaf P.num P.size) ∈ tr ∧ ∀ p, s.pc p = .new ∨ ∃ r, s.pc p = .done r := by
  obtain ⟨ht, hv, ho, hu⟩ := reach_inv hk h
  have all : ∀ p, s.pc p ≠ .new → ∃ r, s.pc p = .done r := by
    intro p hn
    obtain ⟨_, k', hk', _⟩ := pow_depth ht hk p hn
    exact rest_call ht hd hr k' p hn hk'
  constructor
  · obtain ⟨r, hr'⟩ := all [] ht.root.1
    have e := hv.done _ _ hr'
    rw [ht.root.2, val_sequential] at e
    rw [← e]
    have : r ∈ tr.filterMap resultOf := by rw [ho, hr']; simp [outOf]
    obtain ⟨o, ho1, ho2⟩ := List.mem_filterMap.1 this
    cases o with
    | ub => cases ho2
    | result r' => simp only [resultOf, Option.some.injEq] at ho2; rw [← ho2]; exact ho1
  · intro p
    by_cases hn : s.pc p = .new
    · exact .inl hn
    · exact .inr (all p hn)

/-- Every execution is finite: there is a bound on its length. -/
theorem steps_bounded {P : Prog} {k : Nat} (hk : P.size = P.div ^ k) :
    ∃ B, ∀ es s tr, exec (step P) (init P) es = some (s, tr) → es.length ≤ B := by
  refine ⟨left P (init P).pc k [], ?_⟩
  have gen : ∀ es s0 t0, Reach (step P) (init P) s0 t0 → ∀ s tr, exec (step P) s0 es = some (s, tr) → es.length ≤ left P s0.pc k [] := by
    intro es
    induction es with
    | nil => intros; simp
    | cons e es ih =>
      intro s0 t0 h0 s tr he
      simp only [exec] at he
      split at he
      · cases he
      · rename_i s1 o1 h1
        split at he
        · cases he
        · rename_i s2 o2 h3
          have := ih s1 _ (.tail e h0 h1) _ _ h3
          have := left_step hk (reach_inv hk h0).1 h1
          simp only [List.length_cons]; omega
  intro es s tr he
  exact gen es _ _ .refl s tr he

/-- The leaf of the program (`skynet_stealing_async.cpp:66`): the outcome is the sum of the numbers of the range. -/
theorem skynet_sum (num n : Nat) : sequential .ok num n = .ok (((List.range n).map (num + ·)).sum) := by
  induction n with
  | zero => rfl
  | succ n ih => simp [sequential, ih, List.range_succ]

/-- `div` must not be 0: the division by it is undefined (`skynet_stealing_async.cpp:45`). -/
theorem div_zero_ub : ∃ s, Reach (step { div := 0, num := 0, size := 4, leaf := .ok }) (init { div := 0, num := 0, size := 4, leaf := .ok }) s [.ub] :=
  ⟨_, reach_of_exec (es := [[]]) rfl⟩

/-! ## Examples -/

/-- The leaves of 6 and 8 throw. -/
def prog : Prog := { div := 2, num := 5, size := 4, leaf := fun n => if n % 2 = 0 then .error n else .ok n }

set_option synthInstance.maxSize 2000 in
set_option synthInstance.maxHeartbeats 200000 in
-- `outcome`, `no_deadlock`, `steps_bounded`: the leaf of 8 throws first, and the call above it; the outcome is the exception of the leaf of 6
example : ∃ s tr, Reach (step prog) (init prog) s tr ∧ .result (.error 6) ∈ tr ∧ prog.size = prog.div ^ 2 ∧ 0 < prog.div ∧
    ∀ p, step prog s p = none := by
  have h : ((exec (step prog) (init prog) [[], [], [], [], [1], [1], [1], [1, 1], [0, 1], [1], [1], [1], [0], [0], [0], [0], [1, 0], [0, 0], [0], [0], []]).map
      fun x => (x.2, x.1.pc [], x.1.pc [0], x.1.pc [1], (x.1.pc [0, 0], x.1.pc [1, 0], x.1.pc [0, 1], x.1.pc [1, 1]))) =
      some ([.result (.error 6)], .done (.error 6), .done (.error 6), .done (.error 8),
        (.done (.ok 5), .done (.error 6), .done (.ok 7), .done (.error 8))) := by decide +kernel
  simp only [Option.map_eq_some_iff, Prod.mk.injEq] at h
  obtain ⟨⟨s, tr⟩, h1, h2, r, a0, a1, b00, b10, b01, b11⟩ := h
  simp only at h2 r a0 a1 b00 b10 b01 b11; subst h2
  have hr := reach_of_exec h1
  have ht := (reach_inv (K := 2) rfl hr).1
  refine ⟨s, _, hr, by simp, rfl, by decide, fun p => ?_⟩
  by_cases hn : s.pc p = .new
  · simp [step, hn]
  · obtain ⟨hi, k, _, hk⟩ := pow_depth ht (K := 2) rfl p hn
    have hi' : ∀ i, i ∈ p → i = 0 ∨ i = 1 := by intro i h; have := hi i h; simp only [prog] at this; omega
    match p, hi', hk with
    | [], _, _ => simp [step, r]
    | [i], hi', _ => rcases hi' i (by simp) with rfl | rfl <;> simp [step, a0, a1]
    | [i, j], hi', _ =>
      rcases hi' i (by simp) with rfl | rfl <;> rcases hi' j (by simp) with rfl | rfl <;> simp [step, b00, b10, b01, b11]
    | i :: j :: l :: p, _, hk => simp at hk; omega

end Verif.Props.AsyncTree
