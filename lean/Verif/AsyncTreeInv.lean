import Verif.AsyncTree

/-!
# Invariants of the tree of `async` calls
-/

namespace Verif.AsyncTree

/-- One outcome after the other, as the loop over the futures combines them: the first exception, or the sum. -/
def comb : Res → Res → Res
  | .error e, _ => .error e
  | .ok _, .error e => .error e
  | .ok v, .ok w => .ok (v + w)

/-- The outcome of calls made one after the other: the first exception, or the sum. -/
def sumRes : List Res → Res
  | [] => .ok 0
  | r :: rs => comb r (sumRes rs)

theorem comb_zero (r : Res) : comb (.ok 0) r = r := by cases r <;> simp [comb]

theorem comb_zero' (r : Res) : comb r (.ok 0) = r := by cases r <;> simp [comb]

theorem comb_assoc (a b c : Res) : comb (comb a b) c = comb a (comb b c) := by
  cases a <;> cases b <;> cases c <;> simp [comb, Nat.add_assoc]

theorem sumRes_append (a b : List Res) : sumRes (a ++ b) = comb (sumRes a) (sumRes b) := by
  induction a with
  | nil => simp [sumRes, comb_zero]
  | cons r a ih => simp [sumRes, ih, comb_assoc]

/-- The outcome for a range, computed in order. -/
def val (P : Prog) (a : Nat × Nat) : Res := sumRes ((List.range a.2).map fun j => P.leaf (a.1 + j))

/-- A range in `d` parts of size `m`. -/
theorem val_parts (P : Prog) (n d m : Nat) : val P (n, d * m) = sumRes ((List.range d).map fun i => val P (n + i * m, m)) := by
  induction d with
  | zero => simp [val]
  | succ d ih =>
    rw [List.range_succ, List.map_append, sumRes_append, ← ih]
    simp only [val]
    rw [Nat.succ_mul, List.range_add, List.map_append, sumRes_append]
    simp [sumRes, comb_zero', Function.comp_def, Nat.add_assoc]

/-- The arguments of a call made by a call. -/
def kidArg (P : Prog) (a : Nat × Nat) (i : Nat) : Nat × Nat := (a.1 + i * (a.2 / P.div), a.2 / P.div)

/-- The calls made by a call. -/
def launched (P : Prog) (size : Nat) : Pc → Nat
  | .new => 0
  | .start => 0
  | .loop i => i
  | .get _ _ => P.div
  | .done _ => if size = 1 then 0 else P.div
  | .ub => 0

theorem set_apply {α : Type} (f : Path → α) (p q : Path) (v : α) : set f p v q = if q = p then v else f q := rfl

theorem ne_cons (i : Nat) (p : Path) : i :: p ≠ p := by
  intro h; have := congrArg List.length h; simp at this

/-- Which calls exist, with which arguments. -/
structure Tree (P : Prog) (s : State) : Prop where
  root : s.pc [] ≠ .new ∧ s.arg [] = (P.num, P.size)
  kids : ∀ p i, s.pc (i :: p) ≠ .new ↔ i < launched P (s.arg p).2 (s.pc p)
  le : ∀ p, launched P (s.arg p).2 (s.pc p) ≤ P.div
  args : ∀ p i, s.pc (i :: p) ≠ .new → s.arg (i :: p) = kidArg P (s.arg p) i
  inner : ∀ p, (∀ i, s.pc p = .loop i → (s.arg p).2 ≠ 1) ∧ (∀ i n, s.pc p = .get i n → (s.arg p).2 ≠ 1 ∧ i ≤ P.div)
  noub : 0 < P.div → ∀ p, s.pc p ≠ .ub

theorem tree_init (P : Prog) : Tree P (init P) := by
  constructor <;> simp [init, set_apply]
  all_goals grind [launched]

theorem tree_step {P : Prog} {s s' : State} {p : Path} {o : List Obs} (h : Tree P s) (hs : step P s p = some (s', o)) : Tree P s' := by
  obtain ⟨h1, h2, h3, h4, h5, h6⟩ := h
  simp only [step] at hs
  split at hs
  · simp at hs
  · split at hs
    · simp only [finish, Option.some.injEq, Prod.mk.injEq] at hs; obtain ⟨rfl, rfl⟩ := hs; constructor <;> grind [set_apply, launched, ne_cons]
    · split at hs <;> simp only [Option.some.injEq, Prod.mk.injEq] at hs <;> obtain ⟨rfl, rfl⟩ := hs <;> constructor <;>
        grind [set_apply, launched, ne_cons]
  · split at hs
    · rename_i i hp hi
      simp only [Option.some.injEq, Prod.mk.injEq] at hs; obtain ⟨rfl, rfl⟩ := hs
      have hn : s.pc (i :: p) = .new := by
        have := h2 p i; rw [hp] at this; simp only [launched] at this; grind
      have hk : ∀ j, s.pc (j :: i :: p) = .new := by
        intro j; have := h2 (i :: p) j; rw [hn] at this; simp only [launched] at this; grind
      constructor
      · grind [set_apply]
      · intro q j; have := h2 q j; have := ne_cons i p; have := ne_cons j p; have := ne_cons j q; have := ne_cons j (i :: p)
        grind [set_apply, launched]
      · intro q; have := h3 q; have := ne_cons i p; grind [set_apply, launched]
      · intro q j; have := h4 q j; have := ne_cons i p; have := ne_cons j p; have := ne_cons j (i :: p); have := h2 q j
        grind [set_apply, launched, kidArg]
      · intro q; have := h5 q; have := ne_cons i p; grind [set_apply, launched]
      · intro hd q; have := h6 hd q; grind [set_apply]
    · simp only [Option.some.injEq, Prod.mk.injEq] at hs; obtain ⟨rfl, rfl⟩ := hs
      rename_i i hp hi
      have e : i = P.div := by have := h3 p; rw [hp] at this; simp only [launched] at this; omega
      constructor <;> grind [set_apply, launched, ne_cons]
  · split at hs
    · split at hs
      · simp only [Option.some.injEq, Prod.mk.injEq] at hs; obtain ⟨rfl, rfl⟩ := hs
        constructor <;> grind [set_apply, launched, ne_cons]
      · simp only [finish, Option.some.injEq, Prod.mk.injEq] at hs; obtain ⟨rfl, rfl⟩ := hs
        constructor <;> grind [set_apply, launched, ne_cons]
      · simp at hs
    · simp only [finish, Option.some.injEq, Prod.mk.injEq] at hs; obtain ⟨rfl, rfl⟩ := hs
      constructor <;> grind [set_apply, launched, ne_cons]
  · simp at hs
  · simp at hs

/-- The size of a call and how deep it is in the tree. -/
theorem pow_depth {P : Prog} {s : State} (h : Tree P s) {K : Nat} (hp : P.size = P.div ^ K) :
    ∀ p, s.pc p ≠ .new → (∀ i, i ∈ p → i < P.div) ∧ ∃ k, (s.arg p).2 = P.div ^ k ∧ k + p.length = K := by
  intro p
  induction p with
  | nil => intro _; rw [h.root.2]; exact ⟨by simp, K, hp, rfl⟩
  | cons i p ih =>
    intro hn
    have hl := (h.kids p i).1 hn
    have hle := h.le p
    have hpn : s.pc p ≠ .new := by intro e; rw [e] at hl; simp [launched] at hl
    obtain ⟨hi, k, hk, hK⟩ := ih hpn
    have h1 : (s.arg p).2 ≠ 1 := by
      intro e
      have h5 := h.inner p
      rw [e] at hl
      cases hc : s.pc p <;> rw [hc] at hl <;> simp [launched] at hl <;> grind
    refine ⟨by intro j hj; rcases List.mem_cons.1 hj with rfl | hj; omega; exact hi j hj, ?_⟩
    rw [h.args p i hn]
    cases k with
    | zero => simp at hk; exact absurd hk h1
    | succ k => exact ⟨k, by simp only [kidArg, hk]; rw [Nat.pow_succ]; exact Nat.mul_div_cancel _ (by omega), by simp; omega⟩

/-- What the calls have computed. -/
structure Vals (P : Prog) (s : State) : Prop where
  get : ∀ p i n, s.pc p = .get i n → .ok n = sumRes ((List.range i).map fun j => val P (kidArg P (s.arg p) j))
  done : ∀ p r, s.pc p = .done r → r = val P (s.arg p)

theorem vals_init (P : Prog) : Vals P (init P) := by
  constructor
  · intro p i n; simp only [init, set_apply]; split <;> simp
  · intro p r; simp only [init, set_apply]; split <;> simp

/-- The range of a call is made of the ranges of the calls it makes. -/
theorem val_kids {P : Prog} {a : Nat × Nat} {k : Nat} (hk : a.2 = P.div ^ (k + 1)) :
    val P a = sumRes ((List.range P.div).map fun j => val P (kidArg P a j)) := by
  by_cases hd : P.div = 0
  · obtain ⟨n, m⟩ := a
    simp only [hd, Nat.pow_succ, Nat.mul_zero] at hk
    subst hk; simp [val, hd]
  · have e : a = (a.1, P.div * P.div ^ k) := by rw [Nat.mul_comm, ← Nat.pow_succ, ← hk]
    have e2 : a.2 / P.div = P.div ^ k := by rw [hk, Nat.pow_succ]; exact Nat.mul_div_cancel _ (by omega)
    rw [e, val_parts]
    simp only [kidArg]
    rw [Nat.mul_div_cancel_left _ (by omega)]

/-- An exception in one of the first outcomes is the outcome of all. -/
theorem sumRes_prefix {f : Nat → Res} {i n e : Nat} (hi : i ≤ n) (h : sumRes ((List.range i).map f) = .error e) :
    sumRes ((List.range n).map f) = .error e := by
  obtain ⟨m, rfl⟩ : ∃ m, n = i + m := ⟨n - i, by omega⟩
  rw [List.range_add, List.map_append, sumRes_append, h]; rfl

theorem sumRes_succ (f : Nat → Res) (i : Nat) : sumRes ((List.range (i + 1)).map f) = comb (sumRes ((List.range i).map f)) (f i) := by
  rw [List.range_succ, List.map_append, sumRes_append]; simp [sumRes, comb_zero']

theorem vals_finish {P : Prog} {s : State} {p : Path} {r : Res} (h : Vals P s) (hr : r = val P (s.arg p)) :
    Vals P { s with pc := set s.pc p (.done r) } := by
  constructor
  · intro q i n; simp only [set_apply]; split
    · simp
    · exact h.get q i n
  · intro q r'; simp only [set_apply]; split
    · rename_i e; subst e; intro e; cases e; exact hr
    · exact h.done q r'

theorem vals_step {P : Prog} {s s' : State} {p : Path} {o : List Obs} {K : Nat} (hK : P.size = P.div ^ K) (ht : Tree P s) (h : Vals P s)
    (hs : step P s p = some (s', o)) : Vals P s' := by
  have mv : ∀ c, (∀ r, c ≠ .done r) → (∀ i n, c = .get i n → .ok n = sumRes ((List.range i).map fun j => val P (kidArg P (s.arg p) j))) →
      Vals P { s with pc := set s.pc p c } := by
    intro c hc hg
    constructor
    · intro q i n; simp only [set_apply]; split
      · rename_i e; subst e; exact hg i n
      · exact h.get q i n
    · intro q r'; simp only [set_apply]; split
      · intro e; exact absurd e (hc r')
      · exact h.done q r'
  simp only [step] at hs
  split at hs
  · simp at hs
  · split at hs
    · rename_i h1
      simp only [finish, Option.some.injEq, Prod.mk.injEq] at hs; obtain ⟨rfl, rfl⟩ := hs
      exact vals_finish h (by simp [val, h1, sumRes, comb_zero'])
    · split at hs <;> simp only [Option.some.injEq, Prod.mk.injEq] at hs <;> obtain ⟨rfl, rfl⟩ := hs <;> exact mv _ (by simp) (by simp)
  · split at hs
    · rename_i i hp hi
      simp only [Option.some.injEq, Prod.mk.injEq] at hs; obtain ⟨rfl, rfl⟩ := hs
      have hv := mv (.loop (i + 1)) (by simp) (by simp)
      have hn : s.pc (i :: p) = .new := by
        have := ht.kids p i; rw [hp] at this; simp only [launched] at this; grind
      have key : ∀ q c, c ≠ .start → (∀ j, c ≠ .loop j) → set (set s.pc (i :: p) .start) p (.loop (i + 1)) q = c → q ≠ i :: p ∧ s.pc q = c := by
        intro q c c1 c2; simp only [set_apply]; split
        · intro e; exact absurd e.symm (c2 _)
        · split
          · intro e; exact absurd e.symm c1
          · intro e; exact ⟨by assumption, e⟩
      constructor
      · intro q j n hq
        obtain ⟨e, hq⟩ := key q _ (by simp) (by simp) hq
        simp only [set_apply, if_neg e]; exact h.get q j n hq
      · intro q r hq
        obtain ⟨e, hq⟩ := key q _ (by simp) (by simp) hq
        simp only [set_apply, if_neg e]; exact h.done q r hq
    · simp only [Option.some.injEq, Prod.mk.injEq] at hs; obtain ⟨rfl, rfl⟩ := hs
      exact mv _ (by simp) (by intro i n e; cases e; simp [sumRes])
  · rename_i i n hp
    have hg := h.get p i n hp
    have hin := (ht.inner p).2 i n hp
    obtain ⟨_, k, hk, _⟩ := pow_depth ht hK p (by rw [hp]; simp)
    have hvk : val P (s.arg p) = sumRes ((List.range P.div).map fun j => val P (kidArg P (s.arg p) j)) := by
      cases k with
      | zero => simp at hk; exact absurd hk hin.1
      | succ k => exact val_kids hk
    split at hs
    · rename_i hi
      split at hs
      · rename_i v hd
        simp only [Option.some.injEq, Prod.mk.injEq] at hs; obtain ⟨rfl, rfl⟩ := hs
        refine mv _ (by simp) ?_
        intro i' n' e; cases e
        have := h.done _ _ hd
        rw [ht.args p i (by rw [hd]; simp)] at this
        rw [sumRes_succ, ← hg, ← this]; rfl
      · rename_i e hd
        simp only [finish, Option.some.injEq, Prod.mk.injEq] at hs; obtain ⟨rfl, rfl⟩ := hs
        refine vals_finish h ?_
        have := h.done _ _ hd
        rw [ht.args p i (by rw [hd]; simp)] at this
        rw [hvk]
        exact (sumRes_prefix (i := i + 1) (by omega) (by rw [sumRes_succ, ← hg, ← this]; rfl)).symm
      · simp at hs
    · simp only [finish, Option.some.injEq, Prod.mk.injEq] at hs; obtain ⟨rfl, rfl⟩ := hs
      refine vals_finish h ?_
      rw [hvk, hg, show i = P.div by omega]
  · simp at hs
  · simp at hs

/-- The result in an observation. -/
def resultOf : Obs → Option Res
  | .result r => some r
  | .ub => none

/-- What has been observed: the outcome of the first call. -/
def outOf : Pc → List Res
  | .done r => [r]
  | _ => []

theorem obs_step {P : Prog} {s s' : State} {p : Path} {o : List Obs} (hs : step P s p = some (s', o)) :
    outOf (s'.pc []) = outOf (s.pc []) ++ o.filterMap resultOf ∧ (.ub ∈ o → s'.pc p = .ub) := by
  have fn : ∀ r, (∀ r', s.pc p ≠ .done r') → finish s p r = some (s', o) →
      outOf (s'.pc []) = outOf (s.pc []) ++ o.filterMap resultOf ∧ (.ub ∈ o → s'.pc p = .ub) := by
    intro r hn hf
    simp only [finish, Option.some.injEq, Prod.mk.injEq] at hf; obtain ⟨rfl, rfl⟩ := hf
    by_cases e : p = []
    · subst e
      have : outOf (s.pc []) = [] := by cases hc : s.pc [] <;> simp [outOf]; exact absurd hc (hn _)
      simp [set_apply, this, resultOf, outOf]
    · simp [set_apply, e, Ne.symm e]
  have mv : ∀ c, (∀ r', s.pc p ≠ .done r') → (∀ r, c ≠ .done r) → outOf (set s.pc p c []) = outOf (s.pc []) := by
    intro c hn hc
    simp only [set_apply]; split
    · rename_i e; subst e
      have e1 : outOf (s.pc []) = [] := by cases hc : s.pc [] <;> simp [outOf]; exact absurd hc (hn _)
      have e2 : outOf c = [] := by cases hc' : c <;> simp [outOf]; exact absurd hc' (hc _)
      rw [e1, e2]
    · rfl
  simp only [step] at hs
  split at hs
  · simp at hs
  · rename_i hp
    split at hs
    · exact fn _ (by rw [hp]; simp) hs
    · split at hs <;> simp only [Option.some.injEq, Prod.mk.injEq] at hs <;> obtain ⟨rfl, rfl⟩ := hs
      · exact ⟨by rw [mv _ (by rw [hp]; simp) (by simp)]; simp [resultOf], by simp [set_apply]⟩
      · exact ⟨by rw [mv _ (by rw [hp]; simp) (by simp)]; simp, by simp⟩
  · rename_i i hp
    split at hs <;> simp only [Option.some.injEq, Prod.mk.injEq] at hs <;> obtain ⟨rfl, rfl⟩ := hs
    · refine ⟨?_, by simp⟩
      simp only [set_apply]; split
      · rename_i e; rw [e, hp]; simp [outOf]
      · simp
    · exact ⟨by rw [mv _ (by rw [hp]; simp) (by simp)]; simp, by simp⟩
  · rename_i i n hp
    split at hs
    · split at hs
      · simp only [Option.some.injEq, Prod.mk.injEq] at hs; obtain ⟨rfl, rfl⟩ := hs
        exact ⟨by rw [mv _ (by rw [hp]; simp) (by simp)]; simp, by simp⟩
      · exact fn _ (by rw [hp]; simp) hs
      · simp at hs
    · exact fn _ (by rw [hp]; simp) hs
  · simp at hs
  · simp at hs

theorem reach_inv {P : Prog} {K : Nat} (hK : P.size = P.div ^ K) {s : State} {tr : List Obs} (h : Reach (step P) (init P) s tr) :
    Tree P s ∧ Vals P s ∧ tr.filterMap resultOf = outOf (s.pc []) ∧ (0 < P.div → .ub ∉ tr) := by
  induction h with
  | refl => exact ⟨tree_init P, vals_init P, rfl, by simp⟩
  | tail e _ he ih =>
    have ht := tree_step ih.1 he
    have ho := obs_step he
    refine ⟨ht, vals_step hK ih.1 ih.2.1 he, by rw [List.filterMap_append, ih.2.2.1, ho.1], fun hd hu => ?_⟩
    rcases List.mem_append.1 hu with hu | hu
    · exact ih.2.2.2 hd hu
    · exact ht.noub hd _ (ho.2 hu)

/-- A call that cannot go on has ended. -/
theorem rest_call {P : Prog} {s : State} (ht : Tree P s) (hd : 0 < P.div) (hr : ∀ p, step P s p = none) :
    ∀ k p, s.pc p ≠ .new → (s.arg p).2 = P.div ^ k → ∃ r, s.pc p = .done r := by
  intro k
  induction k with
  | zero =>
    intro p hn hk
    have := hr p
    have h5 := ht.inner p
    simp only [Nat.pow_zero] at hk
    cases hp : s.pc p with
    | new => exact absurd hp hn
    | start => simp [step, hp, hk, finish] at this
    | loop i => exact absurd hk (h5.1 i hp)
    | get i n => exact absurd hk (h5.2 i n hp).1
    | done r => exact ⟨r, rfl⟩
    | ub => exact absurd hp (ht.noub hd p)
  | succ k ih =>
    intro p hn hk
    have hs := hr p
    cases hp : s.pc p with
    | new => exact absurd hp hn
    | start =>
      simp only [step, hp] at hs; split at hs
      · simp [finish] at hs
      · split at hs <;> simp at hs
    | loop i => simp only [step, hp] at hs; split at hs <;> simp at hs
    | get i n =>
      simp only [step, hp] at hs
      split at hs
      · rename_i hi
        have hin := (ht.kids p i).2 (by rw [hp]; exact hi)
        obtain ⟨r, hr'⟩ := ih (i :: p) hin (by
          rw [ht.args p i hin]; simp only [kidArg, hk, Nat.pow_succ]; exact Nat.mul_div_cancel _ hd)
        rw [hr'] at hs
        cases r <;> simp [finish] at hs
      · simp [finish] at hs
    | done r => exact ⟨r, rfl⟩
    | ub => exact absurd hp (ht.noub hd p)

/-- `f 0 + … + f (n - 1)`. -/
def total (f : Nat → Nat) : Nat → Nat
  | 0 => 0
  | n + 1 => total f n + f n

theorem total_mono {f g : Nat → Nat} {n : Nat} (h : ∀ i, f i ≤ g i) : total f n ≤ total g n := by
  induction n with
  | zero => simp [total]
  | succ n ih => simp only [total]; have := h n; omega

theorem total_strict {f g : Nat → Nat} {n k : Nat} (h : ∀ i, f i ≤ g i) (hk : k < n) (hlt : f k < g k) : total f n < total g n := by
  induction n with
  | zero => omega
  | succ n ih =>
    simp only [total]
    by_cases e : k = n
    · subst e; have := total_mono (n := k) h; omega
    · have := ih (by omega); have := h n; omega

/-- The steps that a call can still take. -/
def own (P : Prog) : Pc → Nat
  | .new => 2 * P.div + 4
  | .start => 2 * P.div + 4
  | .loop i => (P.div - i) + P.div + 3
  | .get i _ => (P.div - i) + 2
  | .done _ => 0
  | .ub => 0

/-- The steps that the calls below `p`, to depth `k`, can still take. -/
def left (P : Prog) (f : Path → Pc) : Nat → Path → Nat
  | 0, p => own P (f p)
  | k + 1, p => own P (f p) + total (fun i => left P f k (i :: p)) P.div

theorem left_mono {P : Prog} {f g : Path → Pc} (h : ∀ p, own P (g p) ≤ own P (f p)) : ∀ k p, left P g k p ≤ left P f k p := by
  intro k
  induction k with
  | zero => intro p; exact h p
  | succ k ih => intro p; simp only [left]; have := h p; have := total_mono (n := P.div) (fun i => ih (i :: p)); omega

theorem left_strict {P : Prog} {f g : Path → Pc} (h : ∀ p, own P (g p) ≤ own P (f p)) :
    ∀ k l q, l.length ≤ k → (∀ i, i ∈ l → i < P.div) → own P (g (l ++ q)) < own P (f (l ++ q)) → left P g k q < left P f k q := by
  intro k
  induction k with
  | zero => intro l q hl _ hlt; rw [List.length_eq_zero_iff.1 (by omega : l.length = 0)] at hlt; exact hlt
  | succ k ih =>
    intro l q hl hi hlt
    simp only [left]
    rcases List.eq_nil_or_concat l with rfl | ⟨l', i, rfl⟩
    · simp only [List.nil_append] at hlt
      have := total_mono (n := P.div) (fun i => left_mono h k (i :: q)); omega
    · have h1 := total_strict (n := P.div) (k := i) (fun i => left_mono h k (i :: q)) (hi i (by simp))
        (ih l' (i :: q) (by simp at hl; omega) (fun j hj => hi j (by simp [hj])) (by simpa using hlt))
      have := h q; omega

theorem left_step {P : Prog} {s s' : State} {p : Path} {o : List Obs} {K : Nat} (hK : P.size = P.div ^ K) (ht : Tree P s)
    (hs : step P s p = some (s', o)) : left P s'.pc K [] < left P s.pc K [] := by
  have hn : s.pc p ≠ .new := by intro e; simp [step, e] at hs
  obtain ⟨hi, k, _, hk⟩ := pow_depth ht hK p hn
  have key : (∀ q, own P (s'.pc q) ≤ own P (s.pc q)) ∧ own P (s'.pc p) < own P (s.pc p) := by
    have mv : ∀ c, own P c < own P (s.pc p) → s'.pc = set s.pc p c →
        (∀ q, own P (s'.pc q) ≤ own P (s.pc q)) ∧ own P (s'.pc p) < own P (s.pc p) := by
      intro c hc e
      rw [e]
      refine ⟨fun q => ?_, by simpa [set_apply] using hc⟩
      simp only [set_apply]; split
      · rename_i e; rw [e]; omega
      · omega
    simp only [step] at hs
    split at hs
    · simp at hs
    · rename_i hp
      split at hs
      · simp only [finish, Option.some.injEq, Prod.mk.injEq] at hs; obtain ⟨rfl, rfl⟩ := hs
        exact mv _ (by rw [hp]; simp only [own]; omega) rfl
      · split at hs <;> simp only [Option.some.injEq, Prod.mk.injEq] at hs <;> obtain ⟨rfl, rfl⟩ := hs <;>
          exact mv _ (by rw [hp]; simp only [own]; omega) rfl
    · rename_i i hp
      split at hs <;> simp only [Option.some.injEq, Prod.mk.injEq] at hs <;> obtain ⟨rfl, rfl⟩ := hs
      · rename_i hlt
        have hnew : s.pc (i :: p) = .new := by
          have := ht.kids p i; rw [hp] at this; simp only [launched] at this; grind
        refine ⟨fun q => ?_, by simp only [set_apply, if_true, hp, own]; omega⟩
        simp only [set_apply]; split
        · rename_i e; rw [e, hp]; simp only [own]; omega
        · split
          · rename_i e; rw [e, hnew]; simp [own]
          · omega
      · exact mv _ (by rw [hp]; simp only [own]; omega) rfl
    · rename_i i n hp
      split at hs
      · split at hs
        · simp only [Option.some.injEq, Prod.mk.injEq] at hs; obtain ⟨rfl, rfl⟩ := hs
          exact mv _ (by rw [hp]; simp only [own]; omega) rfl
        · simp only [finish, Option.some.injEq, Prod.mk.injEq] at hs; obtain ⟨rfl, rfl⟩ := hs
          exact mv _ (by rw [hp]; simp only [own]; omega) rfl
        · simp at hs
      · simp only [finish, Option.some.injEq, Prod.mk.injEq] at hs; obtain ⟨rfl, rfl⟩ := hs
        exact mv _ (by rw [hp]; simp only [own]; omega) rfl
    · simp at hs
    · simp at hs
  exact left_strict key.1 K p [] (by omega) hi (by simpa using key.2)

end Verif.AsyncTree
