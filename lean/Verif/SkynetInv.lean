import Verif.Skynet

/-!
# Invariants of the tree of fibers
-/

namespace Verif.Skynet

/-- `f 0 + … + f (n - 1)`. -/
def sumTo (f : Nat → Nat) : Nat → Nat
  | 0 => 0
  | n + 1 => sumTo f n + f n

theorem sumTo_congr {f g : Nat → Nat} {n : Nat} (h : ∀ i, i < n → f i = g i) : sumTo f n = sumTo g n := by
  induction n with
  | zero => rfl
  | succ n ih => simp only [sumTo]; rw [ih fun i hi => h i (by omega), h n (by omega)]

theorem sumTo_add (f : Nat → Nat) (m n : Nat) : sumTo f (m + n) = sumTo f m + sumTo (fun j => f (m + j)) n := by
  induction n with
  | zero => simp [sumTo]
  | succ n ih => rw [← Nat.add_assoc]; simp only [sumTo, ih]; omega

/-- A sum over `d * m` indices is the sum of `d` sums over `m` indices. -/
theorem sumTo_mul (f : Nat → Nat) (d m : Nat) : sumTo f (d * m) = sumTo (fun i => sumTo (fun j => f (i * m + j)) m) d := by
  induction d with
  | zero => simp [sumTo]
  | succ d ih => rw [Nat.succ_mul, sumTo_add, ih]; rfl

/-- Changing one summand. -/
theorem sumTo_change {f g : Nat → Nat} {n k c : Nat} (hk : k < n) (h : ∀ i, i ≠ k → g i = f i) (hc : g k = f k + c) :
    sumTo g n = sumTo f n + c := by
  induction n with
  | zero => omega
  | succ n ih =>
    simp only [sumTo]
    by_cases e : k = n
    · subst e; rw [hc, sumTo_congr (g := f) fun i hi => h i (by omega)]; omega
    · rw [ih (by omega), h n (by omega)]; omega

theorem sumTo_zero {f : Nat → Nat} {n : Nat} (h : ∀ i, i < n → f i = 0) : sumTo f n = 0 := by
  induction n with
  | zero => rfl
  | succ n ih => simp only [sumTo]; rw [ih fun i hi => h i (by omega), h n (by omega)]

theorem sumTo_le {f : Nat → Nat} {n : Nat} (h : ∀ i, f i ≤ 1) : sumTo f n ≤ n := by
  induction n with
  | zero => simp [sumTo]
  | succ n ih => simp only [sumTo]; have := h n; omega

/-- If some summand is 0 the sum of `n` summands that are at most 1 is less than `n`. -/
theorem sumTo_lt {f : Nat → Nat} {n k : Nat} (h : ∀ i, f i ≤ 1) (hk : k < n) (h0 : f k = 0) : sumTo f n < n := by
  induction n with
  | zero => omega
  | succ n ih =>
    simp only [sumTo]
    have := h n
    by_cases e : k = n
    · subst e; have := sumTo_le (n := k) h; omega
    · have := ih (by omega); omega

/-- If all summands but none are 1 … : a sum that is less than `n` has a summand 0. -/
theorem exists_zero {f : Nat → Nat} {n : Nat} (h : ∀ i, f i ≤ 1) (hs : sumTo f n < n) : ∃ k, k < n ∧ f k = 0 := by
  induction n with
  | zero => omega
  | succ n ih =>
    simp only [sumTo] at hs
    have := h n
    by_cases e : f n = 0
    · exact ⟨n, by omega, e⟩
    · obtain ⟨k, hk, h0⟩ := ih (by omega); exact ⟨k, by omega, h0⟩

/-- The sum of the numbers of a range: `num + (num + 1) + … + (num + size - 1)`. -/
def rangeSum (a : Nat × Nat) : Nat := sumTo (fun j => a.1 + j) a.2

/-- The fibers launched by a call. -/
def launched (P : Prog) (size : Nat) : Pc → Nat
  | .new => 0
  | .start => 0
  | .loop i => i
  | .join _ => P.div
  | .pop _ _ => P.div
  | .push _ => if size = 1 then 0 else P.div
  | .done => if size = 1 then 0 else P.div

/-- The results taken by a call that has not computed its sum, and their sum. -/
def taken : Pc → Nat × Nat
  | .pop i sum => (i, sum)
  | _ => (0, 0)

def isDone (s : State) (p : Path) (i : Nat) : Nat := if s.pc (i :: p) = .done then 1 else 0

def doneVal (s : State) (p : Path) (i : Nat) : Nat := if s.pc (i :: p) = .done then rangeSum (s.arg (i :: p)) else 0

theorem set_apply {α : Type} (f : Path → α) (p q : Path) (v : α) : set f p v q = if q = p then v else f q := rfl

/-- Which calls exist, with which arguments. -/
structure Tree (P : Prog) (s : State) : Prop where
  root : s.pc [] ≠ .new ∧ s.arg [] = (P.num, P.size)
  kids : ∀ p i, s.pc (i :: p) ≠ .new ↔ i < launched P (s.arg p).2 (s.pc p)
  le : ∀ p, launched P (s.arg p).2 (s.pc p) ≤ P.div
  args : ∀ p i, s.pc (i :: p) ≠ .new → s.arg (i :: p) = ((s.arg p).1 + i * (s.arg p).2 / P.div, (s.arg p).2 / P.div)
  inner : ∀ p, (∀ i, s.pc p = .loop i → (s.arg p).2 ≠ 1) ∧ (∀ i, s.pc p = .join i → (s.arg p).2 ≠ 1 ∧ P.joins = true) ∧
    (∀ i n, s.pc p = .pop i n → (s.arg p).2 ≠ 1 ∧ i ≤ P.div)

theorem ne_cons (i : Nat) (p : Path) : i :: p ≠ p := by
  intro h; have := congrArg List.length h; simp at this

theorem tree_init (P : Prog) : Tree P (init P) := by
  constructor <;> simp [init, set_apply]
  all_goals grind [launched]

theorem tree_step {P : Prog} {s s' : State} {p : Path} {o : List Obs} (h : Tree P s) (hs : step P s p = some (s', o)) : Tree P s' := by
  obtain ⟨h1, h2, h3, h4, h5⟩ := h
  simp only [step] at hs
  split at hs
  · simp at hs
  · split at hs <;> simp only [Option.some.injEq, Prod.mk.injEq] at hs <;> obtain ⟨rfl, rfl⟩ := hs <;> constructor <;>
      grind [set_apply, launched, ne_cons]
  · split at hs
    · rename_i i hp hi
      simp only [Option.some.injEq, Prod.mk.injEq] at hs; obtain ⟨rfl, rfl⟩ := hs
      have hn : s.pc (i :: p) = .new := by
        have := h2 p i; rw [hp] at this; simp only [launched] at this; grind
      have hk : ∀ j, s.pc (j :: i :: p) = .new := by
        intro j; have := h2 (i :: p) j; rw [hn] at this; simp only [launched] at this; grind
      constructor
      · grind [set_apply]
      · intro q j; have := h2 q j; have := ne_cons i p; have := ne_cons j p; have := ne_cons j q; have := ne_cons j (i :: p)
        grind [set_apply, launched]
      · intro q; have := h3 q; have := ne_cons i p; grind [set_apply, launched]
      · intro q j; have := h4 q j; have := ne_cons i p; have := ne_cons j p; have := ne_cons j (i :: p); have := h2 q j; grind [set_apply, launched]
      · intro q; have := h5 q; have := ne_cons i p; grind [set_apply, launched]
    · simp only [Option.some.injEq, Prod.mk.injEq] at hs; obtain ⟨rfl, rfl⟩ := hs
      rename_i i hp hi
      have e : i = P.div := by have := h3 p; rw [hp] at this; simp only [launched] at this; omega
      constructor <;> grind [set_apply, launched, ne_cons]
  · split at hs
    · split at hs
      · simp only [Option.some.injEq, Prod.mk.injEq] at hs; obtain ⟨rfl, rfl⟩ := hs
        constructor <;> grind [set_apply, launched, ne_cons]
      · simp at hs
    · simp only [Option.some.injEq, Prod.mk.injEq] at hs; obtain ⟨rfl, rfl⟩ := hs
      constructor <;> grind [set_apply, launched, ne_cons]
  · split at hs
    · split at hs
      · simp at hs
      · simp only [Option.some.injEq, Prod.mk.injEq] at hs; obtain ⟨rfl, rfl⟩ := hs
        constructor <;> grind [set_apply, launched, ne_cons]
    · simp only [Option.some.injEq, Prod.mk.injEq] at hs; obtain ⟨rfl, rfl⟩ := hs
      constructor <;> grind [set_apply, launched, ne_cons]
  · simp only [push] at hs
    split at hs <;> split at hs <;> simp only [Option.some.injEq, Prod.mk.injEq, reduceCtorEq] at hs <;> obtain ⟨rfl, rfl⟩ := hs <;>
      constructor <;> grind [set_apply, launched, ne_cons]
  · simp at hs

/-- If the first size is a power of `div`, so is the size of every call. -/
theorem pow_size {P : Prog} {s : State} (h : Tree P s) (hp : ∃ k, P.size = P.div ^ k) : ∀ p, s.pc p ≠ .new → ∃ k, (s.arg p).2 = P.div ^ k := by
  intro p
  induction p with
  | nil => intro _; rw [h.root.2]; exact hp
  | cons i p ih =>
    intro hn
    have hl := (h.kids p i).1 hn
    have hle := h.le p
    have hpn : s.pc p ≠ .new := by intro e; rw [e] at hl; simp [launched] at hl
    obtain ⟨k, hk⟩ := ih hpn
    have h1 : (s.arg p).2 ≠ 1 := by
      intro e
      have h5 := h.inner p
      rw [e] at hl
      cases hc : s.pc p <;> rw [hc] at hl <;> simp [launched] at hl <;> grind
    rw [h.args p i hn]
    cases k with
    | zero => simp at hk; exact absurd hk h1
    | succ k => exact ⟨k, by simp only [hk]; rw [Nat.pow_succ]; exact Nat.mul_div_cancel _ (by omega)⟩

/-- Whether a call has its result. -/
def fin : Pc → Bool
  | .push _ => true
  | .done => true
  | _ => false

/-- What is in the channels. -/
structure Chan (P : Prog) (s : State) : Prop where
  count : ∀ p, fin (s.pc p) = false → (taken (s.pc p)).1 + (s.rc p).length = sumTo (isDone s p) P.div
  total : ∀ p, fin (s.pc p) = false → (taken (s.pc p)).2 + (s.rc p).sum = sumTo (doneVal s p) P.div
  closed : ∀ p, fin (s.pc p) = true → s.rc p = [] ∧ ((s.arg p).2 ≠ 1 → ∀ i, i < P.div → s.pc (i :: p) = .done)
  val : ∀ p v, s.pc p = .push v → v = rangeSum (s.arg p)
  out : s.out = if s.pc [] = .done then [rangeSum (s.arg [])] else []

theorem frame {s s' : State} {q : Path} (hd : ∀ i, s'.pc (i :: q) = .done ↔ s.pc (i :: q) = .done)
    (ha : ∀ i, s.pc (i :: q) = .done → s'.arg (i :: q) = s.arg (i :: q)) : isDone s' q = isDone s q ∧ doneVal s' q = doneVal s q := by
  constructor <;> funext i
  · simp only [isDone, hd]
  · simp only [doneVal, hd]; split <;> simp_all

theorem chan_init (P : Prog) : Chan P (init P) := by
  constructor
  · intro p _
    rw [sumTo_zero]
    · simp [init, set_apply]; split <;> simp [taken]
    · intro i _; simp [isDone, init, set_apply]
  · intro p _
    rw [sumTo_zero]
    · simp [init, set_apply]; split <;> simp [taken]
    · intro i _; simp [doneVal, init, set_apply]
  · intro p; simp [init, set_apply]; split <;> simp [fin]
  · intro p v; simp [init, set_apply]; split <;> simp
  · simp [init, set_apply]

theorem isDone_le (s : State) (p : Path) (i : Nat) : isDone s p i ≤ 1 := by simp only [isDone]; split <;> omega

/-- If all calls made by a call have returned, the sum of their results is the sum over its range. -/
theorem total_all {P : Prog} {s : State} {p : Path} {k : Nat} (ht : Tree P s) (hk : (s.arg p).2 = P.div ^ (k + 1))
    (hd : ∀ i, i < P.div → s.pc (i :: p) = .done) : sumTo (doneVal s p) P.div = rangeSum (s.arg p) := by
  simp only [rangeSum]
  rw [hk, Nat.pow_succ, Nat.mul_comm, sumTo_mul]
  apply sumTo_congr
  intro i hi
  simp only [doneVal, hd i hi, if_true, rangeSum]
  rw [ht.args p i (by rw [hd i hi]; simp)]
  simp only [hk]
  rw [Nat.pow_succ, ← Nat.mul_assoc, Nat.mul_div_cancel _ (by omega), Nat.mul_div_cancel _ (by omega)]
  apply sumTo_congr
  intro j _; omega

/-- A step that changes only where a call is. -/
theorem chan_move {P : Prog} {s : State} {p : Path} {c : Pc} (h : Chan P s) (hf : fin (s.pc p) = false) (hc : fin c = false)
    (ht : taken c = taken (s.pc p)) : Chan P { s with pc := set s.pc p c } := by
  obtain ⟨c1, c2, c3, c4, c5⟩ := h
  have n1 : s.pc p ≠ .done := by intro e; rw [e] at hf; cases hf
  have n2 : c ≠ .done := by intro e; rw [e] at hc; cases hc
  have n3 : ∀ v, c ≠ .push v := by intro v e; rw [e] at hc; cases hc
  have F : ∀ q, isDone { s with pc := set s.pc p c } q = isDone s q ∧ doneVal { s with pc := set s.pc p c } q = doneVal s q := by
    intro q; apply frame
    · intro j; simp only [set_apply]; split <;> simp_all
    · intro j _; rfl
  constructor
  · intro q; rw [(F q).1]; simp only [set_apply]; split
    · rename_i e; subst e; intro _; rw [ht]; exact c1 q hf
    · exact c1 q
  · intro q; rw [(F q).2]; simp only [set_apply]; split
    · rename_i e; subst e; intro _; rw [ht]; exact c2 q hf
    · exact c2 q
  · intro q; simp only [set_apply]; split
    · rw [hc]; simp
    · intro e; refine ⟨(c3 q e).1, fun h1 i hi => ?_⟩
      have := (c3 q e).2 h1 i hi
      rw [if_neg (by intro e2; rw [e2] at this; exact n1 this)]; exact this
  · intro q v; simp only [set_apply]; split
    · intro e; exact absurd e (n3 v)
    · exact c4 q v
  · have e : (set s.pc p c [] = .done) ↔ (s.pc [] = .done) := by simp only [set_apply]; split <;> simp_all
    simp only [e]; exact c5

/-- A new call. -/
theorem chan_launch {P : Prog} {s : State} {p : Path} {i : Nat} {a : Nat × Nat} (h : Chan P s) (hn : s.pc (i :: p) = .new) :
    Chan P { s with pc := set s.pc (i :: p) .start, arg := set s.arg (i :: p) a } := by
  have h' := chan_move (c := .start) h (p := i :: p) (by rw [hn]; rfl) rfl (by rw [hn]; rfl)
  have hs : set s.pc (i :: p) .start (i :: p) = .start := by simp [set_apply]
  obtain ⟨c1, c2, c3, c4, c5⟩ := h'
  generalize set s.pc (i :: p) .start = pc' at *
  have F : ∀ q, isDone { s with pc := pc', arg := set s.arg (i :: p) a } q = isDone { s with pc := pc' } q ∧
      doneVal { s with pc := pc', arg := set s.arg (i :: p) a } q = doneVal { s with pc := pc' } q := by
    intro q; apply frame
    · intro j; rfl
    · intro j hj; simp only [set_apply]; rw [if_neg]; intro e; rw [e] at hj; simp only at hj; rw [hs] at hj; cases hj
  constructor
  · intro q; rw [(F q).1]; exact c1 q
  · intro q; rw [(F q).2]; exact c2 q
  · intro q hq
    have : q ≠ i :: p := by intro e; subst e; simp only [hs, fin] at hq; cases hq
    simp only [set_apply, if_neg this]; exact c3 q hq
  · intro q v hq
    have : q ≠ i :: p := by intro e; subst e; simp only [hs] at hq; cases hq
    simp only [set_apply, if_neg this]; exact c4 q v hq
  · simpa [set_apply] using c5

/-- A call that has its result. -/
theorem chan_fin {P : Prog} {s : State} {p : Path} {v : Nat} (h : Chan P s) (hf : fin (s.pc p) = false) (e0 : s.rc p = [])
    (hall : (s.arg p).2 ≠ 1 → ∀ i, i < P.div → s.pc (i :: p) = .done) (hv : v = rangeSum (s.arg p)) : Chan P { s with pc := set s.pc p (.push v) } := by
  obtain ⟨c1, c2, c3, c4, c5⟩ := h
  have n1 : s.pc p ≠ .done := by intro e; rw [e] at hf; cases hf
  have F : ∀ q, isDone { s with pc := set s.pc p (.push v) } q = isDone s q ∧ doneVal { s with pc := set s.pc p (.push v) } q = doneVal s q := by
    intro q; apply frame
    · intro j; simp only [set_apply]; split <;> simp_all
    · intro j _; rfl
  have keep : ∀ q, s.pc q = .done → set s.pc p (.push v) q = .done := by
    intro q hq; simp only [set_apply]; rw [if_neg]; exact hq
    intro e; rw [e] at hq; exact n1 hq
  constructor
  · intro q; rw [(F q).1]; simp only [set_apply]; split
    · simp [fin]
    · exact c1 q
  · intro q; rw [(F q).2]; simp only [set_apply]; split
    · simp [fin]
    · exact c2 q
  · intro q hq
    by_cases e : q = p
    · subst e; exact ⟨e0, fun h1 i hi => keep _ (hall h1 i hi)⟩
    · simp only [set_apply, if_neg e] at hq; exact ⟨(c3 q hq).1, fun h1 i hi => keep _ ((c3 q hq).2 h1 i hi)⟩
  · intro q w; simp only [set_apply]; split
    · rename_i e; subst e; intro e; cases e; exact hv
    · exact c4 q w
  · have e : (set s.pc p (.push v) [] = .done) ↔ (s.pc [] = .done) := by simp only [set_apply]; split <;> simp_all
    simp only [e]; exact c5

/-- A result is taken. -/
theorem chan_pop {P : Prog} {s : State} {p : Path} {i n v : Nat} {vs : List Nat} (h : Chan P s) (hp : s.pc p = .pop i n) (hv : s.rc p = v :: vs) :
    Chan P { s with rc := set s.rc p vs, pc := set s.pc p (.pop (i + 1) (n + v)) } := by
  obtain ⟨c1, c2, c3, c4, c5⟩ := h
  have F : ∀ q, isDone { s with rc := set s.rc p vs, pc := set s.pc p (.pop (i + 1) (n + v)) } q = isDone s q ∧
      doneVal { s with rc := set s.rc p vs, pc := set s.pc p (.pop (i + 1) (n + v)) } q = doneVal s q := by
    intro q; apply frame
    · intro j; simp only [set_apply]; split <;> simp_all
    · intro j _; rfl
  constructor
  · intro q; rw [(F q).1]; simp only [set_apply]; split
    · rename_i e; subst e; intro _; have := c1 q (by rw [hp]; rfl); rw [hp, hv] at this; simp only [taken, List.length_cons] at this ⊢; omega
    · exact c1 q
  · intro q; rw [(F q).2]; simp only [set_apply]; split
    · rename_i e; subst e; intro _; have := c2 q (by rw [hp]; rfl); rw [hp, hv] at this; simp only [taken, List.sum_cons] at this ⊢; omega
    · exact c2 q
  · intro q hq
    by_cases e : q = p
    · subst e; simp [set_apply, fin] at hq
    · simp only [set_apply, if_neg e] at hq ⊢
      refine ⟨(c3 q hq).1, fun h1 j hj => ?_⟩
      have := (c3 q hq).2 h1 j hj
      rw [if_neg]; exact this
      intro e; rw [e, hp] at this; cases this
  · intro q w; simp only [set_apply]; split
    · simp
    · exact c4 q w
  · have e : (set s.pc p (.pop (i + 1) (n + v)) [] = .done) ↔ (s.pc [] = .done) := by simp only [set_apply]; split <;> simp_all
    simp only [e]; exact c5

theorem chan_step {P : Prog} {s s' : State} {p : Path} {o : List Obs} (hpow : ∃ k, P.size = P.div ^ k) (ht : Tree P s) (h : Chan P s)
    (hs : step P s p = some (s', o)) : Chan P s' := by
  have h2 := ht.kids
  simp only [step] at hs
  split at hs
  · simp at hs
  · rename_i hp
    split at hs <;> simp only [Option.some.injEq, Prod.mk.injEq] at hs <;> obtain ⟨rfl, rfl⟩ := hs
    · rename_i h1
      have e0 : s.rc p = [] := by
        have := h.count p (by rw [hp]; rfl)
        rw [sumTo_zero] at this
        · rw [hp] at this; simpa [taken] using this
        · intro i _
          have := h2 p i; rw [hp] at this; simp only [launched] at this
          simp only [isDone]; rw [if_neg]; grind
      exact chan_fin h (by rw [hp]; rfl) e0 (fun e => absurd h1 e) (by simp [rangeSum, h1, sumTo])
    · exact chan_move h (by rw [hp]; rfl) rfl (by rw [hp]; rfl)
  · split at hs
    · rename_i i hp hi
      simp only [Option.some.injEq, Prod.mk.injEq] at hs; obtain ⟨rfl, rfl⟩ := hs
      have hn : s.pc (i :: p) = .new := by
        have := h2 p i; rw [hp] at this; simp only [launched] at this; grind
      have hpp : set s.pc (i :: p) .start p = .loop i := by simp only [set_apply, if_neg (Ne.symm (ne_cons i p))]; exact hp
      exact chan_move (c := .loop (i + 1)) (p := p)
        (chan_launch (a := ((s.arg p).1 + i * (s.arg p).2 / P.div, (s.arg p).2 / P.div)) h hn) (by simp only [hpp]; rfl) rfl (by simp only [hpp]; rfl)
    · simp only [Option.some.injEq, Prod.mk.injEq] at hs; obtain ⟨rfl, rfl⟩ := hs
      rename_i i hp hi
      exact chan_move h (by rw [hp]; rfl) (by split <;> rfl) (by rw [hp]; split <;> rfl)
  · rename_i i hp
    split at hs
    · split at hs
      · simp only [Option.some.injEq, Prod.mk.injEq] at hs; obtain ⟨rfl, rfl⟩ := hs
        exact chan_move h (by rw [hp]; rfl) rfl (by rw [hp]; rfl)
      · simp at hs
    · simp only [Option.some.injEq, Prod.mk.injEq] at hs; obtain ⟨rfl, rfl⟩ := hs
      exact chan_move h (by rw [hp]; rfl) rfl (by rw [hp]; rfl)
  · rename_i i n hp
    split at hs
    · split at hs
      · simp at hs
      · rename_i v vs hv
        simp only [Option.some.injEq, Prod.mk.injEq] at hs; obtain ⟨rfl, rfl⟩ := hs
        exact chan_pop h hp hv
    · rename_i hi
      simp only [Option.some.injEq, Prod.mk.injEq] at hs; obtain ⟨rfl, rfl⟩ := hs
      obtain ⟨h1, hle⟩ := (ht.inner p).2.2 i n hp
      have hcnt := h.count p (by rw [hp]; rfl)
      have htot := h.total p (by rw [hp]; rfl)
      rw [hp] at hcnt htot; simp only [taken] at hcnt htot
      have hsl := sumTo_le (n := P.div) (isDone_le s p)
      have e0 : s.rc p = [] := List.length_eq_zero_iff.1 (by omega)
      have hall : ∀ j, j < P.div → s.pc (j :: p) = .done := by
        intro j hj
        by_cases hd : s.pc (j :: p) = .done
        · exact hd
        · have := sumTo_lt (isDone_le s p) hj (by simp [isDone, hd]); omega
      obtain ⟨k, hk⟩ := pow_size ht hpow p (by rw [hp]; simp)
      have hv : n = rangeSum (s.arg p) := by
        cases k with
        | zero => simp at hk; exact absurd hk h1
        | succ k => rw [← total_all ht hk hall, ← htot, e0]; simp
      exact chan_fin h (by rw [hp]; rfl) e0 (fun _ => hall) hv
  · rename_i v hp
    obtain ⟨c1, c2, c3, c4, c5⟩ := h
    simp only [push] at hs
    split at hs
    · split at hs <;> simp only [Option.some.injEq, Prod.mk.injEq, reduceCtorEq] at hs; obtain ⟨rfl, rfl⟩ := hs
      have F : ∀ q, isDone { s with out := s.out ++ [v], pc := set s.pc [] .done } q = isDone s q ∧
        doneVal { s with out := s.out ++ [v], pc := set s.pc [] .done } q = doneVal s q := by
        intro q; apply frame
        · intro j; grind [set_apply]
        · intro j; grind [set_apply]
      have hv := c4 _ _ hp
      constructor
      · intro q; rw [(F q).1]; have := c1 q; grind [set_apply, fin, taken]
      · intro q; rw [(F q).2]; have := c2 q; grind [set_apply, fin, taken]
      · intro q hq
        have hq' : fin (s.pc q) = true := by
          simp only [set_apply] at hq; split at hq
          · rename_i e; rw [e, hp]; rfl
          · exact hq
        refine ⟨(c3 q hq').1, fun h1 j hj => ?_⟩
        simp only [set_apply]; split
        · rfl
        · exact (c3 q hq').2 h1 j hj
      · intro q v; have := c4 q v; grind [set_apply]
      · simp only [set_apply, if_true]; rw [c5, hp, if_neg (by simp), hv]; rfl
    · rename_i i q
      split at hs <;> simp only [Option.some.injEq, Prod.mk.injEq, reduceCtorEq] at hs; obtain ⟨rfl, rfl⟩ := hs
      have hv := c4 _ _ hp
      have hl := (h2 q i).1 (by rw [hp]; simp)
      have hdiv : i < P.div := by have := ht.le q; omega
      have hq : fin (s.pc q) = false := by
        cases hf : fin (s.pc q) with
        | false => rfl
        | true =>
          obtain ⟨_, hall⟩ := c3 q hf
          have h1 : (s.arg q).2 ≠ 1 := by
            intro e; rw [e] at hl
            cases hc : s.pc q <;> rw [hc] at hl hf <;> simp [launched, fin] at hl hf
          rw [hall h1 i hdiv] at hp; cases hp
      have hne := ne_cons i q
      have hD : sumTo (isDone { s with rc := set s.rc q (s.rc q ++ [v]), pc := set s.pc (i :: q) .done } q) P.div = sumTo (isDone s q) P.div + 1 := by
        apply sumTo_change hdiv
        · intro j hj; simp [isDone, set_apply, hj]
        · simp [isDone, set_apply, hp]
      have hV : sumTo (doneVal { s with rc := set s.rc q (s.rc q ++ [v]), pc := set s.pc (i :: q) .done } q) P.div = sumTo (doneVal s q) P.div + v := by
        apply sumTo_change hdiv
        · intro j hj; simp [doneVal, set_apply, hj]
        · simp [doneVal, set_apply, hp, hv]
      have F : ∀ r, r ≠ q → isDone { s with rc := set s.rc q (s.rc q ++ [v]), pc := set s.pc (i :: q) .done } r = isDone s r ∧
        doneVal { s with rc := set s.rc q (s.rc q ++ [v]), pc := set s.pc (i :: q) .done } r = doneVal s r := by
        intro r hr; apply frame
        · intro j; grind [set_apply]
        · intro j; grind [set_apply]
      constructor
      · intro r
        by_cases e : r = q
        · subst e; rw [hD]; have := c1 r hq; simp only [set_apply, if_neg (Ne.symm hne), if_true, List.length_append, List.length_singleton]; intro _; omega
        · rw [(F r e).1]; have := c1 r; grind [set_apply, fin]
      · intro r
        by_cases e : r = q
        · subst e; rw [hV]; have := c2 r hq; simp only [set_apply, if_neg (Ne.symm hne), if_true, List.sum_append, List.sum_singleton]; intro _; omega
        · rw [(F r e).2]; have := c2 r; grind [set_apply, fin]
      · intro r hr
        have hr' : fin (s.pc r) = true := by
          simp only [set_apply] at hr; split at hr
          · rename_i e; rw [e, hp]; rfl
          · exact hr
        have hrq : r ≠ q := by intro e; rw [e, hq] at hr'; cases hr'
        simp only [set_apply, if_neg hrq]
        refine ⟨(c3 r hr').1, fun h1 j hj => ?_⟩
        split
        · rfl
        · exact (c3 r hr').2 h1 j hj
      · intro r v; have := c4 r v; grind [set_apply]
      · grind [set_apply]
  · simp at hs

theorem reach_inv {P : Prog} (hpow : ∃ k, P.size = P.div ^ k) {s : State} {tr : List Obs} (h : Reach (step P) (init P) s tr) : Tree P s ∧ Chan P s := by
  induction h with
  | refl => exact ⟨tree_init P, chan_init P⟩
  | tail e _ he ih => exact ⟨tree_step ih.1 he, chan_step hpow ih.1 ih.2 he⟩

/-- The result in an observation. -/
def resultOf : Obs → Option Nat
  | .result v => some v
  | .pushed _ _ => none

/-- The results observed are those in the channel of `main`. -/
theorem obs_inv {P : Prog} {s : State} {tr : List Obs} (h : Reach (step P) (init P) s tr) :
    tr.filterMap resultOf = s.out := by
  induction h with
  | refl => rfl
  | tail e _ hs ih =>
    rw [List.filterMap_append, ih]
    simp only [step] at hs
    split at hs
    · simp at hs
    · split at hs <;> simp only [Option.some.injEq, Prod.mk.injEq] at hs <;> obtain ⟨rfl, rfl⟩ := hs <;> simp [resultOf]
    · split at hs <;> simp only [Option.some.injEq, Prod.mk.injEq] at hs <;> obtain ⟨rfl, rfl⟩ := hs <;> simp [resultOf]
    · split at hs
      · split at hs <;> simp only [Option.some.injEq, Prod.mk.injEq, reduceCtorEq] at hs; obtain ⟨rfl, rfl⟩ := hs; simp [resultOf]
      · simp only [Option.some.injEq, Prod.mk.injEq] at hs; obtain ⟨rfl, rfl⟩ := hs; simp [resultOf]
    · split at hs
      · split at hs <;> simp only [Option.some.injEq, Prod.mk.injEq, reduceCtorEq] at hs; obtain ⟨rfl, rfl⟩ := hs; simp [resultOf]
      · simp only [Option.some.injEq, Prod.mk.injEq] at hs; obtain ⟨rfl, rfl⟩ := hs; simp [resultOf]
    · simp only [push] at hs
      split at hs <;> split at hs <;> simp only [Option.some.injEq, Prod.mk.injEq, reduceCtorEq] at hs <;> obtain ⟨rfl, rfl⟩ := hs <;> simp [resultOf]
    · simp at hs

/-- The size of a call and how deep it is in the tree. -/
theorem pow_depth {P : Prog} {s : State} (h : Tree P s) {K : Nat} (hp : P.size = P.div ^ K) :
    ∀ p, s.pc p ≠ .new → (∀ i, i ∈ p → i < P.div) ∧ ∃ k, (s.arg p).2 = P.div ^ k ∧ k + p.length = K := by
  intro p
  induction p with
  | nil => intro _; rw [h.root.2]; exact ⟨by simp, K, hp, rfl⟩
  | cons i p ih =>
    intro hn
    have hl := (h.kids p i).1 hn
    have hle := h.le p
    have hpn : s.pc p ≠ .new := by intro e; rw [e] at hl; simp [launched] at hl
    obtain ⟨hi, k, hk, hK⟩ := ih hpn
    have h1 : (s.arg p).2 ≠ 1 := by
      intro e
      have h5 := h.inner p
      rw [e] at hl
      cases hc : s.pc p <;> rw [hc] at hl <;> simp [launched] at hl <;> grind
    refine ⟨by intro j hj; rcases List.mem_cons.1 hj with rfl | hj; omega; exact hi j hj, ?_⟩
    rw [h.args p i hn]
    cases k with
    | zero => simp at hk; exact absurd hk h1
    | succ k => exact ⟨k, by simp only [hk]; rw [Nat.pow_succ]; exact Nat.mul_div_cancel _ (by omega), by simp; omega⟩

/-- A call that cannot go on has returned, or it waits for a place in the channel of its caller. -/
theorem rest_call {P : Prog} {s : State} (ht : Tree P s) (hc : Chan P s) (h2 : 2 ≤ P.cap) (hj : P.joins = false ∨ P.div < P.cap)
    (hr : ∀ p, step P s p = none) : ∀ k p, s.pc p ≠ .new → (s.arg p).2 = P.div ^ k →
      s.pc p = .done ∨ ∃ v, s.pc p = .push v := by
  intro k
  induction k with
  | zero =>
    intro p hn hk
    have := hr p
    have h5 := ht.inner p
    simp only [Nat.pow_zero] at hk
    cases hp : s.pc p with
    | new => exact absurd hp hn
    | start => simp [step, hp, hk] at this
    | loop i => exact absurd hk (h5.1 i hp)
    | join i => exact absurd hk (h5.2.1 i hp).1
    | pop i n => exact absurd hk (h5.2.2 i n hp).1
    | push v => exact .inr ⟨v, rfl⟩
    | done => exact .inl rfl
  | succ k ih =>
    intro p hn hk
    have hs := hr p
    have h5 := ht.inner p
    -- a call made by `p` that has not returned waits for a place in the channel of `p`
    have kid : ∀ i, i < P.div → i < launched P (s.arg p).2 (s.pc p) → s.pc (i :: p) ≠ .done → P.cap ≤ (s.rc p).length + 1 := by
      intro i hi hl hd
      have hin := (ht.kids p i).2 hl
      have ha := ht.args p i hin
      have hk' : (s.arg (i :: p)).2 = P.div ^ k := by
        rw [ha]; simp only [hk, Nat.pow_succ]; exact Nat.mul_div_cancel _ (by omega)
      rcases ih _ hin hk' with h | ⟨v, hv⟩
      · exact absurd h hd
      · have := hr (i :: p)
        simp only [step, hv, push] at this
        split at this
        · simp at this
        · omega
    cases hp : s.pc p with
    | new => exact absurd hp hn
    | start => simp only [step, hp] at hs; split at hs <;> simp at hs
    | loop i => simp only [step, hp] at hs; split at hs <;> simp at hs
    | join i =>
      simp only [step, hp] at hs
      split at hs
      · rename_i hi
        split at hs
        · simp at hs
        · rename_i hd
          have hfull := kid i hi (by rw [hp]; exact hi) hd
          have hcnt := hc.count p (by rw [hp]; rfl)
          rw [hp] at hcnt; simp only [taken] at hcnt
          have hlt := sumTo_lt (isDone_le s p) hi (by simp [isDone, hd])
          have := (h5.2.1 i hp).2
          rcases hj with hj | hj
          · rw [hj] at this; cases this
          · omega
      · simp at hs
    | pop i n =>
      simp only [step, hp] at hs
      split at hs
      · rename_i hi
        split at hs
        · rename_i he
          have hcnt := hc.count p (by rw [hp]; rfl)
          rw [hp, he] at hcnt; simp only [taken, List.length_nil] at hcnt
          obtain ⟨j, hj, h0⟩ := exists_zero (n := P.div) (isDone_le s p) (by omega)
          have hfull := kid j hj (by rw [hp]; exact hj) (by intro e; simp [isDone, e] at h0)
          rw [he] at hfull; simp at hfull; omega
        · simp at hs
      · simp at hs
    | push v => exact .inr ⟨v, rfl⟩
    | done => exact .inl rfl

/-- The steps that a call can still take. -/
def own (P : Prog) : Pc → Nat
  | .new => 3 * P.div + 5
  | .start => 3 * P.div + 5
  | .loop i => (P.div - i) + 2 * P.div + 4
  | .join i => (P.div - i) + P.div + 3
  | .pop i _ => (P.div - i) + 2
  | .push _ => 1
  | .done => 0

/-- The steps that the calls below `p`, to depth `k`, can still take. -/
def left (P : Prog) (f : Path → Pc) : Nat → Path → Nat
  | 0, p => own P (f p)
  | k + 1, p => own P (f p) + sumTo (fun i => left P f k (i :: p)) P.div

theorem sumTo_mono {f g : Nat → Nat} {n : Nat} (h : ∀ i, f i ≤ g i) : sumTo f n ≤ sumTo g n := by
  induction n with
  | zero => simp [sumTo]
  | succ n ih => simp only [sumTo]; have := h n; omega

theorem sumTo_strict {f g : Nat → Nat} {n k : Nat} (h : ∀ i, f i ≤ g i) (hk : k < n) (hlt : f k < g k) : sumTo f n < sumTo g n := by
  induction n with
  | zero => omega
  | succ n ih =>
    simp only [sumTo]
    by_cases e : k = n
    · subst e; have := sumTo_mono (n := k) h; omega
    · have := ih (by omega); have := h n; omega

theorem left_mono {P : Prog} {f g : Path → Pc} (h : ∀ p, own P (g p) ≤ own P (f p)) : ∀ k p, left P g k p ≤ left P f k p := by
  intro k
  induction k with
  | zero => intro p; exact h p
  | succ k ih => intro p; simp only [left]; have := h p; have := sumTo_mono (n := P.div) (fun i => ih (i :: p)); omega

theorem left_strict {P : Prog} {f g : Path → Pc} (h : ∀ p, own P (g p) ≤ own P (f p)) :
    ∀ k l q, l.length ≤ k → (∀ i, i ∈ l → i < P.div) → own P (g (l ++ q)) < own P (f (l ++ q)) → left P g k q < left P f k q := by
  intro k
  induction k with
  | zero => intro l q hl _ hlt; rw [List.length_eq_zero_iff.1 (by omega : l.length = 0)] at hlt; exact hlt
  | succ k ih =>
    intro l q hl hi hlt
    simp only [left]
    rcases List.eq_nil_or_concat l with rfl | ⟨l', i, rfl⟩
    · simp only [List.nil_append] at hlt
      have := sumTo_mono (n := P.div) (fun i => left_mono h k (i :: q)); omega
    · have h1 := sumTo_strict (n := P.div) (k := i) (fun i => left_mono h k (i :: q)) (hi i (by simp))
        (ih l' (i :: q) (by simp at hl; omega) (fun j hj => hi j (by simp [hj])) (by simpa using hlt))
      have := h q; omega

theorem left_step {P : Prog} {s s' : State} {p : Path} {o : List Obs} {K : Nat} (hK : P.size = P.div ^ K) (ht : Tree P s)
    (hs : step P s p = some (s', o)) : left P s'.pc K [] < left P s.pc K [] := by
  have hn : s.pc p ≠ .new := by intro e; simp [step, e] at hs
  obtain ⟨hi, k, _, hk⟩ := pow_depth ht hK p hn
  have key : (∀ q, own P (s'.pc q) ≤ own P (s.pc q)) ∧ own P (s'.pc p) < own P (s.pc p) := by
    have mv : ∀ c, own P c < own P (s.pc p) → s'.pc = set s.pc p c →
        (∀ q, own P (s'.pc q) ≤ own P (s.pc q)) ∧ own P (s'.pc p) < own P (s.pc p) := by
      intro c hc e
      rw [e]
      refine ⟨fun q => ?_, by simpa [set_apply] using hc⟩
      simp only [set_apply]; split
      · rename_i e; rw [e]; omega
      · omega
    simp only [step] at hs
    split at hs
    · simp at hs
    · rename_i hp
      split at hs <;> simp only [Option.some.injEq, Prod.mk.injEq] at hs <;> obtain ⟨rfl, rfl⟩ := hs <;>
        exact mv _ (by rw [hp]; simp only [own]; omega) rfl
    · rename_i i hp
      split at hs <;> simp only [Option.some.injEq, Prod.mk.injEq] at hs <;> obtain ⟨rfl, rfl⟩ := hs
      · rename_i hlt
        have hnew : s.pc (i :: p) = .new := by
          have := ht.kids p i; rw [hp] at this; simp only [launched] at this; grind
        refine ⟨fun q => ?_, by simp only [set_apply, if_true, hp, own]; omega⟩
        simp only [set_apply]; split
        · rename_i e; rw [e, hp]; simp only [own]; omega
        · split
          · rename_i e; rw [e, hnew]; simp [own]
          · omega
      · exact mv _ (by rw [hp]; split <;> simp only [own] <;> omega) rfl
    · rename_i i hp
      split at hs
      · split at hs <;> simp only [Option.some.injEq, Prod.mk.injEq, reduceCtorEq] at hs; obtain ⟨rfl, rfl⟩ := hs
        exact mv _ (by rw [hp]; simp only [own]; omega) rfl
      · simp only [Option.some.injEq, Prod.mk.injEq] at hs; obtain ⟨rfl, rfl⟩ := hs
        exact mv _ (by rw [hp]; simp only [own]; omega) rfl
    · rename_i i n hp
      split at hs
      · split at hs <;> simp only [Option.some.injEq, Prod.mk.injEq, reduceCtorEq] at hs; obtain ⟨rfl, rfl⟩ := hs
        exact mv _ (by rw [hp]; simp only [own]; omega) rfl
      · simp only [Option.some.injEq, Prod.mk.injEq] at hs; obtain ⟨rfl, rfl⟩ := hs
        exact mv _ (by rw [hp]; simp only [own]; omega) rfl
    · rename_i v hp
      simp only [push] at hs
      split at hs <;> split at hs <;> simp only [Option.some.injEq, Prod.mk.injEq, reduceCtorEq] at hs <;> obtain ⟨rfl, rfl⟩ := hs <;>
        exact mv .done (by rw [hp]; simp [own]) rfl
    · simp at hs
  exact left_strict key.1 K p [] (by omega) hi (by simpa using key.2)

end Verif.Skynet
