import Verif.ThreadBarrier

/-!
# Invariants of the barrier of threads
-/

namespace Verif.ThreadBarrier

/-- The value of `cycle_` in batch `g`. -/
def par (g : Nat) : Bool := g % 2 == 0

theorem par_succ (g : Nat) : par (g + 1) = !par g := by
  simp only [par]
  rcases Nat.mod_two_eq_zero_or_one g with h | h
  · rw [h, show (g + 1) % 2 = 1 by omega]; rfl
  · rw [h, show (g + 1) % 2 = 0 by omega]; rfl

theorem next_same {k n : Nat} (h : k % n + 1 < n) : (k + 1) / n = k / n ∧ (k + 1) % n = k % n + 1 := by
  have h0 := Nat.div_add_mod k n
  have e : k + 1 = n * (k / n) + (k % n + 1) := by omega
  constructor
  · rw [e, Nat.mul_add_div (by omega), Nat.div_eq_of_lt h]; simp
  · rw [e, Nat.mul_add_mod, Nat.mod_eq_of_lt h]

theorem next_batch {k n : Nat} (hn : 0 < n) (h : k % n + 1 = n) : (k + 1) / n = k / n + 1 ∧ (k + 1) % n = 0 := by
  have h0 := Nat.div_add_mod k n
  have e : k + 1 = n * (k / n + 1) := by rw [Nat.mul_add]; omega
  constructor
  · rw [e, Nat.mul_div_cancel_left _ hn]
  · rw [e, Nat.mul_mod_right]

/-- What holds for any number of threads. -/
structure Base (P : Prog) (s : State) : Prop where
  cur : s.current = P.n - s.calls % P.n
  cyc : s.cycle = par (s.calls / P.n)
  out : ∀ t, P.threads ≤ t → s.pc t = .idle
  idx : ∀ t, s.pc t ≠ .idle → s.idx t < s.calls
  asleep : ∀ t c, s.pc t = .asleep c → c = par (s.idx t / P.n) ∧ s.idx t % P.n + 1 ≠ P.n
  awake : ∀ t c, s.pc t = .awake c → c = par (s.idx t / P.n) ∧ s.idx t % P.n + 1 ≠ P.n
  notify : ∀ t, s.pc t = .notify → s.idx t / P.n < s.calls / P.n ∧ s.idx t % P.n + 1 = P.n

theorem base_init (P : Prog) : Base P (init P) := by
  constructor <;> simp [init, par]

theorem wakeAll_upd (f : Nat → Pc) (t u : Nat) : wakeAll (upd f t .idle) u = if u = t then .idle else wakeAll f u := by
  simp only [wakeAll, upd_apply]
  by_cases e : u = t
  · simp [e]
  · simp [e]

theorem base_step {P : Prog} {s s' : State} {e : Event} {o : List Obs} (hn : 0 < P.n) (h : Base P s) (hs : step P s e = some (s', o)) : Base P s' := by
  obtain ⟨h1, h2, h3, h4, h5, h6, h7⟩ := h
  have hm := Nat.mod_lt s.calls hn
  cases e with
  | call t =>
    simp only [step] at hs
    split at hs
    · rename_i ht
      split at hs <;> simp only [Option.some.injEq, Prod.mk.injEq] at hs <;> obtain ⟨rfl, rfl⟩ := hs
      · obtain ⟨a, b⟩ := next_batch hn (show s.calls % P.n + 1 = P.n by omega)
        constructor
        · simp only [b]; omega
        · simp only [a, par_succ, h2]
        · intro u hu; have := h3 u hu; simp only [upd_apply]; rw [if_neg (by omega)]; exact this
        · intro u; have := h4 u; simp only [upd_apply]; split <;> grind
        · intro u c; have := h5 u c; simp only [upd_apply]; split <;> simp_all
        · intro u c; have := h6 u c; simp only [upd_apply]; split <;> simp_all
        · intro u; have := h7 u; simp only [upd_apply, a]; split
          · intro _; exact ⟨by omega, by omega⟩
          · intro hu; have := this hu; exact ⟨by omega, this.2⟩
      · obtain ⟨a, b⟩ := next_same (show s.calls % P.n + 1 < P.n by omega)
        constructor
        · simp only [b]; omega
        · simp only [a, h2]
        · intro u hu; have := h3 u hu; simp only [upd_apply]; rw [if_neg (by omega)]; exact this
        · intro u; have := h4 u; simp only [upd_apply]; split <;> grind
        · intro u c; have := h5 u c; simp only [upd_apply]; split
          · intro e; cases e; exact ⟨h2, by omega⟩
          · exact this
        · intro u c; have := h6 u c; simp only [upd_apply]; split <;> simp_all
        · intro u; have := h7 u; simp only [upd_apply, a]; split
          · simp
          · exact this
    · simp at hs
  | go t =>
    simp only [step] at hs
    split at hs
    · rename_i ht
      simp only [Option.some.injEq, Prod.mk.injEq] at hs; obtain ⟨rfl, rfl⟩ := hs
      constructor
      · exact h1
      · exact h2
      · intro u hu; have := h3 u hu; simp only [wakeAll_upd]; split
        · rfl
        · simp [wakeAll, this]
      · intro u; have := h4 u; simp only [wakeAll_upd]; split
        · simp
        · simp only [wakeAll]; split <;> simp_all
      · intro u c; simp only [wakeAll_upd]; split
        · simp
        · simp only [wakeAll]; split
          · simp
          · rename_i hx; intro e; exact absurd e (hx c)
      · intro u c; have := h5 u c; have := h6 u c; simp only [wakeAll_upd]; split
        · simp
        · simp only [wakeAll]; split
          · intro e; cases e; simp_all
          · assumption
      · intro u; have := h7 u; simp only [wakeAll_upd]; split
        · simp
        · simp only [wakeAll]; split <;> simp_all
    · rename_i c ht
      split at hs <;> simp only [Option.some.injEq, Prod.mk.injEq] at hs <;> obtain ⟨rfl, rfl⟩ := hs <;> constructor <;> grind [upd_apply]
    · simp at hs
  | wake t =>
    simp only [step] at hs
    split at hs
    · simp only [Option.some.injEq, Prod.mk.injEq] at hs; obtain ⟨rfl, rfl⟩ := hs
      constructor <;> grind [upd_apply]
    · simp at hs

/-- How many of the first `m` numbers have a property. -/
def cnt (p : Nat → Bool) : Nat → Nat
  | 0 => 0
  | m + 1 => cnt p m + if p m then 1 else 0

theorem cnt_congr {p q : Nat → Bool} {m : Nat} (h : ∀ i, i < m → p i = q i) : cnt p m = cnt q m := by
  induction m with
  | zero => rfl
  | succ m ih => simp only [cnt]; rw [ih fun i hi => h i (by omega), h m (by omega)]

theorem cnt_zero {p : Nat → Bool} {m : Nat} (h : ∀ i, i < m → p i = false) : cnt p m = 0 := by
  induction m with
  | zero => rfl
  | succ m ih => simp only [cnt]; rw [ih fun i hi => h i (by omega), h m (by omega)]; rfl

theorem cnt_le (p : Nat → Bool) (m : Nat) : cnt p m ≤ m := by
  induction m with
  | zero => exact Nat.le_refl _
  | succ m ih => simp only [cnt]; split <;> omega

theorem cnt_add {p q : Nat → Bool} {m t : Nat} (ht : t < m) (h : ∀ i, i ≠ t → q i = p i) (hp : p t = false) (hq : q t = true) : cnt q m = cnt p m + 1 := by
  induction m with
  | zero => omega
  | succ m ih =>
    simp only [cnt]
    by_cases e : t = m
    · subst e; rw [hp, hq, cnt_congr (q := p) fun i hi => h i (by omega)]; rfl
    · rw [ih (by omega), h m (by omega)]; omega

theorem cnt_two {p : Nat → Bool} {m t u : Nat} (ht : t < m) (hu : u < m) (hne : u ≠ t) (h1 : p t = false) (h2 : p u = false) : cnt p m + 2 ≤ m := by
  have a := cnt_add (p := p) (q := fun i => if i = t then true else p i) ht (by intro i hi; simp [hi]) h1 (by simp)
  have b := cnt_add (p := fun i => if i = t then true else p i) (q := fun i => if i = u then true else if i = t then true else p i) hu
    (by intro i hi; simp [hi]) (by simp [hne, h2]) (by simp)
  have := cnt_le (fun i => if i = u then true else if i = t then true else p i) m
  omega

/-- Whether a thread is in a call of the batch that is not complete. -/
def inBatch (P : Prog) (s : State) (t : Nat) : Bool := decide (s.pc t ≠ .idle) && decide (s.idx t / P.n = s.calls / P.n)

/-- What holds if there are not more threads than the barrier waits for. -/
structure Few (P : Prog) (s : State) : Prop where
  count : cnt (inBatch P s) P.threads = s.calls % P.n
  near : ∀ t, s.pc t ≠ .idle → s.calls / P.n ≤ s.idx t / P.n + 1
  told : ∀ t c, s.pc t = .asleep c → s.idx t / P.n < s.calls / P.n → ∃ u, s.pc u = .notify

theorem few_init (P : Prog) : Few P (init P) := by
  constructor
  · rw [cnt_zero (by simp [inBatch, init])]; simp [init]
  · simp [init]
  · simp [init]

theorem par_ne {a b : Nat} (h : par a ≠ par b) : a ≠ b := by intro e; rw [e] at h; exact h rfl

theorem few_step {P : Prog} {s s' : State} {e : Event} {o : List Obs} (hn : 0 < P.n) (hm : P.threads ≤ P.n) (hb : Base P s) (h : Few P s)
    (hs : step P s e = some (s', o)) : Few P s' := by
  have hb' := base_step hn hb hs
  obtain ⟨h1, h2, h3, h4, h5, h6, h7⟩ := hb
  obtain ⟨f1, f2, f3⟩ := h
  have hmod := Nat.mod_lt s.calls hn
  cases e with
  | call t =>
    simp only [step] at hs
    split at hs
    · rename_i ht
      split at hs <;> simp only [Option.some.injEq, Prod.mk.injEq] at hs <;> obtain ⟨rfl, rfl⟩ := hs
      · have hl : s.calls % P.n + 1 = P.n := by omega
        obtain ⟨a, b⟩ := next_batch hn hl
        have all : ∀ u, s.pc u ≠ .idle → s.idx u / P.n = s.calls / P.n := by
          intro u hu
          have hut : u ≠ t := by intro e; rw [e] at hu; exact hu ht.2
          have hul : u < P.threads := by
            by_cases hul : u < P.threads
            · exact hul
            · exact absurd (h3 u (by omega)) hu
          by_cases e : inBatch P s u = true
          · simp [inBatch] at e; exact e.2
          · have := cnt_two ht.1 hul hut (p := inBatch P s) (by simp [inBatch, ht.2]) (by simpa using e)
            omega
        have old : ∀ u, s.pc u ≠ .idle → s.idx u / P.n ≤ s.calls / P.n := fun u hu => by rw [all u hu]; exact Nat.le_refl _
        constructor
        · rw [cnt_zero]
          · exact b.symm
          · intro u _
            simp only [inBatch, upd_apply, a]
            by_cases e : u = t
            · simp [e]
            · simp only [if_neg e]
              by_cases hu : s.pc u = .idle
              · simp [hu]
              · have := old u hu; simp; intro _; omega
        · intro u hu
          simp only [upd_apply, a] at hu ⊢
          split
          · omega
          · rename_i e; rw [if_neg e] at hu; rw [all u hu]; exact Nat.le_refl _
        · intro u c _ _; exact ⟨t, by simp⟩
      · obtain ⟨a, b⟩ := next_same (show s.calls % P.n + 1 < P.n by omega)
        constructor
        · simp only [b, ← f1]
          apply cnt_add ht.1
          · intro u hu; simp [inBatch, upd_apply, hu, a]
          · simp [inBatch, ht.2]
          · simp [inBatch, a]
        · intro u hu
          simp only [upd_apply, a] at hu ⊢
          split
          · omega
          · rename_i e; rw [if_neg e] at hu; exact f2 u hu
        · intro u c hu hlt
          simp only [upd_apply, a] at hu hlt
          split at hu
          · rename_i e; rw [if_pos e] at hlt; omega
          · rename_i e; rw [if_neg e] at hlt
            obtain ⟨w, hw⟩ := f3 u c hu hlt
            refine ⟨w, ?_⟩
            simp only [upd_apply]; rw [if_neg]; exact hw
            intro e; rw [e, ht.2] at hw; cases hw
    · simp at hs
  | go t =>
    simp only [step] at hs
    split at hs
    · rename_i ht
      simp only [Option.some.injEq, Prod.mk.injEq] at hs; obtain ⟨rfl, rfl⟩ := hs
      have busy : ∀ u, u ≠ t → (wakeAll s.pc u ≠ .idle ↔ s.pc u ≠ .idle) := by
        intro u _; simp only [wakeAll]; split <;> simp_all
      constructor
      · rw [← f1]
        apply cnt_congr
        intro u _
        simp only [inBatch, wakeAll_upd]
        by_cases e : u = t
        · subst e; have := (h7 u ht).1; simp; intro _; omega
        · simp only [if_neg e, busy u e]
      · intro u hu
        simp only [wakeAll_upd] at hu
        split at hu
        · exact absurd rfl hu
        · rename_i e; exact f2 u ((busy u e).1 hu)
      · intro u c hu
        simp only [wakeAll_upd] at hu
        split at hu
        · cases hu
        · simp only [wakeAll] at hu; split at hu <;> simp_all
    · rename_i c ht
      have hidx := (h6 t c ht).1
      split at hs <;> rename_i hcyc <;> simp only [Option.some.injEq, Prod.mk.injEq] at hs <;> obtain ⟨rfl, rfl⟩ := hs
      · have near := f2 t (by rw [ht]; simp)
        have same : s.calls / P.n ≤ s.idx t / P.n := by
          rcases Nat.lt_or_ge (s.idx t / P.n) (s.calls / P.n) with hlt | hge
          · exfalso
            have e : s.calls / P.n = s.idx t / P.n + 1 := by omega
            rw [h2, e, par_succ, hidx] at hcyc
            cases hp : par (s.idx t / P.n) <;> rw [hp] at hcyc <;> cases hcyc
          · exact hge
        constructor
        · rw [← f1]
          apply cnt_congr
          intro u _
          simp only [inBatch, upd_apply]
          by_cases e : u = t
          · subst e; simp [ht]
          · simp [e]
        · intro u hu
          by_cases e : u = t
          · subst e; exact near
          · simp only [upd_apply, if_neg e] at hu; exact f2 u hu
        · intro u c' hu hlt
          by_cases e : u = t
          · subst e; simp only at hlt; omega
          · simp only [upd_apply, if_neg e] at hu
            obtain ⟨w, hw⟩ := f3 u c' hu hlt
            refine ⟨w, ?_⟩
            simp only [upd_apply]; rw [if_neg]; exact hw
            intro e; rw [e, ht] at hw; cases hw
      · have ne : s.idx t / P.n ≠ s.calls / P.n := by
          apply par_ne; rw [← hidx, ← h2]; exact fun e => hcyc e.symm
        constructor
        · rw [← f1]
          apply cnt_congr
          intro u _
          simp only [inBatch, upd_apply]
          by_cases e : u = t
          · subst e; simp [ne]
          · simp [e]
        · intro u hu
          by_cases e : u = t
          · subst e; simp at hu
          · simp only [upd_apply, if_neg e] at hu; exact f2 u hu
        · intro u c' hu hlt
          by_cases e : u = t
          · subst e; simp at hu
          · simp only [upd_apply, if_neg e] at hu
            obtain ⟨w, hw⟩ := f3 u c' hu hlt
            refine ⟨w, ?_⟩
            simp only [upd_apply]; rw [if_neg]; exact hw
            intro e; rw [e, ht] at hw; cases hw
    · simp at hs
  | wake t =>
    simp only [step] at hs
    split at hs
    · rename_i c ht
      simp only [Option.some.injEq, Prod.mk.injEq] at hs; obtain ⟨rfl, rfl⟩ := hs
      constructor
      · rw [← f1]
        apply cnt_congr
        intro u _
        simp only [inBatch, upd_apply]
        by_cases e : u = t
        · subst e; simp [ht]
        · simp [e]
      · intro u hu
        by_cases e : u = t
        · subst e; exact f2 u (by rw [ht]; simp)
        · simp only [upd_apply, if_neg e] at hu; exact f2 u hu
      · intro u c' hu hlt
        by_cases e : u = t
        · subst e; simp at hu
        · simp only [upd_apply, if_neg e] at hu
          obtain ⟨w, hw⟩ := f3 u c' hu hlt
          refine ⟨w, ?_⟩
          simp only [upd_apply]; rw [if_neg]; exact hw
          intro e; rw [e, ht] at hw; cases hw
    · simp at hs

theorem reach_base {P : Prog} (hn : 0 < P.n) {s : State} {tr : List Obs} (h : Reach (step P) (init P) s tr) : Base P s := by
  induction h with
  | refl => exact base_init P
  | tail e _ he ih => exact base_step hn ih he

theorem reach_few {P : Prog} (hn : 0 < P.n) (hm : P.threads ≤ P.n) {s : State} {tr : List Obs} (h : Reach (step P) (init P) s tr) : Few P s := by
  induction h with
  | refl => exact few_init P
  | tail e hr he ih => exact few_step hn hm (reach_base hn hr) ih he

end Verif.ThreadBarrier
