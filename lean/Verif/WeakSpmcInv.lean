import Verif.WeakSpmcMem

/-!
# Invariant of the lock-free queue under weak memory

`T` is the number of elements taken at the top, `L` the end of the queue according to the operations that have taken effect, `E i` the
element with index `i`; the queue holds the indices `T ≤ i < L`. `C j` is the capacity of array `j`.
-/

namespace Verif.WeakSpmc

open Weak

variable {C : Nat → Nat} {m m' : Mem} {T T' L L' : Nat} {E E' : Nat → Nat} {own own' : OPc}

/-- Whoever has view `V` finds `e` under index `i`, whichever array and whichever message it reads, and has seen what `e` did. -/
def Cov (C : Nat → Nat) (m : Mem) (V : View) (i e : Nat) : Prop :=
  (∀ j, V ARR ≤ j → j ≤ m.cur 0 ARR → mine m (elem j (i % C j)) = e + 1 ∧ m.cur 0 (elem j (i % C j)) ≤ V (elem j (i % C j))) ∧
    m.cur 0 (data e) ≤ V (data e)

theorem Cov.mono {V V' : View} {i e : Nat} (h : Cov C m V i e) (hv : ∀ y, V y ≤ V' y) : Cov C m V' i e :=
  ⟨fun j h1 h2 => ⟨(h.1 j (Nat.le_trans (hv _) h1) h2).1, Nat.le_trans (h.1 j (Nat.le_trans (hv _) h1) h2).2 (hv _)⟩, Nat.le_trans h.2 (hv _)⟩

structure Core (C : Nat → Nat) (m : Mem) (T L : Nat) (E : Nat → Nat) : Prop where
  solo : Solo m
  top : Top m T
  arr : ∀ j, j ≤ m.cur 0 ARR → ∃ g, m.msg ARR j = some g ∧ g.val = j
  fresh : ∀ j k, m.cur 0 ARR < j → m.cur 0 (elem j k) = 0
  le : T ≤ L
  below : Below m TOP T
  fit : L ≤ m.cur 0 TOP + C (m.cur 0 ARR)
  val : ∀ i, T ≤ i → i < L → mine m (elem (m.cur 0 ARR) (i % C (m.cur 0 ARR))) = E i + 1
  nonnull : ∀ i, m.cur 0 TOP ≤ i → i < L → mine m (elem (m.cur 0 ARR) (i % C (m.cur 0 ARR))) ≠ 0
  rel : ∀ i, T ≤ i → i < L → Cov C m (m.rel 0) i (E i)
  msgs : ∀ τ g, m.sc BOT ≤ τ → m.msg BOT τ = some g → ∀ i, T ≤ i → i < g.val → i < L ∧ Cov C m g.view i (E i)
  sc : T ≤ m.sc TOP + 1 ∨ T ≤ m.cur 0 TOP

theorem Core.ownT (h : Core C m T L E) : m.cur 0 TOP ≤ T := h.below.cur 0

theorem Core.mineArr (h : Core C m T L E) : mine m ARR = m.cur 0 ARR := by
  obtain ⟨g, h1, h2⟩ := h.arr _ (Nat.le_refl _)
  rw [mine_eq h1, h2]

theorem Core.cov (h : Core C m T L E) {i : Nat} (h1 : T ≤ i) (h2 : i < L) : Cov C m (m.cur 0) i (E i) := by
  refine ⟨fun j h3 h4 => ?_, Nat.le_refl _⟩
  have : j = m.cur 0 ARR := Nat.le_antisymm h4 h3
  subst this
  exact ⟨h.val i h1 h2, Nat.le_refl _⟩

/-- What the owner's position tells. -/
def Own (C : Nat → Nat) (m : Mem) (T L : Nat) (E : Nat → Nat) : OPc → Prop
  | .idle => mine m BOT = L
  | .pushTop _ => mine m BOT = L
  | .pushGrow _ v => mine m BOT = L ∧ v ≤ m.cur 0 TOP ∧ L ≤ v + C (m.cur 0 ARR)
  | .pushSlot _ => mine m BOT = L ∧ L < m.cur 0 TOP + C (m.cur 0 ARR)
  | .pushFence x => mine m BOT = L ∧ L < m.cur 0 TOP + C (m.cur 0 ARR) ∧ mine m (elem (m.cur 0 ARR) (L % C (m.cur 0 ARR))) = x + 1
  | .pushBot x => (mine m BOT = L ∧ L < m.cur 0 TOP + C (m.cur 0 ARR) ∧ mine m (elem (m.cur 0 ARR) (L % C (m.cur 0 ARR))) = x + 1) ∧
      ∀ y, y ≠ TOP → m.cur 0 y ≤ m.rel 0 y
  | .popFence b => mine m BOT = b ∧ L = b + 1
  | .popTop b => mine m BOT = b ∧ L = b + 1 ∧ m.cur 0 BOT ≤ m.sc BOT ∧ (T = b + 1 → b ≤ m.cur 0 TOP)
  | .popCas b x => mine m BOT = b ∧ L = b + 1 ∧ b ≤ m.cur 0 TOP ∧ (T = b → x = E b)
  | .popFix b => mine m BOT = b ∧ L = b + 1 ∧ T = b + 1

/-- The owner will not take index `t` without compare-exchange: it will see that `top_` has reached `t`, or takes a greater index. -/
def Prot (m : Mem) (own : OPc) (t : Nat) : Prop := ∀ b, own = .popTop b → t ≤ m.cur 0 TOP ∨ t < b

/-- What the position of the thief (thread `w`) tells. -/
def Thf (C : Nat → Nat) (m : Mem) (own : OPc) (T L : Nat) (E : Nat → Nat) (w : Nat) : TPc → Prop
  | .idle => True
  | .fence t => t ≤ T ∧ t ≤ m.cur w TOP
  | .bot t => t ≤ T ∧ t ≤ m.sc TOP ∧ (∀ b, own = .popTop b → t ≤ m.cur 0 TOP ∨ m.cur 0 BOT ≤ m.cur w BOT) ∧
      (T = t → ∀ τ g, m.cur w BOT ≤ τ → m.msg BOT τ = some g → t < g.val → t < L ∧ Cov C m g.view t (E t))
  | .arr t => t ≤ T ∧ t ≤ m.sc TOP ∧ (T = t → t < L ∧ Cov C m (m.cur w) t (E t) ∧ Prot m own t)
  | .read t j => t ≤ T ∧ t ≤ m.sc TOP ∧ (T = t → t < L ∧ Prot m own t ∧ j ≤ m.cur 0 ARR ∧ mine m (elem j (t % C j)) = E t + 1 ∧
      m.cur 0 (elem j (t % C j)) ≤ m.cur w (elem j (t % C j)) ∧ m.cur 0 (data (E t)) ≤ m.cur w (data (E t)))
  | .pin t x => t ≤ T ∧ t ≤ m.sc TOP ∧ (T = t → t < L ∧ Prot m own t ∧ x = E t ∧ m.cur 0 (data (E t)) ≤ m.cur w (data (E t)))
  | .cas t x => t ≤ T ∧ t ≤ m.sc TOP ∧ (T = t → t < L ∧ Prot m own t ∧ x = E t ∧ m.cur 0 (data (E t)) ≤ m.cur w (data (E t)))

/-! ## Steps that leave thief `w` alone -/

structure Frame (C : Nat → Nat) (m m' : Mem) (own own' : OPc) (T T' L L' : Nat) (E E' : Nat → Nat) (w : Nat) : Prop where
  cur : m'.cur w = m.cur w
  sc : m.sc TOP ≤ m'.sc TOP
  cur0 : m.cur 0 TOP ≤ m'.cur 0 TOP
  arr : m.cur 0 ARR ≤ m'.cur 0 ARR
  top : T ≤ T'
  live : T' = T → T < L → Prot m own T → T < L' ∧ E' T = E T ∧ (∀ V, Cov C m V T (E T) → Cov C m' V T (E T)) ∧
    m'.cur 0 (data (E T)) = m.cur 0 (data (E T)) ∧ ∀ j, j ≤ m.cur 0 ARR → mine m' (elem j (T % C j)) = mine m (elem j (T % C j)) ∧ m'.cur 0 (elem j (T % C j)) = m.cur 0 (elem j (T % C j))
  bot : T' = T → ∀ τ g, m'.msg BOT τ = some g → T < g.val → m.msg BOT τ = some g ∨ (T < L' ∧ Cov C m' g.view T (E' T))
  own : ∀ b, own' = .popTop b → (own = .popTop b ∧ m'.cur 0 BOT = m.cur 0 BOT) ∨ m.sc TOP ≤ m'.cur 0 TOP

theorem Prot.frame {w t : Nat} (f : Frame C m m' own own' T T' L L' E E' w) (ht : t ≤ m.sc TOP) (h : Prot m own t) : Prot m' own' t := by
  intro b hb
  rcases f.own b hb with ⟨h1, _⟩ | h1
  · rcases h b h1 with h2 | h2
    · exact .inl (Nat.le_trans h2 f.cur0)
    · exact .inr h2
  · exact .inl (Nat.le_trans ht h1)

/-- Having read `bottom_`, the thief is protected. -/
theorem bot_prot {w t τ : Nat} {g : Msg} (hs : Solo m) (hown : Own C m T L E own)
    (h : ∀ b, own = .popTop b → t ≤ m.cur 0 TOP ∨ m.cur 0 BOT ≤ m.cur w BOT) (h1 : m.cur w BOT ≤ τ) (h2 : m.msg BOT τ = some g) (h3 : t < g.val) :
    Prot m own t := by
  intro b hb
  rcases h b hb with h4 | h4
  · exact .inl h4
  · have := hs.val_newest bot_ne_top h2 (Nat.le_trans h4 h1)
    subst hb
    rw [this, hown.1] at h3
    exact .inr h3

theorem Thf.frame {w : Nat} {pc : TPc} (f : Frame C m m' own own' T T' L L' E E' w) (hs : Solo m) (hown : Own C m T L E own)
    (h : Thf C m own T L E w pc) : Thf C m' own' T' L' E' w pc := by
  have top : ∀ {t}, t ≤ T → T' = t → T' = T ∧ T = t := fun h1 h2 => by have := f.top; omega
  cases pc with
  | idle => trivial
  | fence t => exact ⟨Nat.le_trans h.1 f.top, by rw [f.cur]; exact h.2⟩
  | bot t =>
    obtain ⟨h1, h2, h3, h4⟩ := h
    refine ⟨Nat.le_trans h1 f.top, Nat.le_trans h2 f.sc, fun b hb => ?_, fun hT τ g hτ hg hv => ?_⟩
    · rcases f.own b hb with ⟨h5, h6⟩ | h5
      · rcases h3 b h5 with h7 | h7
        · exact .inl (Nat.le_trans h7 f.cur0)
        · rw [h6, f.cur]; exact .inr h7
      · exact .inl (Nat.le_trans h2 h5)
    · obtain ⟨hT1, rfl⟩ := top h1 hT
      rw [f.cur] at hτ
      rcases f.bot hT1 τ g hg hv with h5 | h5
      · obtain ⟨h6, h7⟩ := h4 rfl τ g hτ h5 hv
        obtain ⟨h8, h9, h10, _⟩ := f.live hT1 h6 (bot_prot hs hown h3 hτ h5 hv)
        rw [h9]
        exact ⟨h8, h10 _ h7⟩
      · exact h5
  | arr t =>
    obtain ⟨h1, h2, h3⟩ := h
    refine ⟨Nat.le_trans h1 f.top, Nat.le_trans h2 f.sc, fun hT => ?_⟩
    obtain ⟨hT1, rfl⟩ := top h1 hT
    obtain ⟨h4, h5, h6⟩ := h3 rfl
    obtain ⟨h7, h8, h9, _⟩ := f.live hT1 h4 h6
    rw [h8, f.cur]
    exact ⟨h7, h9 _ h5, h6.frame f h2⟩
  | read t j =>
    obtain ⟨h1, h2, h3⟩ := h
    refine ⟨Nat.le_trans h1 f.top, Nat.le_trans h2 f.sc, fun hT => ?_⟩
    obtain ⟨hT1, rfl⟩ := top h1 hT
    obtain ⟨h4, h6, h5, h10, h11, h14⟩ := h3 rfl
    obtain ⟨h7, h8, _, h15, h9⟩ := f.live hT1 h4 h6
    obtain ⟨h12, h13⟩ := h9 j h5
    rw [h8, f.cur, h12, h13, h15]
    exact ⟨h7, h6.frame f h2, Nat.le_trans h5 f.arr, h10, h11, h14⟩
  | pin t x =>
    obtain ⟨h1, h2, h3⟩ := h
    refine ⟨Nat.le_trans h1 f.top, Nat.le_trans h2 f.sc, fun hT => ?_⟩
    obtain ⟨hT1, rfl⟩ := top h1 hT
    obtain ⟨h4, h6, h5, h10⟩ := h3 rfl
    obtain ⟨h7, h8, _, h9, _⟩ := f.live hT1 h4 h6
    rw [h8, f.cur, h9]
    exact ⟨h7, h6.frame f h2, h5, h10⟩
  | cas t x =>
    obtain ⟨h1, h2, h3⟩ := h
    refine ⟨Nat.le_trans h1 f.top, Nat.le_trans h2 f.sc, fun hT => ?_⟩
    obtain ⟨hT1, rfl⟩ := top h1 hT
    obtain ⟨h4, h6, h5, h10⟩ := h3 rfl
    obtain ⟨h7, h8, _, h9, _⟩ := f.live hT1 h4 h6
    rw [h8, f.cur, h9]
    exact ⟨h7, h6.frame f h2, h5, h10⟩

/-! ## Steps that change nothing but `top_` and views -/

structure Quiet (m m' : Mem) : Prop where
  solo : Solo m'
  msg : ∀ y, y ≠ TOP → m'.msg y = m.msg y
  cur : ∀ y, y ≠ TOP → m'.cur 0 y = m.cur 0 y
  top : m.cur 0 TOP ≤ m'.cur 0 TOP
  sc : ∀ y, m.sc y ≤ m'.sc y

theorem Quiet.mine (q : Quiet m m') {y : Nat} (hy : y ≠ TOP) : mine m' y = mine m y := mine_congr (q.msg y hy) (q.cur y hy)

theorem Quiet.cov (q : Quiet m m') {V : View} {i e : Nat} : Cov C m' V i e ↔ Cov C m V i e := by
  unfold Cov
  simp only [q.cur ARR arr_ne_top, q.mine (elem_ne_top _ _), q.cur _ (elem_ne_top _ _), q.cur _ (data_ne_top _)]

theorem Quiet.core (q : Quiet m m') (h : Core C m T L E) (ht : Top m' T') (hT : T ≤ T') (hTL : T' ≤ L') (hL : L' ≤ L) (h0 : Below m' TOP T')
    (hrel : ∀ i, T' ≤ i → i < L' → Cov C m (m'.rel 0) i (E i))
    (hm : ∀ τ g, m'.sc BOT ≤ τ → m.msg BOT τ = some g → ∀ i, T' ≤ i → i < g.val → i < L → i < L')
    (hsc : T' ≤ m'.sc TOP + 1 ∨ T' ≤ m'.cur 0 TOP) : Core C m' T' L' E where
  solo := q.solo
  top := ht
  arr := fun j hj => by rw [q.msg _ arr_ne_top]; rw [q.cur _ arr_ne_top] at hj; exact h.arr j hj
  fresh := fun j k hj => by rw [q.cur _ (elem_ne_top _ _)]; rw [q.cur _ arr_ne_top] at hj; exact h.fresh j k hj
  le := hTL
  below := h0
  fit := by rw [q.cur _ arr_ne_top]; have := h.fit; have := q.top; omega
  val := fun i h1 h2 => by rw [q.cur _ arr_ne_top, q.mine (elem_ne_top _ _)]; exact h.val i (by omega) (by omega)
  nonnull := fun i h1 h2 => by rw [q.cur _ arr_ne_top, q.mine (elem_ne_top _ _)]; exact h.nonnull i (Nat.le_trans q.top h1) (by omega)
  rel := fun i h1 h2 => q.cov.2 (hrel i h1 h2)
  msgs := fun τ g h1 h2 i h3 h4 => by
    rw [q.msg _ bot_ne_top] at h2
    obtain ⟨h5, h6⟩ := h.msgs τ g (Nat.le_trans (q.sc _) h1) h2 i (by omega) h4
    exact ⟨hm τ g h1 h2 i h3 h4 h5, q.cov.2 h6⟩
  sc := hsc

theorem Quiet.frame {w : Nat} (q : Quiet m m') (hw : m'.cur w = m.cur w) (hT : T ≤ T') (hlive : T' = T → T < L → Prot m own T → T < L')
    (hown : ∀ b, own' = .popTop b → own = .popTop b ∨ m.sc TOP ≤ m'.cur 0 TOP) : Frame C m m' own own' T T' L L' E E w where
  cur := hw
  sc := q.sc _
  cur0 := q.top
  arr := by rw [q.cur _ arr_ne_top]
  top := hT
  live := fun h1 h2 h3 => ⟨hlive h1 h2 h3, rfl, fun V hV => q.cov.2 hV, q.cur _ (data_ne_top _), fun j _ => ⟨q.mine (elem_ne_top _ _), q.cur _ (elem_ne_top _ _)⟩⟩
  bot := fun _ τ g h2 _ => .inl (by rw [q.msg _ bot_ne_top] at h2; exact h2)
  own := fun b hb => (hown b hb).imp (fun h => ⟨h, q.cur _ bot_ne_top⟩) id

/-- The owner's clause, if its own view of `top_` does not change. -/
theorem Quiet.owner (q : Quiet m m') (hoT : m.cur 0 TOP ≤ T) (h0 : m'.cur 0 TOP = m.cur 0 TOP) (hr : m'.rel 0 = m.rel 0) (hT : T ≤ T') (hTL : T' ≤ L)
    (hp : ∀ b, own = .popTop b → T' = b + 1 → b ≤ m.cur 0 TOP) (h : Own C m T L E own) : Own C m' T' L E own := by
  have hb := q.mine bot_ne_top
  have ha := q.cur _ arr_ne_top
  have hcb := q.cur _ bot_ne_top
  cases own with
  | idle => exact hb.trans h
  | pushTop x => exact hb.trans h
  | pushGrow x v => simp only [Own, hb, h0, ha]; exact h
  | pushSlot x => simp only [Own, hb, h0, ha]; exact h
  | pushFence x => simp only [Own, hb, h0, ha, q.mine (elem_ne_top _ _)]; exact h
  | pushBot x =>
    simp only [Own, hb, h0, ha, q.mine (elem_ne_top _ _), hr]
    exact ⟨h.1, fun y hy => by rw [q.cur y hy]; exact h.2 y hy⟩
  | popFence b => simp only [Own, hb]; exact h
  | popTop b =>
    simp only [Own, hb, h0, hcb]
    exact ⟨h.1, h.2.1, Nat.le_trans h.2.2.1 (q.sc _), hp b rfl⟩
  | popCas b x =>
    simp only [Own, hb, h0]
    obtain ⟨h1, h2, h3, h4⟩ := h
    exact ⟨h1, h2, h3, fun h5 => h4 (by omega)⟩
  | popFix b =>
    simp only [Own, hb]
    obtain ⟨h1, h2, h3⟩ := h
    exact ⟨h1, h2, by omega⟩

end Verif.WeakSpmc
