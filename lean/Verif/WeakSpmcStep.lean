import Verif.WeakSpmcInv

/-!
# The lock-free queue under weak memory: every step keeps the invariant
-/

namespace Verif.WeakSpmc

open Weak

variable {C : Nat → Nat} {m m' : Mem} {T T' L L' : Nat} {E E' : Nat → Nat} {own own' : OPc}

theorem cov_congr {V : View} {i e : Nat} (hA : m'.cur 0 ARR = m.cur 0 ARR)
    (hc : ∀ j, j ≤ m.cur 0 ARR → mine m' (elem j (i % C j)) = mine m (elem j (i % C j)) ∧ m'.cur 0 (elem j (i % C j)) = m.cur 0 (elem j (i % C j)))
    (hd : m'.cur 0 (data e) = m.cur 0 (data e)) (h : Cov C m V i e) : Cov C m' V i e := by
  refine ⟨fun j h1 h2 => ?_, by rw [hd]; exact h.2⟩
  rw [hA] at h2
  obtain ⟨h3, h4⟩ := hc j h2
  rw [h3, h4]
  exact h.1 j h1 h2

/-! ## Storing `bottom_` -/

theorem putBot_cov {V : View} {i e v : Nat} (p : Put m BOT v false m') (h : Cov C m V i e) : Cov C m' V i e :=
  cov_congr (p.there _ arr_ne_bot) (fun j _ => ⟨p.mine _ (elem_ne_bot _ _), p.there _ (elem_ne_bot _ _)⟩) (p.there _ (data_ne_bot _)) h

theorem putBot_core {v : Nat} (h : Core C m T L E) (p : Put m BOT v false m') (hL : L ≤ L') (hE : ∀ i, i < L → E' i = E i)
    (fit : L' ≤ m.cur 0 TOP + C (m.cur 0 ARR))
    (val : ∀ i, T ≤ i → i < L' → mine m (elem (m.cur 0 ARR) (i % C (m.cur 0 ARR))) = E' i + 1)
    (nn : ∀ i, m.cur 0 TOP ≤ i → i < L' → mine m (elem (m.cur 0 ARR) (i % C (m.cur 0 ARR))) ≠ 0)
    (rel : ∀ i, T ≤ i → i < L' → Cov C m (m.rel 0) i (E' i)) (hv : v ≤ L') : Core C m' T L' E' := by
  obtain ⟨g0, hg0, hr0, _, hmsg⟩ := p.msg
  have hA := p.there _ arr_ne_bot
  have hT := p.there TOP (Ne.symm bot_ne_top)
  refine ⟨p.solo, h.top.congr ?_, ?_, ?_, Nat.le_trans h.le hL, ?_, ?_, ?_, ?_, ?_, ?_, ?_⟩
  · rw [hmsg, upd_other _ _ (Ne.symm bot_ne_top)]
  · intro j hj
    rw [hmsg, upd_other _ _ arr_ne_bot]; rw [hA] at hj; exact h.arr j hj
  · intro j k hj; rw [p.there _ (elem_ne_bot _ _)]; rw [hA] at hj; exact h.fresh j k hj
  · exact p.below _ h.below
  · rw [hT, hA]; exact fit
  · intro i h1 h2; rw [hA, p.mine _ (elem_ne_bot _ _)]; exact val i h1 h2
  · intro i h1 h2; rw [hA, p.mine _ (elem_ne_bot _ _)]; rw [hT] at h1; exact nn i h1 h2
  · intro i h1 h2; rw [p.rel]; exact putBot_cov p (rel i h1 h2)
  · intro τ g h1 h2 i h3 h4
    rw [p.sc] at h1
    rw [hmsg, upd_same, upd_apply] at h2
    split at h2
    · have := Option.some.inj h2
      subst this
      rw [hg0] at h4
      exact ⟨by omega, putBot_cov p ((rel i h3 (by omega)).mono (hr0 rfl))⟩
    · obtain ⟨h5, h6⟩ := h.msgs τ g h1 h2 i h3 h4
      rw [hE i h5]
      exact ⟨by omega, putBot_cov p h6⟩
  · rw [p.sc, hT]; exact h.sc

theorem putBot_frame {v w : Nat} (p : Put m BOT v false m') (hw : w ≠ 0) (hL : L ≤ L') (hE : ∀ i, i < L → E' i = E i)
    (rel : ∀ i, T ≤ i → i < L' → Cov C m (m.rel 0) i (E' i)) (hv : v ≤ L') (hown : ∀ b, own' ≠ .popTop b) :
    Frame C m m' own own' T T L L' E E' w where
  cur := p.others w hw
  sc := by rw [p.sc]
  cur0 := by rw [p.there TOP (Ne.symm bot_ne_top)]
  arr := by rw [p.there _ arr_ne_bot]
  top := Nat.le_refl _
  live := fun _ h2 _ => ⟨by omega, hE T h2, fun V hV => putBot_cov p hV, p.there _ (data_ne_bot _), fun j _ => ⟨p.mine _ (elem_ne_bot _ _), p.there _ (elem_ne_bot _ _)⟩⟩
  bot := fun _ τ g h2 h3 => by
    obtain ⟨g0, hg0, hr0, _, hmsg⟩ := p.msg
    rw [hmsg, upd_same, upd_apply] at h2
    split at h2
    · have := Option.some.inj h2
      subst this
      rw [hg0] at h3
      exact .inr ⟨by omega, putBot_cov p ((rel T (Nat.le_refl _) (by omega)).mono (hr0 rfl))⟩
    · exact .inl h2
  own := fun b hb => absurd hb (hown b)

/-! ## Storing an element -/

theorem slot_ne {i c : Nat} (h1 : i < L) (h2 : L < i + C c) (j : Nat) : elem j (i % C j) ≠ elem c (L % C c) := by
  intro he
  obtain ⟨rfl, h3⟩ := elem_inj.1 he
  exact Spmc.mod_ne h1 h2 h3

theorem putSlot_core {x : Nat} (h : Core C m T L E) (p : Put m (elem (m.cur 0 ARR) (L % C (m.cur 0 ARR))) (x + 1) false m')
    (hf : L < m.cur 0 TOP + C (m.cur 0 ARR)) : Core C m' T L E := by
  obtain ⟨g0, hg0, hr0, _, hmsg⟩ := p.msg
  have hA := p.there ARR (Ne.symm (elem_ne_arr _ _))
  have hT := p.there TOP (Ne.symm (elem_ne_top _ _))
  have hoT := h.ownT
  have hcov : ∀ {V i e}, T ≤ i → i < L → Cov C m V i e → Cov C m' V i e := fun h1 h2 hV =>
    cov_congr hA (fun j _ => ⟨p.mine _ (slot_ne h2 (by omega) j), p.there _ (slot_ne h2 (by omega) j)⟩) (p.there _ (data_ne_elem _ _ _)) hV
  refine ⟨p.solo, h.top.congr ?_, ?_, ?_, h.le, ?_, ?_, ?_, ?_, ?_, ?_, ?_⟩
  · rw [hmsg, upd_other _ _ (Ne.symm (elem_ne_top _ _))]
  · intro j hj
    rw [hmsg, upd_other _ _ (Ne.symm (elem_ne_arr _ _))]; rw [hA] at hj; exact h.arr j hj
  · intro j k hj
    rw [hA] at hj
    rw [p.there _ (fun he => by have := (elem_inj.1 he).1; omega)]
    exact h.fresh j k hj
  · exact p.below _ h.below
  · rw [hT, hA]; exact h.fit
  · intro i h1 h2; rw [hA, p.mine _ (slot_ne h2 (by omega) _)]; exact h.val i h1 h2
  · intro i h1 h2
    rw [hT] at h1
    rw [hA, p.mine _ (slot_ne h2 (by omega) _)]; exact h.nonnull i h1 h2
  · intro i h1 h2; rw [p.rel]; exact hcov h1 h2 (h.rel i h1 h2)
  · intro τ g h1 h2 i h3 h4
    rw [p.sc] at h1
    rw [hmsg, upd_other _ _ (Ne.symm (elem_ne_bot _ _))] at h2
    obtain ⟨h5, h6⟩ := h.msgs τ g h1 h2 i h3 h4
    exact ⟨h5, hcov h3 h5 h6⟩
  · rw [p.sc, hT]; exact h.sc

theorem putSlot_frame {x w : Nat} (h : Core C m T L E) (p : Put m (elem (m.cur 0 ARR) (L % C (m.cur 0 ARR))) (x + 1) false m')
    (hf : L < m.cur 0 TOP + C (m.cur 0 ARR)) (hw : w ≠ 0) (hown : ∀ b, own' ≠ .popTop b) : Frame C m m' own own' T T L L E E w where
  cur := p.others w hw
  sc := by rw [p.sc]
  cur0 := by rw [p.there TOP (Ne.symm (elem_ne_top _ _))]
  arr := by rw [p.there _ (Ne.symm (elem_ne_arr _ _))]
  top := Nat.le_refl _
  live := fun _ h2 _ => by
    have hoT := h.ownT
    have hs : ∀ j, mine m' (elem j (T % C j)) = mine m (elem j (T % C j)) ∧ m'.cur 0 (elem j (T % C j)) = m.cur 0 (elem j (T % C j)) :=
      fun j => ⟨p.mine _ (slot_ne h2 (by omega) j), p.there _ (slot_ne h2 (by omega) j)⟩
    exact ⟨h2, rfl, fun V hV => cov_congr (p.there ARR (Ne.symm (elem_ne_arr _ _))) (fun j _ => hs j) (p.there _ (data_ne_elem _ _ _)) hV, p.there _ (data_ne_elem _ _ _), fun j _ => hs j⟩
  bot := fun _ τ g h2 h3 => by
    obtain ⟨g0, hg0, hr0, _, hmsg⟩ := p.msg
    rw [hmsg, upd_other _ _ (Ne.symm (elem_ne_bot _ _))] at h2
    exact .inl h2
  own := fun b hb => absurd hb (hown b)

/-! ## A new array -/

/-- What making array `c + 1` with the elements of `a` does. -/
structure Grown (m : Mem) (c : Nat) (a : Spmc.Arr) (r : Bool) (m' : Mem) : Prop where
  solo : Solo m'
  arr : m'.cur 0 ARR = c + 1
  cur : ∀ y, y ≠ ARR → Atomic y → m'.cur 0 y = m.cur 0 y
  data : ∀ x, m'.cur 0 (data x) = m.cur 0 (data x)
  others : ∀ u, u ≠ 0 → m'.cur u = m.cur u
  rel : m'.rel = m.rel
  sc : m'.sc = m.sc
  top : m'.msg TOP = m.msg TOP
  bot : m'.msg BOT = m.msg BOT
  old : ∀ j, j ≤ c → m'.msg ARR j = m.msg ARR j
  new : ∃ g, m'.msg ARR (c + 1) = some g ∧ g.val = c + 1 ∧ (r = true → m'.last (members (c + 1)) ≤ g.view (members (c + 1)))
  elems : ∀ j k, j ≠ c + 1 → mine m' (elem j k) = mine m (elem j k)
  elem : ∀ k, mine m' (elem (c + 1) k) = enc (a.slot k)
  last : ∀ j, j ≠ c + 1 → m'.last (members j) = m.last (members j)
  lastD : ∀ x, m'.last (WeakSpmc.data x) = m.last (WeakSpmc.data x)
  below : ∀ n, Below m TOP n → Below m' TOP n

theorem build_solo {j : Nat} {a : Spmc.Arr} (h : Solo m) (hf : ∀ k, m.cur 0 (elem j k) = 0) : Solo (build m j a) := by
  have hmsg : ∀ x t, (build m j a).msg x t = m.msg x t ∨ (t = 0 ∧ ∃ k, x = elem j k ∧ (build m j a).msg x t = some ⟨enc (a.slot k), fun _ => 0⟩) := by
    intro x t
    by_cases hx : ∃ k, x = elem j k
    · obtain ⟨k, rfl⟩ := hx
      rw [build_elem]
      by_cases ht : t = 0
      · exact .inr ⟨ht, k, rfl, by rw [if_pos ⟨rfl, ht⟩]⟩
      · exact .inl (by rw [if_neg (fun h => ht h.2)])
    · exact .inl (build_other m j a (fun k hk => hx ⟨k, hk⟩) t)
  refine ⟨fun x hx => ?_, fun x hx t ht => ?_, fun x hx ha => ?_⟩
  · have hb := h.below x hx
    refine ⟨hb.cur, hb.acq, hb.rel, hb.sc, fun y t g hg => ?_⟩
    rcases hmsg y t with h1 | ⟨_, k, _, h1⟩
    · rw [h1] at hg; exact hb.view y t g hg
    · rw [h1] at hg
      rw [← Option.some.inj hg]
      exact Nat.zero_le _
  · rcases hmsg x t with h1 | ⟨h0, _⟩
    · rw [h1]; exact h.newest x hx t ht
    · exact absurd ht (by omega)
  · rcases hmsg x (m.cur 0 x) with h1 | ⟨_, k, _, h1⟩
    · obtain ⟨g, hg⟩ := h.has x hx ha
      exact ⟨g, h1.trans hg⟩
    · exact ⟨_, h1⟩

theorem touch_solo {y : Nat} (hy : ∀ x, Atomic x → x ≠ y) (h : Solo m) : Solo (touch m 0 y).2 := by
  have hc : ∀ x, m.cur 0 x ≤ (touch m 0 y).2.cur 0 x := fun x => by simp only [touch, upd_same]; exact le_join_left _ _ x
  refine ⟨fun x hx => ?_, fun x hx t ht => ?_, fun x hx ha => ?_⟩
  · have hb := (h.below x hx).le (hc x)
    refine ⟨fun w => ?_, fun w => ?_, hb.rel, hb.sc, hb.view⟩
    · by_cases hw : w = 0
      · subst hw; exact Nat.le_refl _
      · have : (touch m 0 y).2.cur w = m.cur w := by simp only [touch, upd_other _ _ hw]
        rw [this]; exact hb.cur w
    · by_cases hw : w = 0
      · subst hw
        simp only [touch, upd_same]
        refine join_le ?_ (le_join_right _ _ x)
        exact Nat.le_trans ((h.below x hx).acq 0) (le_join_left _ _ x)
      · have : (touch m 0 y).2.acq w = m.acq w := by simp only [touch, upd_other _ _ hw]
        rw [this]; exact hb.acq w
  · exact h.newest x hx t (Nat.lt_of_le_of_lt (hc x) ht)
  · have : (touch m 0 y).2.cur 0 x = m.cur 0 x := by
      simp only [touch, upd_same, join_apply, single_apply, if_neg (hy x ha)]
      split <;> omega
    rw [this]
    exact h.has x hx ha

theorem grown_spec {a : Spmc.Arr} {r : Bool} (h : Solo m) (hf : ∀ k, m.cur 0 (elem (m.cur 0 ARR + 1) k) = 0)
    (hp : put (touch (build m (m.cur 0 ARR + 1) a) 0 (members (m.cur 0 ARR + 1))).2 ARR (m.cur 0 ARR + 1) r = some m') : Grown m (m.cur 0 ARR) a r m' := by
  obtain ⟨b, m2, hb2⟩ : ∃ b m2, touch (build m (m.cur 0 ARR + 1) a) 0 (members (m.cur 0 ARR + 1)) = (b, m2) := ⟨_, _, rfl⟩
  have hs2 : Solo m2 := by have := touch_solo (y := members (m.cur 0 ARR + 1)) (fun x hx => members_not_atomic hx _) (build_solo (a := a) h hf); rw [hb2] at this; exact this
  have ht := touch_spec hb2
  have hcur2 : ∀ y, y ≠ members (m.cur 0 ARR + 1) → m2.cur 0 y = m.cur 0 y := by
    intro y ha
    have : m2 = (touch (build m (m.cur 0 ARR + 1) a) 0 (members (m.cur 0 ARR + 1))).2 := by rw [hb2]
    rw [this]
    simp only [touch, upd_same, join_apply, single_apply, if_neg ha, build]
    split <;> omega
  rw [hb2] at hp
  simp only at hp
  have p := put_spec hs2 arr_ne_top hp
  obtain ⟨g0, hg0, _, hc0, hmsg⟩ := p.msg
  have hA := hcur2 ARR (Ne.symm (members_ne_arr _))
  have hm2 : ∀ y, y ≠ ARR → m'.msg y = (build m (m.cur 0 ARR + 1) a).msg y := fun y hy => by rw [hmsg, upd_other _ _ hy, ht.msg]
  have hcur : ∀ y, y ≠ ARR → Atomic y → m'.cur 0 y = m.cur 0 y := fun y hy ha => by rw [p.there y hy, hcur2 y (members_not_atomic ha _)]
  refine ⟨p.solo, by rw [p.here, hA], hcur, fun x => by rw [p.there _ (data_ne_arr _), hcur2 _ (data_ne_members _ _)], fun u hu => by rw [p.others u hu, ht.others u hu]; rfl, by rw [p.rel, ht.rel]; rfl, by rw [p.sc, ht.sc]; rfl,
    ?_, ?_, ?_, ⟨g0, ?_, hg0, ?_⟩, ?_, ?_, ?_, fun x => by rw [p.last, ht.last, upd_other _ _ (data_ne_members _ _)]; rfl, fun n hb => p.below n ?_⟩
  · rw [hm2 _ (Ne.symm arr_ne_top)]
    funext t
    exact build_other _ _ _ (fun k => Ne.symm (elem_ne_top _ _)) t
  · rw [hm2 _ (Ne.symm arr_ne_bot)]
    funext t
    exact build_other _ _ _ (fun k => Ne.symm (elem_ne_bot _ _)) t
  · intro j hj
    rw [hmsg, upd_same, upd_other _ _ (by rw [hA]; omega), ht.msg]
    exact build_other _ _ _ (fun k => Ne.symm (elem_ne_arr _ _)) j
  · rw [hmsg, upd_same, hA, upd_same]
  · intro hr
    refine Nat.le_trans ?_ (hc0 hr _)
    rw [p.last, ht.last, upd_same]
    exact ht.new
  · intro j k hj
    refine mine_congr ?_ (hcur _ (elem_ne_arr _ _) (atomic_elem _ _))
    rw [hm2 _ (elem_ne_arr _ _)]
    funext t
    rw [build_elem, if_neg (fun he => hj he.1)]
  · intro k
    refine mine_eq (g := ⟨enc (a.slot k), fun _ => 0⟩) ?_
    rw [hcur _ (elem_ne_arr _ _) (atomic_elem _ _), hf, hm2 _ (elem_ne_arr _ _), build_elem, if_pos ⟨rfl, rfl⟩]
  · intro j hj
    rw [p.last, ht.last, upd_other _ _ (fun he => hj (members_inj.1 he))]
    rfl
  · have : m2 = (touch (build m (m.cur 0 ARR + 1) a) 0 (members (m.cur 0 ARR + 1))).2 := by rw [hb2]
    have hz : ∀ k, single (members (m.cur 0 ARR + 1)) k TOP ≤ n := fun k => single_le fun he => absurd he (members_ne_top _)
    rw [this]
    refine ⟨fun w => ?_, fun w => ?_, hb.rel, hb.sc, fun y t g1 hg1 => ?_⟩
    · simp only [touch, upd_apply, build]
      split
      · exact join_le (hb.cur 0) (hz _)
      · exact hb.cur w
    · simp only [touch, upd_apply, build]
      split
      · exact join_le (hb.acq 0) (hz _)
      · exact hb.acq w
    · simp only [touch, build] at hg1
      split at hg1
      · rw [← Option.some.inj hg1]; exact Nat.zero_le _
      · exact hb.view y t g1 hg1

/-- The elements of the new array are those of the old one. -/
theorem grown_val {v : Nat} {r : Bool} {a : Spmc.Arr} (g : Grown m (m.cur 0 ARR) (a.grow L v) r m') (hC : C (m.cur 0 ARR + 1) = 2 * C (m.cur 0 ARR))
    (ha : a = { cap := C (m.cur 0 ARR), slot := fun k => dec (mine m (elem (m.cur 0 ARR) k)) }) (hv : v ≤ L) (hf : L ≤ v + C (m.cur 0 ARR))
    {i : Nat} (h1 : v ≤ i) (h2 : i < L) :
    mine m' (elem (m.cur 0 ARR + 1) (i % C (m.cur 0 ARR + 1))) = mine m (elem (m.cur 0 ARR) (i % C (m.cur 0 ARR))) := by
  have hcap : a.cap = C (m.cur 0 ARR) := by rw [ha]
  have hg := Spmc.grow_spec a (b := L) (t := v) hv (by rw [hcap]; omega)
  have h3 := hg.2 i h1 h2
  unfold Spmc.Arr.get at h3
  rw [hg.1, hcap] at h3
  rw [g.elem, hC, h3, ha]
  exact enc_dec _

theorem grow_cov {v : Nat} {r : Bool} {a : Spmc.Arr} (h : Core C m T L E) (g : Grown m (m.cur 0 ARR) (a.grow L v) r m')
    (hC : C (m.cur 0 ARR + 1) = 2 * C (m.cur 0 ARR)) (ha : a = { cap := C (m.cur 0 ARR), slot := fun k => dec (mine m (elem (m.cur 0 ARR) k)) })
    (hv : v ≤ T) (hf : L ≤ v + C (m.cur 0 ARR)) {V : View} {i : Nat} (h1 : T ≤ i) (h2 : i < L) (hV : Cov C m V i (E i)) : Cov C m' V i (E i) := by
  refine ⟨fun j h3 h4 => ?_, by rw [g.data]; exact hV.2⟩
  rw [g.arr] at h4
  by_cases hj : j = m.cur 0 ARR + 1
  · subst hj
    rw [grown_val g hC ha (by have := h.le; omega) hf (by omega) h2, g.cur _ (elem_ne_arr _ _) (atomic_elem _ _), h.fresh _ _ (by omega)]
    exact ⟨h.val i h1 h2, Nat.zero_le _⟩
  · rw [g.elems j _ hj, g.cur _ (elem_ne_arr _ _) (atomic_elem _ _)]
    exact hV.1 j h3 (by omega)

theorem grow_core {v : Nat} {r : Bool} {a : Spmc.Arr} (h : Core C m T L E) (g : Grown m (m.cur 0 ARR) (a.grow L v) r m')
    (hC : C (m.cur 0 ARR + 1) = 2 * C (m.cur 0 ARR)) (ha : a = { cap := C (m.cur 0 ARR), slot := fun k => dec (mine m (elem (m.cur 0 ARR) k)) })
    (hv : v ≤ m.cur 0 TOP) (hf : L ≤ v + C (m.cur 0 ARR)) : Core C m' T L E := by
  have hoT := h.ownT
  have hle := h.le
  have hT := g.cur TOP (Ne.symm arr_ne_top) (.inl rfl)
  refine ⟨g.solo, h.top.congr g.top, ?_, ?_, hle, g.below _ h.below, ?_, ?_, ?_, ?_, ?_, ?_⟩
  · intro j hj
    rw [g.arr] at hj
    by_cases he : j = m.cur 0 ARR + 1
    · obtain ⟨g0, h1, h2, _⟩ := g.new
      rw [he]; exact ⟨g0, h1, h2⟩
    · rw [g.old j (by omega)]; exact h.arr j (by omega)
  · intro j k hj
    rw [g.arr] at hj
    rw [g.cur _ (elem_ne_arr _ _) (atomic_elem _ _)]; exact h.fresh j k (by omega)
  · rw [hT, g.arr, hC]; have := h.fit; omega
  · intro i h1 h2
    rw [g.arr, grown_val g hC ha (by omega) hf (by omega) h2]; exact h.val i h1 h2
  · intro i h1 h2
    rw [hT] at h1
    rw [g.arr, grown_val g hC ha (by omega) hf (by omega) h2]; exact h.nonnull i h1 h2
  · intro i h1 h2; rw [g.rel]; exact grow_cov h g hC ha (by omega) hf h1 h2 (h.rel i h1 h2)
  · intro τ g1 h1 h2 i h3 h4
    rw [g.sc] at h1
    rw [g.bot] at h2
    obtain ⟨h5, h6⟩ := h.msgs τ g1 h1 h2 i h3 h4
    exact ⟨h5, grow_cov h g hC ha (by omega) hf h3 h5 h6⟩
  · rw [g.sc, hT]; exact h.sc

theorem grow_frame {v w : Nat} {r : Bool} {a : Spmc.Arr} (h : Core C m T L E) (g : Grown m (m.cur 0 ARR) (a.grow L v) r m')
    (hC : C (m.cur 0 ARR + 1) = 2 * C (m.cur 0 ARR)) (ha : a = { cap := C (m.cur 0 ARR), slot := fun k => dec (mine m (elem (m.cur 0 ARR) k)) })
    (hv : v ≤ m.cur 0 TOP) (hf : L ≤ v + C (m.cur 0 ARR)) (hw : w ≠ 0) (hown : ∀ b, own' ≠ .popTop b) : Frame C m m' own own' T T L L E E w where
  cur := g.others w hw
  sc := by rw [g.sc]
  cur0 := by rw [g.cur TOP (Ne.symm arr_ne_top) (.inl rfl)]
  arr := by rw [g.arr]; omega
  top := Nat.le_refl _
  live := fun _ h2 _ => by
    have hoT := h.ownT
    refine ⟨h2, rfl, fun V hV => grow_cov h g hC ha (by omega) hf (Nat.le_refl _) h2 hV, g.data _, fun j hj => ⟨g.elems j _ (by omega), ?_⟩⟩
    exact g.cur _ (elem_ne_arr _ _) (atomic_elem _ _)
  bot := fun _ τ g1 h2 h3 => by rw [g.bot] at h2; exact .inl h2
  own := fun b hb => absurd hb (hown b)

/-! ## Running a fiber -/

/-- What writing the fiber `x` does. -/
structure Worked (m : Mem) (x : Nat) (m' : Mem) : Prop where
  solo : Solo m'
  cur : ∀ y, y ≠ data x → m'.cur 0 y = m.cur 0 y
  others : ∀ u, u ≠ 0 → m'.cur u = m.cur u
  msg : m'.msg = m.msg
  rel : m'.rel = m.rel
  sc : m'.sc = m.sc
  last : m'.last = upd m.last (data x) (m.last (data x) + 1)
  new : m.last (data x) + 1 ≤ m'.cur 0 (data x)
  below : ∀ n, Below m TOP n → Below m' TOP n

theorem work_spec {x : Nat} (h : Solo m) : Worked m x (touch m 0 (data x)).2 := by
  obtain ⟨b, m2, hb2⟩ : ∃ b m2, touch m 0 (data x) = (b, m2) := ⟨_, _, rfl⟩
  have ht := touch_spec hb2
  have hs2 := touch_solo (y := data x) (fun y hy => data_not_atomic hy x) h
  have he : (touch m 0 (data x)).2 = m2 := by rw [hb2]
  have hcur : ∀ y, y ≠ data x → (touch m 0 (data x)).2.cur 0 y = m.cur 0 y := by
    intro y hy
    simp only [touch, upd_same, join_apply, single_apply, if_neg hy]
    split <;> omega
  have hbel : ∀ n, Below m TOP n → Below (touch m 0 (data x)).2 TOP n := by
    intro n hb
    have hz : ∀ k, single (data x) k TOP ≤ n := fun k => single_le fun he => absurd he (data_ne_top _)
    refine ⟨fun w => ?_, fun w => ?_, hb.rel, hb.sc, hb.view⟩
    · simp only [touch, upd_apply]
      split
      · exact join_le (hb.cur 0) (hz _)
      · exact hb.cur w
    · simp only [touch, upd_apply]
      split
      · exact join_le (hb.acq 0) (hz _)
      · exact hb.acq w
  rw [he] at hs2 hcur hbel ⊢
  exact ⟨hs2, hcur, ht.others, ht.msg, ht.rel, ht.sc, ht.last, ht.new, hbel⟩

theorem Worked.mine {x y : Nat} (w : Worked m x m') (hy : y ≠ data x) : mine m' y = mine m y := mine_congr (by rw [w.msg]) (w.cur y hy)

theorem work_cov {x i e : Nat} {V : View} (w : Worked m x m') (he : e ≠ x) (h : Cov C m V i e) : Cov C m' V i e :=
  cov_congr (w.cur _ (Ne.symm (data_ne_arr _))) (fun _ _ => ⟨w.mine (Ne.symm (data_ne_elem _ _ _)), w.cur _ (Ne.symm (data_ne_elem _ _ _))⟩)
    (w.cur _ fun h => he (data_inj.1 h)) h

theorem work_core {x : Nat} (h : Core C m T L E) (w : Worked m x m') (hx : ∀ i, T ≤ i → i < L → E i ≠ x) : Core C m' T L E := by
  have hA := w.cur _ (Ne.symm (data_ne_arr _))
  have hT := w.cur _ (Ne.symm (data_ne_top _))
  have hm : ∀ j k, WeakSpmc.mine m' (elem j k) = WeakSpmc.mine m (elem j k) := fun j k => w.mine (Ne.symm (data_ne_elem _ _ _))
  refine ⟨w.solo, h.top.congr (by rw [w.msg]), ?_, ?_, h.le, w.below _ h.below, ?_, ?_, ?_, ?_, ?_, ?_⟩
  · rw [hA, w.msg]; exact h.arr
  · intro j k hj; rw [hA] at hj; rw [w.cur _ (Ne.symm (data_ne_elem _ _ _))]; exact h.fresh j k hj
  · rw [hT, hA]; exact h.fit
  · intro i h1 h2; rw [hA, hm]; exact h.val i h1 h2
  · intro i h1 h2; rw [hA, hm]; rw [hT] at h1; exact h.nonnull i h1 h2
  · intro i h1 h2; rw [w.rel]; exact work_cov w (hx i h1 h2) (h.rel i h1 h2)
  · intro τ g h1 h2 i h3 h4
    rw [w.sc] at h1
    rw [w.msg] at h2
    obtain ⟨h5, h6⟩ := h.msgs τ g h1 h2 i h3 h4
    exact ⟨h5, work_cov w (hx i h3 h5) h6⟩
  · rw [w.sc, hT]; exact h.sc

theorem work_frame {x u : Nat} (w : Worked m x m') (hx : ∀ i, T ≤ i → i < L → E i ≠ x) (hu : u ≠ 0) (hown : ∀ b, own' ≠ .popTop b) :
    Frame C m m' own own' T T L L E E u where
  cur := w.others u hu
  sc := by rw [w.sc]
  cur0 := by rw [w.cur _ (Ne.symm (data_ne_top _))]
  arr := by rw [w.cur _ (Ne.symm (data_ne_arr _))]
  top := Nat.le_refl _
  live := fun _ h2 _ => ⟨h2, rfl, fun V hV => work_cov w (hx T (Nat.le_refl _) h2) hV, w.cur _ fun h => hx T (Nat.le_refl _) h2 (data_inj.1 h),
    fun j _ => ⟨w.mine (Ne.symm (data_ne_elem _ _ _)), w.cur _ (Ne.symm (data_ne_elem _ _ _))⟩⟩
  bot := fun _ τ g h2 h3 => by rw [w.msg] at h2; exact .inl h2
  own := fun b hb => absurd hb (hown b)

/-! ## Contents -/

/-- The contents of the queue, oldest first. -/
def content (T L : Nat) (E : Nat → Nat) : List Nat := (List.range' T (L - T)).map E

theorem content_push (h : T ≤ L) (x : Nat) : content T (L + 1) (upd E L x) = content T L E ++ [x] := by
  have h1 : L + 1 - T = (L - T) + 1 := by omega
  unfold content
  rw [h1, List.range'_1_concat, List.map_append, List.map_cons, List.map_nil, show T + (L - T) = L by omega, upd_same]
  congr 1
  refine List.map_congr_left fun i hi => ?_
  rw [List.mem_range'_1] at hi
  exact upd_other _ _ (by omega)

theorem content_pop (h : T ≤ L) : content T (L + 1) E = content T L E ++ [E L] := by
  have h1 : L + 1 - T = (L - T) + 1 := by omega
  unfold content
  rw [h1, List.range'_1_concat, List.map_append, List.map_cons, List.map_nil, show T + (L - T) = L by omega]

theorem content_steal (h : T < L) : content T L E = E T :: content (T + 1) L E := by
  have h1 : L - T = (L - (T + 1)) + 1 := by omega
  unfold content
  rw [h1, List.range'_succ, List.map_cons]

theorem mem_content {i : Nat} (h1 : T ≤ i) (h2 : i < L) : E i ∈ content T L E := by
  unfold content
  exact List.mem_map_of_mem (List.mem_range'_1.2 ⟨h1, by omega⟩)

theorem content_empty (h : L ≤ T) : content T L E = [] := by
  unfold content
  rw [show L - T = 0 by omega]
  rfl

end Verif.WeakSpmc
