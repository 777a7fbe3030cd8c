import Verif.WeakSpmc

/-!
# The memory of the lock-free queue

`top_` is changed by read-modify-writes only; everything else is written by the owner only (`Solo`).
-/

namespace Verif.WeakSpmc

open Weak

/-! ## Locations -/

theorem elem_inj {j k j' k' : Nat} : elem j k = elem j' k' ↔ j = j' ∧ k = k' := by
  constructor
  · intro h
    have h1 : Nat.pair j k = Nat.pair j' k' := by unfold elem at h; omega
    exact Nat.pair_eq_pair.1 h1
  · rintro ⟨rfl, rfl⟩; rfl

theorem elem_ne_top (j k : Nat) : elem j k ≠ TOP := by unfold elem TOP; omega
theorem elem_ne_bot (j k : Nat) : elem j k ≠ BOT := by unfold elem BOT; omega
theorem elem_ne_arr (j k : Nat) : elem j k ≠ ARR := by unfold elem ARR; omega
theorem elem_ne_members (j k l : Nat) : elem j k ≠ members l := by unfold elem members; omega
theorem bot_ne_top : BOT ≠ TOP := by decide
theorem arr_ne_top : ARR ≠ TOP := by decide
theorem arr_ne_bot : ARR ≠ BOT := by decide
theorem members_ne_top (j : Nat) : members j ≠ TOP := by unfold members TOP; omega
theorem members_ne_bot (j : Nat) : members j ≠ BOT := by unfold members BOT; omega
theorem members_ne_arr (j : Nat) : members j ≠ ARR := by unfold members ARR; omega
theorem data_ne_top (x : Nat) : data x ≠ TOP := by unfold data TOP; omega
theorem data_ne_bot (x : Nat) : data x ≠ BOT := by unfold data BOT; omega
theorem data_ne_arr (x : Nat) : data x ≠ ARR := by unfold data ARR; omega
theorem data_ne_elem (x j k : Nat) : data x ≠ elem j k := by unfold data elem; omega
theorem data_ne_members (x j : Nat) : data x ≠ members j := by unfold data members; omega
theorem data_inj {x y : Nat} : data x = data y ↔ x = y := by unfold data; omega
theorem members_inj {j k : Nat} : members j = members k ↔ j = k := by unfold members; omega

/-- `x` is not one of the non-atomic locations. -/
def Atomic (x : Nat) : Prop := x % 2 = 0 ∨ x = 1

theorem atomic_elem (j k : Nat) : Atomic (elem j k) := by unfold Atomic elem; omega
theorem atomic_bot : Atomic BOT := .inr rfl
theorem atomic_arr : Atomic ARR := .inl rfl
theorem members_not_atomic {x : Nat} (h : Atomic x) (j : Nat) : x ≠ members j := by unfold Atomic at h; unfold members; omega

theorem data_not_atomic {y : Nat} (h : Atomic y) (x : Nat) : y ≠ data x := by unfold Atomic at h; unfold data; omega

theorem dec_enc (x : Option Nat) : dec (enc x) = x := by cases x <;> rfl
theorem enc_dec (n : Nat) : enc (dec n) = n := by cases n <;> rfl

/-! ## Bounds -/

/-- No view contains a timestamp greater than `n` for location `x`. -/
structure Below (m : Mem) (x n : Nat) : Prop where
  cur : ∀ w, m.cur w x ≤ n
  acq : ∀ w, m.acq w x ≤ n
  rel : ∀ w, m.rel w x ≤ n
  sc : m.sc x ≤ n
  view : ∀ y t g, m.msg y t = some g → g.view x ≤ n

theorem single_le {x t y n : Nat} (h : x = y → t ≤ n) : single x t y ≤ n := by
  rw [single_apply]
  split
  · rename_i he; exact h he.symm
  · omega

theorem Below.le {m : Mem} {x n n' : Nat} (h : Below m x n) (hn : n ≤ n') : Below m x n' :=
  ⟨fun w => Nat.le_trans (h.cur w) hn, fun w => Nat.le_trans (h.acq w) hn, fun w => Nat.le_trans (h.rel w) hn, Nat.le_trans h.sc hn,
    fun y t g hg => Nat.le_trans (h.view y t g hg) hn⟩

theorem Below.load {m m' : Mem} {w x y t v n : Nat} {a : Bool} (h : Below m y n) (hl : Weak.load m w x t a = some (v, m')) (ht : x = y → t ≤ n) :
    Below m' y n := by
  unfold Weak.load at hl
  split at hl
  case isFalse => cases hl
  split at hl
  · cases hl
  · rename_i g hg
    simp only [Option.some.injEq, Prod.mk.injEq] at hl
    obtain ⟨rfl, rfl⟩ := hl
    have hv := h.view _ _ _ hg
    refine ⟨fun u => ?_, fun u => ?_, h.rel, h.sc, h.view⟩
    · simp only [upd_apply]
      split
      · refine join_le (join_le (h.cur w) (single_le ht)) ?_
        cases a <;> simp [hv]
      · exact h.cur u
    · simp only [upd_apply]
      split
      · exact join_le (join_le (h.acq w) (single_le ht)) hv
      · exact h.acq u

theorem Below.store {m m' : Mem} {w x y t v n : Nat} {r : Bool} (h : Below m y n) (hl : Weak.store m w x t v r = some m') (ht : x = y → t ≤ n) :
    Below m' y n := by
  unfold Weak.store at hl
  split at hl
  case isFalse => cases hl
  simp only [Option.some.injEq] at hl
  subst hl
  have hc : join (m.cur w) (single x t) y ≤ n := join_le (h.cur w) (single_le ht)
  refine ⟨fun u => ?_, fun u => ?_, h.rel, h.sc, fun z s g hg => ?_⟩
  · simp only [upd_apply]
    split
    · exact hc
    · exact h.cur u
  · simp only [upd_apply]
    split
    · exact join_le (h.acq w) (single_le ht)
    · exact h.acq u
  · simp only at hg
    by_cases hz : z = x
    · subst hz
      rw [upd_same, upd_apply] at hg
      by_cases hk : s = t
      · rw [if_pos hk] at hg
        have := Option.some.inj hg
        subst this
        refine join_le ?_ (single_le ht)
        cases r
        · simpa using h.rel w
        · simpa using hc
      · rw [if_neg hk] at hg; exact h.view _ _ _ hg
    · rw [upd_other _ _ hz] at hg; exact h.view _ _ _ hg

theorem Below.rmw {m m' : Mem} {w x y t v n : Nat} {f : Nat → Nat} {a r : Bool} (h : Below m y n) (hl : Weak.rmw m w x t f a r = some (v, m'))
    (ht : x = y → t + 1 ≤ n) : Below m' y n := by
  unfold Weak.rmw at hl
  split at hl
  case isFalse => cases hl
  split at hl
  · cases hl
  · rename_i g hg
    simp only [Option.some.injEq, Prod.mk.injEq] at hl
    obtain ⟨rfl, rfl⟩ := hl
    have hv := h.view _ _ _ hg
    have hs : ∀ k, k ≤ t + 1 → single x k y ≤ n := fun k hk => single_le fun he => Nat.le_trans hk (ht he)
    have hc : join (join (join (m.cur w) (single x t)) (if a = true then g.view else fun _ => 0)) (single x (t + 1)) y ≤ n := by
      refine join_le (join_le (join_le (h.cur w) (hs t (by omega))) ?_) (hs _ (Nat.le_refl _))
      cases a <;> simp [hv]
    refine ⟨fun u => ?_, fun u => ?_, h.rel, h.sc, fun z s g' hg' => ?_⟩
    · simp only [upd_apply]
      split
      · exact hc
      · exact h.cur u
    · simp only [upd_apply]
      split
      · exact join_le (join_le (join_le (h.acq w) (hs _ (by omega))) hv) (hs _ (Nat.le_refl _))
      · exact h.acq u
    · simp only at hg'
      by_cases hz : z = x
      · subst hz
        rw [upd_same, upd_apply] at hg'
        by_cases hk : s = t + 1
        · rw [if_pos hk] at hg'
          have := Option.some.inj hg'
          subst this
          refine join_le hv (join_le ?_ (hs _ (Nat.le_refl _)))
          cases r
          · simpa using h.rel w
          · simpa using hc
        · rw [if_neg hk] at hg'; exact h.view _ _ _ hg'
      · rw [upd_other _ _ hz] at hg'; exact h.view _ _ _ hg'

theorem Below.cas {m m' : Mem} {w x y t e k v n : Nat} {a r fa b : Bool} (h : Below m y n) (hl : Weak.cas m w x t e k a r fa = some (b, v, m'))
    (ht : x = y → t + (if b then 1 else 0) ≤ n) : Below m' y n := by
  unfold Weak.cas at hl
  split at hl
  · cases hl
  · split at hl
    · simp only [Option.map_eq_some_iff, Prod.mk.injEq] at hl
      obtain ⟨⟨v1, m1⟩, h1, rfl, rfl, rfl⟩ := hl
      exact h.rmw h1 ht
    · simp only [Option.map_eq_some_iff, Prod.mk.injEq] at hl
      obtain ⟨⟨v1, m1⟩, h1, rfl, rfl, rfl⟩ := hl
      exact h.load h1 (by simpa using ht)

theorem Below.fenceSc {m : Mem} {y n : Nat} (h : Below m y n) (w : Nat) : Below (Weak.fenceSc m w) y n := by
  have hc : join (join (m.cur w) (m.acq w)) m.sc y ≤ n := join_le (join_le (h.cur w) (h.acq w)) h.sc
  refine ⟨fun u => ?_, fun u => ?_, fun u => ?_, hc, h.view⟩ <;>
  · simp only [Weak.fenceSc, upd_apply]
    split
    · exact hc
    · first | exact h.cur u | exact h.acq u | exact h.rel u

theorem Below.fenceRel {m : Mem} {y n : Nat} (h : Below m y n) (w : Nat) : Below (Weak.fenceRel m w) y n := by
  refine ⟨h.cur, h.acq, fun u => ?_, h.sc, h.view⟩
  simp only [Weak.fenceRel, upd_apply]
  split
  · exact h.cur w
  · exact h.rel u

/-! ## One writer -/

/-- All locations but `top_` are written by the owner only. -/
structure Solo (m : Mem) : Prop where
  below : ∀ x, x ≠ TOP → Below m x (m.cur 0 x)
  newest : ∀ x, x ≠ TOP → ∀ t, m.cur 0 x < t → m.msg x t = none
  has : ∀ x, x ≠ TOP → Atomic x → ∃ g, m.msg x (m.cur 0 x) = some g

theorem mine_eq {m : Mem} {x : Nat} {g : Msg} (h : m.msg x (m.cur 0 x) = some g) : mine m x = g.val := by unfold mine; rw [h]

theorem mine_congr {m m' : Mem} {x : Nat} (h1 : m'.msg x = m.msg x) (h2 : m'.cur 0 x = m.cur 0 x) : mine m' x = mine m x := by
  unfold mine; rw [h1, h2]

theorem Solo.le_newest {m : Mem} (h : Solo m) {x t : Nat} {g : Msg} (hx : x ≠ TOP) (hg : m.msg x t = some g) : t ≤ m.cur 0 x := by
  refine Classical.byContradiction fun hn => ?_
  rw [h.newest x hx t (by omega)] at hg
  cases hg

/-- A message not older than the newest is the newest. -/
theorem Solo.val_newest {m : Mem} (h : Solo m) {x t : Nat} {g : Msg} (hx : x ≠ TOP) (hg : m.msg x t = some g) (ht : m.cur 0 x ≤ t) : g.val = mine m x := by
  have := h.le_newest hx hg
  have he : t = m.cur 0 x := by omega
  rw [he] at hg
  exact (mine_eq hg).symm

/-- A change of the memory that does not add messages except for `top_` and moves no view of the owner down. -/
theorem Solo.same {m m' : Mem} (h : Solo m) (hmsg : ∀ x, x ≠ TOP → m'.msg x = m.msg x) (hmono : ∀ x, m.cur 0 x ≤ m'.cur 0 x)
    (hb : ∀ x, x ≠ TOP → Below m' x (m.cur 0 x)) : Solo m' ∧ ∀ x, x ≠ TOP → m'.cur 0 x = m.cur 0 x := by
  have he : ∀ x, x ≠ TOP → m'.cur 0 x = m.cur 0 x := fun x hx => Nat.le_antisymm ((hb x hx).cur 0) (hmono x)
  refine ⟨⟨fun x hx => ?_, fun x hx t ht => ?_, fun x hx ha => ?_⟩, he⟩
  · rw [he x hx]; exact hb x hx
  · rw [hmsg x hx]; rw [he x hx] at ht; exact h.newest x hx t ht
  · rw [hmsg x hx, he x hx]; exact h.has x hx ha

theorem Solo.load {m m' : Mem} {w x t v : Nat} {a : Bool} (h : Solo m) (hl : Weak.load m w x t a = some (v, m')) :
    Solo m' ∧ ∀ y, y ≠ TOP → m'.cur 0 y = m.cur 0 y := by
  obtain ⟨g, hs⟩ := load_spec hl
  refine h.same (fun y _ => by rw [hs.msg]) (fun y => ?_) (fun y hy => (h.below y hy).load hl fun he => ?_)
  · by_cases hw : w = 0
    · subst hw; exact hs.mono y
    · rw [hs.others 0 (Ne.symm hw)]
  · subst he; exact h.le_newest hy hs.read

theorem Solo.cas {m m' : Mem} {w t e k v : Nat} {a r fa b : Bool} (h : Solo m) (hl : Weak.cas m w TOP t e k a r fa = some (b, v, m')) :
    Solo m' ∧ ∀ y, y ≠ TOP → m'.cur 0 y = m.cur 0 y := by
  refine h.same (fun y hy => ?_) (fun y => ?_) (fun y hy => (h.below y hy).cas hl fun he => absurd he.symm hy)
  · rcases cas_spec hl with ⟨_, _, g, hs⟩ | ⟨_, _, g, hs⟩
    · obtain ⟨n, _, _, _, _, hm⟩ := hs.msg
      rw [hm, upd_other _ _ hy]
    · rw [hs.msg]
  · rcases cas_spec hl with ⟨_, _, g, hs⟩ | ⟨_, _, g, hs⟩
    · by_cases hw : w = 0
      · subst hw; exact hs.mono y
      · rw [hs.others 0 (Ne.symm hw)]
    · by_cases hw : w = 0
      · subst hw; exact hs.mono y
      · rw [hs.others 0 (Ne.symm hw)]

theorem fenceSc_mono (m : Mem) (w u x : Nat) : m.cur u x ≤ (Weak.fenceSc m w).cur u x := by
  simp only [Weak.fenceSc, upd_apply]
  split
  · rename_i h; subst h; exact Nat.le_trans (le_join_left _ _ x) (le_join_left _ _ x)
  · exact Nat.le_refl _

theorem Solo.fenceSc {m : Mem} (h : Solo m) (w : Nat) : Solo (Weak.fenceSc m w) ∧ ∀ y, y ≠ TOP → (Weak.fenceSc m w).cur 0 y = m.cur 0 y :=
  h.same (fun _ _ => rfl) (fun y => fenceSc_mono m w 0 y) (fun y hy => (h.below y hy).fenceSc w)

theorem Solo.fenceRel {m : Mem} (h : Solo m) (w : Nat) : Solo (Weak.fenceRel m w) :=
  (h.same (m' := Weak.fenceRel m w) (fun _ _ => rfl) (fun _ => Nat.le_refl _) (fun y hy => (h.below y hy).fenceRel w)).1

/-- What a store of the owner does. -/
structure Put (m : Mem) (x v : Nat) (r : Bool) (m' : Mem) : Prop where
  solo : Solo m'
  here : m'.cur 0 x = m.cur 0 x + 1
  there : ∀ y, y ≠ x → m'.cur 0 y = m.cur 0 y
  others : ∀ u, u ≠ 0 → m'.cur u = m.cur u
  rel : m'.rel = m.rel
  sc : m'.sc = m.sc
  last : m'.last = m.last
  new : mine m' x = v
  mine : ∀ y, y ≠ x → mine m' y = mine m y
  msg : ∃ g : Msg, g.val = v ∧ (r = false → ∀ y, m.rel 0 y ≤ g.view y) ∧ (r = true → ∀ y, m.cur 0 y ≤ g.view y) ∧
    m'.msg = upd m.msg x (upd (m.msg x) (m.cur 0 x + 1) (some g))
  below : ∀ n, Below m TOP n → Below m' TOP n

theorem put_spec {m m' : Mem} {x v : Nat} {r : Bool} (h : Solo m) (hx : x ≠ TOP) (hp : put m x v r = some m') : Put m x v r m' := by
  have hs := store_spec hp
  obtain ⟨g, hg, hrel, hcur, _, hm⟩ := hs.msg
  have hbelow : ∀ y, y ≠ TOP → Below m' y (if y = x then m.cur 0 x + 1 else m.cur 0 y) := by
    intro y hy
    refine ((h.below y hy).le ?_).store hp fun he => ?_
    · split
      · rename_i he; subst he; omega
      · exact Nat.le_refl _
    · subst he; rw [if_pos rfl]
  have hhere : m'.cur 0 x = m.cur 0 x + 1 := by
    have h1 := (hbelow x hx).cur 0
    rw [if_pos rfl] at h1
    exact Nat.le_antisymm h1 hs.new
  have hthere : ∀ y, y ≠ x → m'.cur 0 y = m.cur 0 y := by
    intro y hy
    unfold put Weak.store at hp
    split at hp
    case isFalse => cases hp
    simp only [Option.some.injEq] at hp
    subst hp
    simp only [upd_same, join_apply, single_apply, if_neg hy]
    split <;> omega
  have hmine : mine m' x = v := by
    refine (mine_eq ?_).trans hg
    rw [hhere, hm, upd_same, upd_same]
  refine ⟨⟨fun y hy => ?_, fun y hy t ht => ?_, fun y hy ha => ?_⟩, hhere, hthere, hs.others, hs.rel, hs.sc, hs.last, hmine, fun y hy => ?_,
    ⟨g, hg, fun hr y => (hrel y).resolve_right (by simp [hr]), hcur, hm⟩, fun n hb => hb.store hp fun he => absurd he hx⟩
  · have h1 := hbelow y hy
    by_cases he : y = x
    · subst he; rw [if_pos rfl] at h1; rw [hhere]; exact h1
    · rw [if_neg he] at h1; rw [hthere y he]; exact h1
  · rw [hm]
    by_cases he : y = x
    · subst he
      rw [hhere] at ht
      rw [upd_same, upd_other _ _ (by omega)]
      exact h.newest y hy t (by omega)
    · rw [upd_other _ _ he]; rw [hthere y he] at ht; exact h.newest y hy t ht
  · rw [hm]
    by_cases he : y = x
    · subst he
      rw [hhere, upd_same, upd_same]; exact ⟨g, rfl⟩
    · rw [upd_other _ _ he, hthere y he]; exact h.has y hy ha
  · exact mine_congr (by rw [hm, upd_other _ _ hy]) (hthere y hy)

/-! ## The counter `top_` -/

/-- The messages of `top_` are 0, 1, …, `T`, in this order. -/
structure Top (m : Mem) (T : Nat) : Prop where
  le : ∀ k, k ≤ T → ∃ g, m.msg TOP k = some g ∧ g.val = k
  gt : ∀ k, T < k → m.msg TOP k = none

theorem Top.val {m : Mem} {T t : Nat} {g : Msg} (h : Top m T) (hg : m.msg TOP t = some g) : g.val = t ∧ t ≤ T := by
  have ht : t ≤ T := Classical.byContradiction fun hn => by rw [h.gt t (by omega)] at hg; cases hg
  obtain ⟨g', h1, h2⟩ := h.le t ht
  rw [h1] at hg
  rw [← Option.some.inj hg]
  exact ⟨h2, ht⟩

theorem Top.congr {m m' : Mem} {T : Nat} (h : Top m T) (hm : m'.msg TOP = m.msg TOP) : Top m' T :=
  ⟨fun k hk => by rw [hm]; exact h.le k hk, fun k hk => by rw [hm]; exact h.gt k hk⟩

/-- What a compare-exchange of `top_` from `e` to `e + 1` does. -/
theorem Top.cas {m m' : Mem} {T w t e v : Nat} {a r fa b : Bool} (h : Top m T) (hl : Weak.cas m w TOP t e (e + 1) a r fa = some (b, v, m')) :
    m.cur w TOP ≤ t ∧ ((b = true ∧ T = e ∧ Top m' (T + 1) ∧ T + 1 ≤ m'.cur w TOP) ∨ (b = false ∧ t ≠ e ∧ t ≤ T ∧ Top m' T)) := by
  rcases cas_spec hl with ⟨hb, hv, g, hs⟩ | ⟨hb, hv, g, hs⟩
  · refine ⟨hs.old, .inl ⟨hb, ?_⟩⟩
    obtain ⟨h1, h2⟩ := h.val hs.read
    have hte : t = e := by rw [← h1, ← hs.val, hv]
    subst hte
    have hT : T = t := by
      refine Classical.byContradiction fun hn => ?_
      obtain ⟨g', h3, _⟩ := h.le (t + 1) (by omega)
      rw [hs.free] at h3; cases h3
    subst hT
    obtain ⟨n, hn, _, _, _, hm⟩ := hs.msg
    have hmsg : ∀ k, m'.msg TOP k = if k = T + 1 then some n else m.msg TOP k := fun k => by rw [hm, upd_same, upd_apply]
    refine ⟨rfl, ⟨fun k hk => ?_, fun k hk => ?_⟩, hs.new⟩
    · rw [hmsg]
      split
      · rename_i he; exact ⟨n, rfl, by rw [hn, he]⟩
      · exact h.le k (by omega)
    · rw [hmsg, if_neg (by omega)]; exact h.gt k (by omega)
  · refine ⟨hs.old, .inr ⟨hb, ?_, (h.val hs.read).2, h.congr (by rw [hs.msg])⟩⟩
    intro he; exact hv (by rw [hs.val, (h.val hs.read).1, he])

/-! ## A new array -/

theorem build_elem (m : Mem) (j : Nat) (a : Spmc.Arr) (j' k t : Nat) :
    (build m j a).msg (elem j' k) t = if j' = j ∧ t = 0 then some ⟨enc (a.slot k), fun _ => 0⟩ else m.msg (elem j' k) t := by
  have h1 : elem j' k % 2 = 0 := by unfold elem; omega
  have h2 : 4 ≤ elem j' k := by unfold elem; omega
  have h3 : (elem j' k - 4) / 2 = Nat.pair j' k := by unfold elem; omega
  simp only [build, h1, h2, h3, Nat.unpair_pair, true_and]

theorem build_other (m : Mem) (j : Nat) (a : Spmc.Arr) {x : Nat} (h : ∀ k, x ≠ elem j k) (t : Nat) : (build m j a).msg x t = m.msg x t := by
  simp only [build]
  rw [if_neg]
  rintro ⟨h1, h2, h3, -⟩
  refine h (Nat.unpair ((x - 4) / 2)).2 ?_
  have h4 : Nat.pair (Nat.unpair ((x - 4) / 2)).1 (Nat.unpair ((x - 4) / 2)).2 = (x - 4) / 2 := Nat.pair_unpair _
  rw [h3] at h4
  unfold elem
  omega

end Verif.WeakSpmc
