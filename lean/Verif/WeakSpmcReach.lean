import Verif.WeakSpmcStep

/-!
# The lock-free queue under weak memory: reachable states
-/

namespace Verif.WeakSpmc

open Weak

variable {C : Nat → Nat} {m m' : Mem} {T T' L L' : Nat} {E E' : Nat → Nat} {own own' : OPc}

theorem quiet_load {w x t v : Nat} {a : Bool} (h : Solo m) (hl : load m w x t a = some (v, m')) : Quiet m m' := by
  obtain ⟨g, hs⟩ := load_spec hl
  refine ⟨(h.load hl).1, fun y _ => by rw [hs.msg], (h.load hl).2, ?_, fun y => by rw [hs.sc]⟩
  by_cases hw : w = 0
  · subst hw; exact hs.mono _
  · rw [hs.others 0 (Ne.symm hw)]

theorem quiet_cas {w t e k v : Nat} {a r fa b : Bool} (h : Solo m) (hl : cas m w TOP t e k a r fa = some (b, v, m')) : Quiet m m' := by
  have hq := h.cas hl
  rcases cas_spec hl with ⟨_, _, g, hs⟩ | ⟨_, _, g, hs⟩
  · obtain ⟨n, _, _, _, _, hm⟩ := hs.msg
    refine ⟨hq.1, fun y hy => by rw [hm, upd_other _ _ hy], hq.2, ?_, fun y => by rw [hs.sc]⟩
    by_cases hw : w = 0
    · subst hw; exact hs.mono _
    · rw [hs.others 0 (Ne.symm hw)]
  · refine ⟨hq.1, fun y hy => by rw [hs.msg], hq.2, ?_, fun y => by rw [hs.sc]⟩
    by_cases hw : w = 0
    · subst hw; exact hs.mono _
    · rw [hs.others 0 (Ne.symm hw)]

theorem quiet_fenceSc (h : Solo m) (w : Nat) : Quiet m (fenceSc m w) :=
  ⟨(h.fenceSc w).1, fun _ _ => rfl, (h.fenceSc w).2, fenceSc_mono m w 0 _, fun y => le_join_right _ _ y⟩

theorem quiet_fenceRel (h : Solo m) (w : Nat) : Quiet m (fenceRel m w) :=
  ⟨h.fenceRel w, fun _ _ => rfl, fun _ _ => rfl, Nat.le_refl _, fun _ => Nat.le_refl _⟩

theorem cas_rel {w t e k v : Nat} {a r fa b : Bool} (hl : cas m w TOP t e k a r fa = some (b, v, m')) :
    m'.rel = m.rel ∧ m'.sc = m.sc ∧ (∀ u, u ≠ w → m'.cur u = m.cur u) ∧ m'.last = m.last ∧ ∀ y, m.cur w y ≤ m'.cur w y := by
  rcases cas_spec hl with ⟨_, _, g, hs⟩ | ⟨_, _, g, hs⟩
  · exact ⟨hs.rel, hs.sc, hs.others, hs.last, hs.mono⟩
  · exact ⟨hs.rel, hs.sc, hs.others, hs.last, hs.mono⟩

structure Inv (s : State) (l : List Nat) (T L : Nat) (E : Nat → Nat) : Prop where
  core : Core s.cap s.mem T L E
  own : Own s.cap s.mem T L E s.own
  th : ∀ i, Thf s.cap s.mem s.own T L E (i + 1) (s.th i)
  eq : l = content T L E

/-! ## Thieves -/

/-- A step of thief `i` that takes nothing. -/
theorem thief_keep {s : State} {l : List Nat} {i : Nat} {pc : TPc} (h : Inv s l T L E) (q : Quiet s.mem m') (hT : Top m' T) (hb : Below m' TOP T)
    (h0 : m'.cur 0 = s.mem.cur 0) (hr : m'.rel 0 = s.mem.rel 0) (ho : ∀ u, u ≠ i + 1 → m'.cur u = s.mem.cur u)
    (hpc : Thf s.cap m' s.own T L E (i + 1) pc) : Inv { s with mem := m', th := upd s.th i pc } l T L E where
  core := q.core h.core hT (Nat.le_refl _) h.core.le (Nat.le_refl _) hb (by rw [hr]; exact h.core.rel) (fun _ _ _ _ _ _ _ h => h)
    (by rw [h0]; exact h.core.sc.imp (fun h => Nat.le_trans h (Nat.succ_le_succ (q.sc _))) id)
  own := q.owner h.core.ownT (by rw [h0]) hr (Nat.le_refl _) h.core.le (fun b hb hT => by have := h.own; rw [hb] at this; exact this.2.2.2 hT) h.own
  th := fun k => by
    by_cases hk : k = i
    · subst hk; simp only [upd_same]; exact hpc
    · simp only [upd_other _ _ hk]
      exact (h.th k).frame (q.frame (ho _ (by omega)) (Nat.le_refl _) (fun _ h1 _ => h1) (fun b hb => .inl hb)) h.core.solo h.own
  eq := h.eq

theorem thief_load {s : State} {l : List Nat} {i x t v : Nat} {a : Bool} {pc : TPc} (h : Inv s l T L E) (hl : load s.mem (i + 1) x t a = some (v, m'))
    (hpc : Thf s.cap m' s.own T L E (i + 1) pc) : Inv { s with mem := m', th := upd s.th i pc } l T L E := by
  obtain ⟨g, hs⟩ := load_spec hl
  refine thief_keep h (quiet_load h.core.solo hl) (h.core.top.congr (by rw [hs.msg])) (h.core.below.load hl fun he => ?_) (hs.others 0 (by omega))
    (by rw [hs.rel]) hs.others hpc
  subst he
  exact (h.core.top.val hs.read).2

theorem runs_nil (l : List Nat) : Runs l [] := trivial

theorem thief_step {s s' : State} {l : List Nat} {o : List Obs} {i t : Nat} (h : Inv s l T L E) (hs : thiefStep s i t = some (s', o)) :
    Runs l o ∧ ∃ T' L' E', Inv s' (o.foldl after l) T' L' E' := by
  have hpc := h.th i
  have hself : ∀ pc, Thf s.cap s.mem s.own T L E (i + 1) pc → Inv { s with th := upd s.th i pc } l T L E := fun pc hp =>
    ⟨h.core, h.own, fun k => by
      by_cases hk : k = i
      · subst hk; simp only [upd_same]; exact hp
      · simp only [upd_other _ _ hk]; exact h.th k, h.eq⟩
  unfold thiefStep at hs
  split at hs
  · cases hs
  · -- fence
    rename_i v hv
    rw [hv] at hpc
    cases hs
    refine ⟨trivial, T, L, E, thief_keep h (quiet_fenceSc h.core.solo _) (h.core.top.congr rfl) (h.core.below.fenceSc _) ?_ ?_ ?_ ?_⟩
    · simp [fenceSc, upd_other]
    · simp [fenceSc, upd_other]
    · intro u hu; simp only [fenceSc, upd_other _ _ hu]
    · refine ⟨hpc.1, ?_, fun b hb => .inr ?_, fun hT τ g hτ hg hlt => ?_⟩
      · exact Nat.le_trans hpc.2 (Nat.le_trans (le_join_left _ _ _) (le_join_left _ _ _))
      · have hown := h.own
        rw [hb] at hown
        have : (fenceSc s.mem (i + 1)).cur 0 BOT = s.mem.cur 0 BOT := by simp [fenceSc, upd_other]
        rw [this]
        refine Nat.le_trans hown.2.2.1 ?_
        simp only [fenceSc, upd_same]
        exact le_join_right _ _ _
      · have hτ' : s.mem.sc BOT ≤ τ := by
          refine Nat.le_trans ?_ hτ
          simp only [fenceSc, upd_same]
          exact le_join_right _ _ _
        obtain ⟨h1, h2⟩ := h.core.msgs τ g hτ' hg v (by omega) hlt
        exact ⟨h1, (quiet_fenceSc h.core.solo _).cov.2 h2⟩
  · -- bot
    rename_i v hv
    rw [hv] at hpc
    split at hs
    · cases hs
    · rename_i b m1 hl
      obtain ⟨g, hg⟩ := load_spec hl
      have q := quiet_load h.core.solo hl
      split at hs
      · rename_i hlt
        cases hs
        obtain ⟨h1, h2, h3, h4⟩ := hpc
        refine ⟨trivial, T, L, E, thief_load h hl ⟨h1, by rw [hg.sc]; exact h2, fun hT => ?_⟩⟩
        rw [hg.val] at hlt
        obtain ⟨h5, h6⟩ := h4 hT t g hg.old hg.read hlt
        refine ⟨h5, q.cov.2 (h6.mono (hg.gain rfl)), ?_⟩
        have h7 := bot_prot h.core.solo h.own h3 hg.old hg.read hlt
        intro b hb
        rw [hg.others 0 (by omega)]
        exact h7 b hb
      · cases hs
        exact ⟨⟨trivial, trivial⟩, T, L, E, thief_load h hl trivial⟩
  · -- arr
    rename_i v hv
    rw [hv] at hpc
    split at hs
    · cases hs
    · rename_i j m1 hl
      obtain ⟨g, hg⟩ := load_spec hl
      have q := quiet_load h.core.solo hl
      split at hs
      · cases hs
        exact ⟨⟨trivial, trivial⟩, T, L, E, thief_load h hl trivial⟩
      · cases hs
        obtain ⟨h1, h2, h3⟩ := hpc
        refine ⟨trivial, T, L, E, thief_load h hl ⟨h1, by rw [hg.sc]; exact h2, fun hT => ?_⟩⟩
        obtain ⟨h5, h6, h7⟩ := h3 hT
        have ht := h.core.solo.le_newest arr_ne_top hg.read
        obtain ⟨g', h8, h9⟩ := h.core.arr t ht
        have hj : j = t := by
          rw [hg.read] at h8
          rw [hg.val, Option.some.inj h8, h9]
        subst hj
        obtain ⟨h10, h11⟩ := h6.1 j hg.old ht
        rw [q.cur _ arr_ne_top, q.mine (elem_ne_top _ _), q.cur _ (elem_ne_top _ _)]
        refine ⟨h5, ?_, ht, h10, Nat.le_trans h11 (hg.mono _), ?_⟩
        · intro b hb
          rw [hg.others 0 (by omega)]
          exact h7 b hb
        · rw [hg.others 0 (by omega)]
          exact Nat.le_trans h6.2 (hg.mono _)
  · -- read
    rename_i v j hv
    rw [hv] at hpc
    split at hs
    · cases hs
    · rename_i c m1 hl
      obtain ⟨g, hg⟩ := load_spec hl
      split at hs
      · cases hs
        exact ⟨⟨trivial, trivial⟩, T, L, E, thief_load h hl trivial⟩
      · rename_i x hx
        cases hs
        obtain ⟨h1, h2, h3⟩ := hpc
        refine ⟨trivial, T, L, E, thief_load h hl ⟨h1, by rw [hg.sc]; exact h2, fun hT => ?_⟩⟩
        obtain ⟨h5, h6, h7, h8, h9, h10⟩ := h3 hT
        refine ⟨h5, ?_, ?_, ?_⟩
        · intro b hb
          rw [hg.others 0 (by omega)]
          exact h6 b hb
        · have := h.core.solo.val_newest (elem_ne_top _ _) hg.read (Nat.le_trans h9 hg.old)
          rw [h8] at this
          rw [hg.val, this] at hx
          exact (Option.some.inj hx).symm
        · rw [hg.others 0 (by omega)]
          exact Nat.le_trans h10 (hg.mono _)
  · -- pin
    rename_i v x hv
    rw [hv] at hpc
    simp only at hs
    split at hs
    · cases hs
      split
      · exact ⟨⟨trivial, trivial, trivial, trivial⟩, T, L, E, hself _ trivial⟩
      · exact ⟨⟨trivial, trivial, trivial⟩, T, L, E, hself _ trivial⟩
    · cases hs
      split
      · exact ⟨⟨trivial, trivial, trivial⟩, T, L, E, hself _ hpc⟩
      · exact ⟨⟨trivial, trivial⟩, T, L, E, hself _ hpc⟩
  · -- cas
    rename_i v x hv
    rw [hv] at hpc
    split at hs
    · cases hs
    · rename_i c y m1 hl
      obtain ⟨h1, h2, h3⟩ := hpc
      have q := quiet_cas h.core.solo hl
      obtain ⟨hr, hsc, ho, _, _⟩ := cas_rel hl
      have h0 := ho 0 (by omega)
      obtain ⟨_, ⟨hc, hT, hT', _⟩ | ⟨hc, hne, hle, hT'⟩⟩ := h.core.top.cas hl
      · subst hc hT
        simp only [if_true] at hs
        cases hs
        obtain ⟨h4, h5, rfl, h8⟩ := h3 rfl
        have hcont := h.eq.trans (content_steal h4)
        have hobs : ∀ r : List Obs, (r = [] ∨ r = [.torn i (E T)]) → Runs l (.q (.stolen i (some (E T))) :: r) ∧
            (Obs.q (.stolen i (some (E T))) :: r).foldl after l = content (T + 1) L E := by
          rintro r (rfl | rfl)
          · exact ⟨⟨⟨_, hcont⟩, trivial⟩, by simp only [List.foldl_cons, List.foldl_nil, after, Spmc.after, hcont, List.tail_cons]⟩
          · exact ⟨⟨⟨_, hcont⟩, trivial, trivial⟩, by simp only [List.foldl_cons, List.foldl_nil, after, Spmc.after, hcont, List.tail_cons]⟩
        obtain ⟨hob1, hob2⟩ := hobs (if m1.cur (i + 1) (data (E T)) < m1.last (data (E T)) then [.torn i (E T)] else []) (by split; exact .inr rfl; exact .inl rfl)
        refine ⟨hob1, T + 1, L, E, ?_, ?_, fun k => ?_, hob2⟩
        · refine q.core h.core hT' (by omega) h4 (Nat.le_refl _) ?_ ?_ (fun _ _ _ _ _ _ _ h => h) (.inl (by rw [hsc]; omega))
          · refine (h.core.below.le (Nat.le_succ T)).cas hl fun _ => ?_
            simp only [if_true]
            have hcs := cas_spec hl
            rcases hcs with ⟨_, _, g, hm⟩ | ⟨hf, _⟩
            · have := (h.core.top.val hm.read).2; omega
            · cases hf
          · intro i h6 h7; rw [hr]; exact h.core.rel i (by omega) h7
        · refine q.owner h.core.ownT (by rw [h0]) (by rw [hr]) (by omega) h4 (fun b hb hTb => ?_) h.own
          rcases h5 b hb with h6 | h6 <;> omega
        · by_cases hk : k = i
          · subst hk; simp only [upd_same]; trivial
          · simp only [upd_other _ _ hk]
            exact (h.th k).frame (q.frame (ho _ (by omega)) (by omega) (fun h6 => by omega) (fun b hb => .inl hb)) h.core.solo h.own
      · subst hc
        simp only [Bool.false_eq_true, if_false] at hs
        cases hs
        refine ⟨⟨trivial, trivial⟩, T, L, E, thief_keep h q hT' ?_ h0 (by rw [hr]) ho trivial⟩
        exact h.core.below.cas hl fun _ => by simpa using hle

/-! ## The owner -/

/-- The other steps that only change views, by the owner. -/
theorem own_quiet {s : State} {l : List Nat} {pc : OPc} (h : Inv s l T L E) (q : Quiet s.mem m') (hT : Top m' T') (hTT : T ≤ T') (hb : Below m' TOP T') (hTL : T' ≤ L')
    (hL : L' ≤ L) (ho : ∀ u, u ≠ 0 → m'.cur u = s.mem.cur u)
    (hrel : ∀ i, T' ≤ i → i < L' → Cov s.cap s.mem (m'.rel 0) i (E i))
    (hm : ∀ τ g, m'.sc BOT ≤ τ → s.mem.msg BOT τ = some g → ∀ i, T' ≤ i → i < g.val → i < L → i < L')
    (hsc : T' ≤ m'.sc TOP + 1 ∨ T' ≤ m'.cur 0 TOP) (hown : Own s.cap m' T' L' E pc)
    (hlive : T' = T → T < L → Prot s.mem s.own T → T < L') (hpop : ∀ b, pc = .popTop b → s.mem.sc TOP ≤ m'.cur 0 TOP) :
    Inv { s with mem := m', own := pc } (content T' L' E) T' L' E where
  core := q.core h.core hT hTT hTL hL hb hrel hm hsc
  own := hown
  th := fun k => (h.th k).frame (q.frame (ho _ (by omega)) hTT hlive (fun b hb => .inr (hpop b hb))) h.core.solo h.own
  eq := rfl

theorem cap_succ (s : State) (j : Nat) : s.cap (j + 1) = 2 * s.cap j := by
  unfold State.cap
  rw [Nat.pow_succ]
  rw [← Nat.mul_assoc, Nat.mul_comm]

theorem cap_pos {s : State} (h : 0 < s.cap0) (j : Nat) : 0 < s.cap j := Nat.mul_pos h (Nat.two_pow_pos j)

/-- The owner loads `top_`. -/
theorem own_load {s : State} {l : List Nat} {t v : Nat} {a : Bool} {pc : OPc} (h : Inv s l T L E) (hl : load s.mem 0 TOP t a = some (v, m'))
    (hL : L' ≤ L) (hTL : T ≤ L') (hm : ∀ τ g, s.mem.sc BOT ≤ τ → s.mem.msg BOT τ = some g → ∀ i, T ≤ i → i < g.val → i < L → i < L')
    (hown : Own s.cap m' T L' E pc) (hlive : T < L → Prot s.mem s.own T → T < L') (hpop : ∀ b, pc ≠ .popTop b) :
    Inv { s with mem := m', own := pc } (content T L' E) T L' E := by
  obtain ⟨g, hg⟩ := load_spec hl
  have q := quiet_load h.core.solo hl
  refine own_quiet h q (h.core.top.congr (by rw [hg.msg])) (Nat.le_refl _) (h.core.below.load hl fun _ => (h.core.top.val hg.read).2) hTL hL hg.others ?_ ?_ ?_ hown
    (fun _ => hlive) (fun b hb => absurd hb (hpop b))
  · intro i h1 h2; rw [hg.rel]; exact h.core.rel i h1 (by omega)
  · rw [hg.sc]; exact hm
  · rw [hg.sc]; exact h.core.sc.imp id fun h => Nat.le_trans h (hg.mono _)

/-- The owner stores `bottom_`. -/
theorem own_putBot {s : State} {l : List Nat} {v : Nat} {pc : OPc} (h : Inv s l T L E) (hp : put s.mem BOT v false = some m') (hL : L ≤ L') (hE : ∀ i, i < L → E' i = E i)
    (fit : L' ≤ s.mem.cur 0 TOP + s.cap (s.mem.cur 0 ARR))
    (val : ∀ i, T ≤ i → i < L' → mine s.mem (elem (s.mem.cur 0 ARR) (i % s.cap (s.mem.cur 0 ARR))) = E' i + 1)
    (nn : ∀ i, s.mem.cur 0 TOP ≤ i → i < L' → mine s.mem (elem (s.mem.cur 0 ARR) (i % s.cap (s.mem.cur 0 ARR))) ≠ 0)
    (rel : ∀ i, T ≤ i → i < L' → Cov s.cap s.mem (s.mem.rel 0) i (E' i)) (hv : v ≤ L') (hown : Own s.cap m' T L' E' pc) (hpop : ∀ b, pc ≠ .popTop b) :
    Inv { s with mem := m', own := pc } (content T L' E') T L' E' :=
  have p := put_spec h.core.solo bot_ne_top hp
  { core := putBot_core h.core p hL hE fit val nn rel hv
    own := hown
    th := fun k => (h.th k).frame (putBot_frame p (by omega) hL hE rel hv hpop) h.core.solo h.own
    eq := rfl }

theorem own_step {s s' : State} {l : List Nat} {o : List Obs} {t : Nat} (hc : 0 < s.cap0) (h : Inv s l T L E) (hs : ownStep s t = some (s', o)) :
    Runs l o ∧ ∃ T' L' E', Inv s' (o.foldl after l) T' L' E' := by
  have hown := h.own
  have hA := h.core.mineArr
  have hoT := h.core.ownT
  have hTL := h.core.le
  have hfit := h.core.fit
  unfold ownStep at hs
  split at hs
  · cases hs
  · -- pushTop
    rename_i x hx
    rw [hx] at hown
    split at hs
    · cases hs
    · rename_i v m1 hl
      obtain ⟨g, hg⟩ := load_spec hl
      have q := quiet_load h.core.solo hl
      obtain ⟨hv1, hv2⟩ := h.core.top.val hg.read
      have hvt : v = t := hg.val.trans hv1
      have hb : mine s.mem BOT = L := hown
      have hsub : Spmc.sub L v = L - v := by unfold Spmc.sub; rw [if_pos (by omega)]
      have hnew := hg.new
      have hold := hg.old
      rw [hA, hb, hsub] at hs
      rw [h.eq]
      split at hs
      · cases hs
        refine ⟨trivial, T, L, E, own_load h hl (Nat.le_refl _) hTL (fun _ _ _ _ _ _ _ h => h) ?_ (fun h _ => h) (by simp)⟩
        simp only [Own, q.mine bot_ne_top, q.cur _ arr_ne_top]
        exact ⟨hb, by omega, by omega⟩
      · rename_i hlt
        have := cap_pos hc (s.mem.cur 0 ARR)
        cases hs
        refine ⟨trivial, T, L, E, own_load h hl (Nat.le_refl _) hTL (fun _ _ _ _ _ _ _ h => h) ?_ (fun h _ => h) (by simp)⟩
        simp only [Own, q.mine bot_ne_top, q.cur _ arr_ne_top]
        exact ⟨hb, by omega⟩
  · -- pushGrow
    rename_i x v hx
    rw [hx] at hown
    obtain ⟨hb, hv, hf⟩ := hown
    split at hs
    · cases hs
    · rename_i m1 hg
      simp only [grow, hA, hb] at hg
      have g := grown_spec h.core.solo (fun k => h.core.fresh _ k (by omega)) hg
      have ha : s.arr = { cap := s.cap (s.mem.cur 0 ARR), slot := fun k => dec (mine s.mem (elem (s.mem.cur 0 ARR) k)) } := by unfold State.arr; rw [hA]
      have hC := cap_succ s (s.mem.cur 0 ARR)
      cases hs
      refine ⟨trivial, T, L, E, grow_core h.core g hC ha hv hf, ?_, fun k => (h.th k).frame (grow_frame h.core g hC ha hv hf (by omega) (by simp)) h.core.solo h.own, h.eq⟩
      have := cap_pos hc (s.mem.cur 0 ARR)
      simp only [Own]
      rw [mine_congr (m := s.mem) g.bot (g.cur _ (Ne.symm arr_ne_bot) atomic_bot), g.arr, g.cur TOP (Ne.symm arr_ne_top) (.inl rfl), show ({ s with mem := m1, own := OPc.pushSlot x } : State).cap = s.cap from rfl, hC]
      exact ⟨hb, by omega⟩
  · -- pushSlot
    rename_i x hx
    rw [hx] at hown
    obtain ⟨hb, hf⟩ := hown
    rw [hA, hb] at hs
    split at hs
    · cases hs
    · rename_i m1 hp
      have p := put_spec h.core.solo (elem_ne_top _ _) hp
      cases hs
      refine ⟨trivial, T, L, E, putSlot_core h.core p hf, ?_, fun k => (h.th k).frame (putSlot_frame h.core p hf (by omega) (by simp)) h.core.solo h.own, h.eq⟩
      simp only [Own]
      rw [p.mine _ (Ne.symm (elem_ne_bot _ _)), p.there TOP (Ne.symm (elem_ne_top _ _)), p.there ARR (Ne.symm (elem_ne_arr _ _))]
      exact ⟨hb, hf, p.new⟩
  · -- pushFence
    rename_i x hx
    rw [hx] at hown
    cases hs
    rw [h.eq]
    have q := quiet_fenceRel h.core.solo 0
    refine ⟨trivial, T, L, E, own_quiet h q (h.core.top.congr rfl) (Nat.le_refl _) (h.core.below.fenceRel 0) hTL (Nat.le_refl _) (fun _ _ => rfl) ?_ (fun _ _ _ _ _ _ _ h => h)
      h.core.sc ?_ (fun _ h _ => h) (by simp)⟩
    · intro i h1 h2
      have : (fenceRel s.mem 0).rel 0 = s.mem.cur 0 := by simp [fenceRel]
      rw [this]
      exact h.core.cov h1 h2
    · refine ⟨hown, fun y hy => ?_⟩
      simp [fenceRel]
  · -- pushBot
    rename_i x hx
    rw [hx] at hown
    obtain ⟨⟨hb, hf, hval⟩, hrel⟩ := hown
    rw [hb] at hs
    split at hs
    · cases hs
    · rename_i m1 hp
      have p := put_spec h.core.solo bot_ne_top hp
      cases hs
      have hcont := content_push (E := E) hTL x
      refine ⟨⟨trivial, trivial⟩, T, L + 1, upd E L x, ?_⟩
      simp only [List.foldl_cons, List.foldl_nil, after, Spmc.after]
      rw [h.eq, ← hcont]
      refine own_putBot h hp (Nat.le_succ _) (fun i hi => upd_other _ _ (by omega)) (by omega) ?_ ?_ ?_ (Nat.le_refl _) ?_ (by simp)
      · intro i h1 h2
        by_cases hi : i = L
        · subst hi; rw [upd_same]; exact hval
        · rw [upd_other _ _ hi]; exact h.core.val i h1 (by omega)
      · intro i h1 h2
        by_cases hi : i = L
        · subst hi; rw [hval]; omega
        · exact h.core.nonnull i h1 (by omega)
      · intro i h1 h2
        by_cases hi : i = L
        · subst hi
          rw [upd_same]
          refine ⟨fun j h3 h4 => ?_, hrel _ (data_ne_top _)⟩
          have hj : j = s.mem.cur 0 ARR := by have := hrel ARR arr_ne_top; omega
          subst hj
          exact ⟨hval, hrel _ (elem_ne_top _ _)⟩
        · rw [upd_other _ _ hi]; exact h.core.rel i h1 (by omega)
      · exact p.new
  · -- popFence
    rename_i b hx
    rw [hx] at hown
    obtain ⟨hb, hL⟩ := hown
    cases hs
    rw [h.eq]
    have q := quiet_fenceSc h.core.solo 0
    have hrc : (fenceSc s.mem 0).rel 0 = (fenceSc s.mem 0).cur 0 := by simp [fenceSc]
    have hsT : s.mem.sc TOP ≤ (fenceSc s.mem 0).cur 0 TOP := by simp only [fenceSc, upd_same]; exact le_join_right _ _ _
    refine ⟨trivial, T, L, E, own_quiet h q (h.core.top.congr rfl) (Nat.le_refl _) (h.core.below.fenceSc 0) hTL (Nat.le_refl _) ?_ ?_ (fun _ _ _ _ _ _ _ h => h)
      ?_ ?_ (fun _ h _ => h) (fun _ _ => hsT)⟩
    · intro u hu; simp only [fenceSc, upd_other _ _ hu]
    · intro i h1 h2
      rw [hrc]
      exact (h.core.cov h1 h2).mono (fenceSc_mono _ _ _)
    · exact h.core.sc.imp (fun h => Nat.le_trans h (Nat.succ_le_succ (q.sc _))) (fun h => Nat.le_trans h q.top)
    · refine ⟨by rw [q.mine bot_ne_top]; exact hb, hL, ?_, fun hT => ?_⟩
      · simp [fenceSc]
      · rcases h.core.sc with h1 | h1
        · omega
        · have := q.top; omega
  · -- popTop
    rename_i b hx
    rw [hx] at hown
    obtain ⟨hb, hL, hsc, hTb⟩ := hown
    subst hL
    split at hs
    · cases hs
    · rename_i v m1 hl
      obtain ⟨g, hg⟩ := load_spec hl
      have q := quiet_load h.core.solo hl
      obtain ⟨hv1, hv2⟩ := h.core.top.val hg.read
      have hvt : v = t := hg.val.trans hv1
      subst hvt
      have hold := hg.old
      split at hs
      · rename_i hvb
        rw [hA] at hs
        have hnn := h.core.nonnull b (by omega) (by omega)
        split at hs
        · rename_i hd
          exfalso
          have := enc_dec (mine s.mem (elem (s.mem.cur 0 ARR) (b % s.cap (s.mem.cur 0 ARR))))
          rw [hd] at this
          exact hnn this.symm
        · rename_i x hd
          have hx1 : mine s.mem (elem (s.mem.cur 0 ARR) (b % s.cap (s.mem.cur 0 ARR))) = x + 1 := by rw [← enc_dec (mine _ _), hd]; rfl
          split at hs
          · rename_i hvb2
            cases hs
            rw [h.eq]
            refine ⟨trivial, T, b + 1, E, own_load h hl (Nat.le_refl _) hTL (fun _ _ _ _ _ _ _ h => h) ?_ (fun h _ => h) (by simp)⟩
            refine ⟨by rw [q.mine bot_ne_top]; exact hb, rfl, ?_, fun hT => ?_⟩
            · have := hg.new; omega
            · have := h.core.val b (by omega) (by omega)
              omega
          · rename_i hvb2
            cases hs
            have hTle : T ≤ b := by
              refine Classical.byContradiction fun hn => ?_
              have := hTb (by omega)
              omega
            have hEx := h.core.val b hTle (by omega)
            have hxe : x = E b := by omega
            have hcont := h.eq.trans (content_pop (E := E) hTle)
            refine ⟨⟨⟨content T b E, by rw [hcont, hxe]⟩, trivial⟩, T, b, E, ?_⟩
            simp only [List.foldl_cons, List.foldl_nil, after, Spmc.after]
            rw [hcont, List.dropLast_concat]
            refine own_load h hl (Nat.le_succ _) hTle ?_ ?_ ?_ (by simp)
            · intro τ g1 h1 h2 i h3 h4 h5
              have := h.core.solo.val_newest bot_ne_top h2 (Nat.le_trans hsc h1)
              omega
            · exact (q.mine bot_ne_top).trans hb
            · intro h1 h2
              rcases h2 b hx with h3 | h3
              · omega
              · exact h3
      · cases hs
        have hT : T = b + 1 := by omega
        have hcont := h.eq.trans (content_empty (E := E) (L := b + 1) (T := T) (by omega))
        refine ⟨⟨hcont, trivial⟩, T, b + 1, E, ?_⟩
        simp only [List.foldl_cons, List.foldl_nil, after, Spmc.after]
        rw [h.eq]
        refine own_load h hl (Nat.le_refl _) hTL (fun _ _ _ _ _ _ _ h => h) ?_ (fun h _ => h) (by simp)
        exact ⟨by rw [q.mine bot_ne_top]; exact hb, rfl, hT⟩
  · -- popCas
    rename_i b x hx
    rw [hx] at hown
    obtain ⟨hb, hL, hbT, hxe⟩ := hown
    subst hL
    split at hs
    · cases hs
    · rename_i c y m1 hl
      have q := quiet_cas h.core.solo hl
      obtain ⟨hr, hsc, ho, _, hmono⟩ := cas_rel hl
      obtain ⟨hold, ⟨hc1, hT, hT', hcur⟩ | ⟨hc1, hne, hle, hT'⟩⟩ := h.core.top.cas hl
      · subst hc1 hT
        simp only [if_true] at hs
        cases hs
        have hcont := h.eq.trans (content_pop (E := E) (Nat.le_refl T))
        have hnil : content T T E = [] := content_empty (Nat.le_refl _)
        rw [hnil] at hcont
        refine ⟨⟨⟨[], by rw [hcont, hxe rfl]⟩, trivial⟩, T + 1, T + 1, E, ?_⟩
        simp only [List.foldl_cons, List.foldl_nil, after, Spmc.after]
        have hnil' : ([] ++ [E T]).dropLast = content (T + 1) (T + 1) E := by rw [content_empty (Nat.le_refl _)]; rfl
        rw [hcont, hnil']
        refine own_quiet h q hT' (Nat.le_succ _) ?_ (Nat.le_refl _) (Nat.le_refl _) ho (fun i h1 h2 => by omega) (fun _ _ _ _ _ h1 _ h2 => by omega) (.inr hcur) ?_
          (fun h1 => by omega) (by simp)
        · refine (h.core.below.le (Nat.le_succ T)).cas hl fun _ => ?_
          simp only [if_true]
          rcases cas_spec hl with ⟨_, _, g, hm⟩ | ⟨hf, _⟩
          · have := (h.core.top.val hm.read).2; omega
          · cases hf
        · exact ⟨by rw [q.mine bot_ne_top]; exact hb, rfl, rfl⟩
      · subst hc1
        simp only [Bool.false_eq_true, if_false] at hs
        cases hs
        have hT : T = b + 1 := by omega
        have hcont := h.eq.trans (content_empty (E := E) (L := b + 1) (T := T) (by omega))
        refine ⟨⟨hcont, trivial⟩, T, b + 1, E, ?_⟩
        simp only [List.foldl_cons, List.foldl_nil, after, Spmc.after]
        rw [h.eq]
        refine own_quiet h q hT' (Nat.le_refl _) (h.core.below.cas hl fun _ => by simpa using hle) hTL (Nat.le_refl _) ho ?_ (fun _ _ _ _ _ _ _ h => h) ?_ ?_
          (fun _ h _ => h) (by simp)
        · intro i h1 h2; omega
        · rw [hsc]; exact h.core.sc.imp id fun h => Nat.le_trans h (hmono _)
        · exact ⟨by rw [q.mine bot_ne_top]; exact hb, rfl, hT⟩
  · -- popFix
    rename_i b hx
    rw [hx] at hown
    obtain ⟨hb, hL, hT⟩ := hown
    subst hL
    split at hs
    · cases hs
    · rename_i m1 hp
      have p := put_spec h.core.solo bot_ne_top hp
      cases hs
      refine ⟨trivial, T, b + 1, E, ?_⟩
      rw [h.eq]
      exact own_putBot h hp (Nat.le_refl _) (fun _ _ => rfl) hfit h.core.val h.core.nonnull h.core.rel (Nat.le_refl _) p.new (by simp)

theorem act_inv {s s' : State} {l : List Nat} {o : List Obs} {e : Event} (hc : 0 < s.cap0) (hq : s.q = l) (h : Inv s l T L E) (hs : act s e = some (s', o)) :
    Runs l o ∧ ∃ T' L' E', Inv s' (o.foldl after l) T' L' E' := by
  have hA := h.core.mineArr
  have hoT := h.core.ownT
  have hTL := h.core.le
  have hfit := h.core.fit
  cases e with
  | push x =>
    simp only [act] at hs
    split at hs
    case isFalse => cases hs
    rename_i hi
    cases hs
    have hown := h.own
    rw [hi] at hown
    exact ⟨trivial, T, L, E, h.core, hown, fun k => (h.th k).frame ⟨rfl, Nat.le_refl _, Nat.le_refl _, Nat.le_refl _, Nat.le_refl _,
      fun _ h1 _ => ⟨h1, rfl, fun _ h => h, rfl, fun _ _ => ⟨rfl, rfl⟩⟩, fun _ _ _ h _ => .inl h, fun b hb => by cases hb⟩ h.core.solo h.own, h.eq⟩
  | pop =>
    simp only [act] at hs
    split at hs
    case isFalse => cases hs
    rename_i hi
    obtain ⟨hi, hpos⟩ := hi
    have hown := h.own
    rw [hi] at hown
    have hb : mine s.mem BOT = L := hown
    rw [hb] at hs hpos
    split at hs
    · cases hs
    · rename_i m1 hp
      have p := put_spec h.core.solo bot_ne_top hp
      cases hs
      refine ⟨trivial, T, L, E, ?_⟩
      rw [h.eq]
      exact own_putBot h hp (Nat.le_refl _) (fun _ _ => rfl) hfit h.core.val h.core.nonnull h.core.rel (by omega) ⟨p.new, by omega⟩ (by simp)
  | empty t =>
    simp only [act] at hs
    split at hs
    case isFalse => cases hs
    rename_i hi
    have hown := h.own
    rw [hi] at hown
    have hb : mine s.mem BOT = L := hown
    split at hs
    · cases hs
    · rename_i v m1 hl
      obtain ⟨g, hg⟩ := load_spec hl
      have q := quiet_load h.core.solo hl
      obtain ⟨hv1, hv2⟩ := h.core.top.val hg.read
      have hvt : v = t := hg.val.trans hv1
      cases hs
      refine ⟨⟨fun hd => ?_, trivial⟩, T, L, E, ?_⟩
      · rw [decide_eq_true_eq, hb] at hd
        exact h.eq.trans (content_empty (by omega))
      · simp only [List.foldl_cons, List.foldl_nil, after]
        rw [h.eq]
        have := own_load (pc := .idle) h hl (Nat.le_refl _) hTL (fun _ _ _ _ _ _ _ h => h) ((q.mine bot_ne_top).trans hb) (fun h _ => h) (by simp)
        rw [← hi] at this
        exact this
  | own t => exact own_step hc h hs
  | steal i t =>
    simp only [act] at hs
    split at hs
    case isFalse => cases hs
    split at hs
    · cases hs
    · rename_i v m1 hl
      obtain ⟨g, hg⟩ := load_spec hl
      cases hs
      obtain ⟨hv1, hv2⟩ := h.core.top.val hg.read
      have hvt : v = t := hg.val.trans hv1
      exact ⟨trivial, T, L, E, thief_load h hl ⟨by omega, by rw [hvt]; exact hg.new⟩⟩
  | thief i t => exact thief_step h hs
  | work x =>
    simp only [act] at hs
    split at hs
    case isFalse => cases hs
    rename_i hi
    cases hs
    have w := work_spec (x := x) h.core.solo
    have hx : ∀ i, T ≤ i → i < L → E i ≠ x := fun i h1 h2 h3 => hi.2 (by rw [hq, h.eq, ← h3]; exact mem_content h1 h2)
    have hown := h.own
    rw [hi.1] at hown
    refine ⟨trivial, T, L, E, work_core h.core w hx, ?_, fun k => (h.th k).frame (work_frame w hx (by omega) (by rw [hi.1]; simp)) h.core.solo h.own, h.eq⟩
    simp only [hi.1]
    exact (w.mine (Ne.symm (data_ne_bot _))).trans hown

theorem step_act {s s' : State} {o : List Obs} {e : Event} (hs : step s e = some (s', o)) :
    ∃ s1, act s e = some (s1, o) ∧ s' = { s1 with q := o.foldl after s.q } := by
  unfold step at hs
  rw [Option.map_eq_some_iff] at hs
  obtain ⟨⟨s1, o1⟩, h1, h2⟩ := hs
  cases h2
  exact ⟨s1, h1, rfl⟩

theorem step_inv {s s' : State} {l : List Nat} {o : List Obs} {e : Event} (hc : 0 < s.cap0) (hq : s.q = l) (h : Inv s l T L E) (hs : step s e = some (s', o)) :
    Runs l o ∧ s'.q = o.foldl after l ∧ ∃ T' L' E', Inv s' (o.foldl after l) T' L' E' := by
  obtain ⟨s1, h1, rfl⟩ := step_act hs
  obtain ⟨h2, T', L', E', h3⟩ := act_inv hc hq h h1
  exact ⟨h2, by rw [hq], T', L', E', h3.core, h3.own, h3.th, h3.eq⟩

theorem act_cap {s s' : State} {o : List Obs} {e : Event} (hs : act s e = some (s', o)) : s'.cap0 = s.cap0 ∧ s'.fix = s.fix ∧ s'.pinned = s.pinned := by
  cases e <;> simp only [act, ownStep, thiefStep] at hs <;> (repeat' split at hs) <;> cases hs <;> exact ⟨rfl, rfl, rfl⟩

theorem step_cap {s s' : State} {o : List Obs} {e : Event} (hs : step s e = some (s', o)) : s'.cap0 = s.cap0 ∧ s'.fix = s.fix ∧ s'.pinned = s.pinned := by
  obtain ⟨s1, h1, rfl⟩ := step_act hs
  have := act_cap h1
  exact this

theorem init_inv (p : Nat → Bool) (fix : Bool) (cap : Nat) : Inv (init p fix cap) [] 0 0 (fun _ => 0) := by
  have hz : ∀ x, Below (start fun _ => 0) x 0 := fun x => by
    refine ⟨fun _ => Nat.le_refl _, fun _ => Nat.le_refl _, fun _ => Nat.le_refl _, Nat.le_refl _, fun y t g hg => ?_⟩
    simp only [start] at hg
    split at hg
    · rw [← Option.some.inj hg]
    · cases hg
  refine ⟨⟨⟨fun x _ => hz x, ?_, ?_⟩, ⟨?_, ?_⟩, ?_, fun _ _ _ => rfl, Nat.le_refl _, hz _, Nat.zero_le _, ?_, ?_, ?_, ?_, .inl (Nat.zero_le _)⟩, rfl, fun _ => trivial, rfl⟩
  · intro x _ t ht
    simp only [init, start] at ht ⊢
    rw [if_neg (by omega)]
  · intro x _ _; exact ⟨⟨0, fun _ => 0⟩, rfl⟩
  · intro k hk
    have : k = 0 := by omega
    subst this
    exact ⟨⟨0, fun _ => 0⟩, rfl, rfl⟩
  · intro k hk; simp only [init, start]; rw [if_neg (by omega)]
  · intro j hj
    simp only [init, start] at hj
    have : j = 0 := by omega
    subst this
    exact ⟨⟨0, fun _ => 0⟩, rfl, rfl⟩
  · intro i _ h; omega
  · intro i _ h; omega
  · intro i _ h; omega
  · intro τ g _ hg i _ hi
    simp only [init, start] at hg
    split at hg
    · rw [← Option.some.inj hg] at hi; exact absurd hi (by simp)
    · cases hg

theorem reach_inv {s : State} {tr : List Obs} {p : Nat → Bool} {fix : Bool} {cap : Nat} (hc : 0 < cap) (h : Reach step (init p fix cap) s tr) :
    (s.cap0 = cap ∧ s.fix = fix ∧ s.pinned = p) ∧ s.q = replay tr ∧ Runs [] tr ∧ ∃ T L E, Inv s (replay tr) T L E :=
  h.inv (fun s tr => (s.cap0 = cap ∧ s.fix = fix ∧ s.pinned = p) ∧ s.q = replay tr ∧ Runs [] tr ∧ ∃ T L E, Inv s (replay tr) T L E)
    ⟨⟨rfl, rfl, rfl⟩, rfl, trivial, 0, 0, fun _ => 0, init_inv p fix cap⟩
    (fun s tr e s' o _ hi hs => by
      obtain ⟨⟨h1, h2, h3⟩, hq, h4, T, L, E, h5⟩ := hi
      obtain ⟨h6, h11, h7⟩ := step_inv (by rw [h1]; exact hc) hq h5 hs
      obtain ⟨h8, h9, h10⟩ := step_cap hs
      have he : replay (tr ++ o) = o.foldl after (replay tr) := by unfold replay; rw [List.foldl_append]
      rw [he]
      exact ⟨⟨h8.trans h1, h9.trans h2, h10.trans h3⟩, h11, h4.append h6, h7⟩)


/-! ## Data races -/

/-- Completed pushes. -/
def pushed (tr : List Obs) : Nat := (tr.filter fun o => match o with | .q (.pushed _) => true | _ => false).length

theorem pushed_append (a b : List Obs) : pushed (a ++ b) = pushed a + pushed b := by simp [pushed]

/-- What the position of the owner tells of the number `n` of pushes. -/
def Cnt (cap n : Nat) : OPc → Prop
  | .pushGrow _ _ => cap ≤ n
  | .popFence b | .popTop b | .popCas b _ | .popFix b => b + 1 ≤ n
  | _ => True

structure RaceInv (s : State) (n : Nat) : Prop where
  zero : ∀ j, j = 0 ∨ s.mem.cur 0 ARR < j → s.mem.last (members j) = 0
  cov : s.fix = true → ∀ j g, j ≤ s.mem.cur 0 ARR → s.mem.msg ARR j = some g → s.mem.last (members j) ≤ g.view (members j)
  bot : mine s.mem BOT ≤ n
  own : Cnt s.cap0 n s.own
  grown : s.mem.cur 0 ARR ≠ 0 → s.cap0 ≤ n
  data : ∀ x, s.mem.last (data x) ≤ s.mem.cur 0 (data x)

theorem RaceInv.same {s : State} {n n' : Nat} {pc : OPc} {th : Nat → TPc} (h : RaceInv s n) (hn : n ≤ n') (h1 : m'.msg ARR = s.mem.msg ARR) (h2 : m'.last = s.mem.last)
    (h3 : m'.cur 0 ARR = s.mem.cur 0 ARR) (h6 : ∀ x, m'.cur 0 (WeakSpmc.data x) = s.mem.cur 0 (WeakSpmc.data x))
    (h4 : mine m' BOT ≤ n') (h5 : Cnt s.cap0 n' pc) : RaceInv { s with mem := m', own := pc, th := th } n' := by
  refine ⟨?_, ?_, h4, h5, ?_, fun x => by simp only; rw [h2, h6]; exact h.data x⟩
  · simp only; rw [h3, h2]; exact h.zero
  · simp only; rw [h3, h2, h1]; exact h.cov
  · simp only; rw [h3]; exact fun h7 => Nat.le_trans (h.grown h7) hn

theorem RaceInv.quiet {s : State} {n : Nat} {pc : OPc} {th : Nat → TPc} (h : RaceInv s n) (q : Quiet s.mem m') (hl : m'.last = s.mem.last) (h5 : Cnt s.cap0 n pc) :
    RaceInv { s with mem := m', own := pc, th := th } n :=
  h.same (Nat.le_refl _) (q.msg _ arr_ne_top) hl (q.cur _ arr_ne_top) (fun _ => q.cur _ (data_ne_top _)) (by rw [q.mine bot_ne_top]; exact h.bot) h5

theorem RaceInv.load {s : State} {n w x t v : Nat} {a : Bool} {pc : OPc} {th : Nat → TPc} (h : RaceInv s n) (hi : Solo s.mem) (hl : Weak.load s.mem w x t a = some (v, m'))
    (h5 : Cnt s.cap0 n pc) : RaceInv { s with mem := m', own := pc, th := th } n := by
  obtain ⟨g, hg⟩ := load_spec hl
  exact h.quiet (quiet_load hi hl) hg.last h5

theorem RaceInv.put {s : State} {n n' x v : Nat} {pc : OPc} {th : Nat → TPc} (h : RaceInv s n) (hn : n ≤ n') (p : Put s.mem x v false m') (hx : x ≠ ARR) (hd : ∀ y, WeakSpmc.data y ≠ x)
    (h4 : mine m' BOT ≤ n') (h5 : Cnt s.cap0 n' pc) : RaceInv { s with mem := m', own := pc, th := th } n' := by
  obtain ⟨g, _, _, _, hm⟩ := p.msg
  exact h.same hn (by rw [hm, upd_other _ _ (Ne.symm hx)]) p.last (p.there _ (Ne.symm hx)) (fun y => p.there _ (hd y)) h4 h5

/-- Data races are met only if an array has been replaced (of the first capacity `cap0`, after `n` pushes), and if `top_` has moved on. -/
def Races (s : State) (o : List Obs) (n : Nat) : Prop :=
  (∀ k, .race k ∈ o → s.fix = false ∧ s.cap0 ≤ n) ∧ (∀ k x, .torn k x ∉ o) ∧
    ∀ k x, .unseen k x ∈ o → ∃ v, s.th k = .pin v x ∧ s.mem.msg TOP (v + 1) ≠ none

theorem own_race {s s' : State} {l : List Nat} {o : List Obs} {t n : Nat} (h : Inv s l T L E) (hr : RaceInv s n) (hs : ownStep s t = some (s', o)) :
    RaceInv s' (n + pushed o) ∧ Races s o n := by
  have hA := h.core.mineArr
  have hS := h.core.solo
  have hown := hr.own
  have hbot := hr.bot
  unfold ownStep at hs
  split at hs
  · cases hs
  · -- pushTop
    rename_i x hx
    split at hs
    · cases hs
    · rename_i v m1 hl
      obtain ⟨g, hg⟩ := load_spec hl
      have hv := h.core.top.val hg.read
      have hL := h.own
      rw [hx] at hL
      have hL : mine s.mem BOT = L := hL
      have hTL := h.core.le
      have hvt := hg.val
      split at hs
      · rename_i hlt
        cases hs
        refine ⟨hr.load hS hl ?_, by simp [Races]⟩
        show s.cap0 ≤ n
        have : s.cap0 ≤ s.cap (mine s.mem ARR) := Nat.le_mul_of_pos_right _ (Nat.two_pow_pos _)
        rw [Spmc.sub, if_pos (by omega)] at hlt
        omega
      · cases hs
        exact ⟨hr.load hS hl trivial, by simp [Races]⟩
  · -- pushGrow
    rename_i x v hx
    rw [hx] at hown
    split at hs
    · cases hs
    · rename_i m1 hg
      simp only [grow, hA] at hg
      have g := grown_spec hS (fun k => h.core.fresh _ k (by omega)) hg
      cases hs
      refine ⟨⟨?_, ?_, ?_, trivial, fun _ => hown, fun y => by simp only; rw [g.lastD, g.data]; exact hr.data y⟩, by simp [Races]⟩
      · intro j hj
        simp only [g.arr] at hj
        simp only
        rw [g.last j (by omega)]
        exact hr.zero j (by omega)
      · intro hf j g1 hj hg1
        simp only [g.arr] at hj
        by_cases hjc : j = s.mem.cur 0 ARR + 1
        · subst hjc
          obtain ⟨g2, h1, _, h2⟩ := g.new
          rw [h1] at hg1
          rw [← Option.some.inj hg1]
          exact h2 hf
        · simp only [g.old j (by omega)] at hg1
          simp only
          rw [g.last j hjc]
          exact hr.cov hf j g1 (by omega) hg1
      · simp only
        rw [mine_congr (m := s.mem) g.bot (g.cur _ (Ne.symm arr_ne_bot) atomic_bot)]
        exact hbot
  · -- pushSlot
    split at hs
    · cases hs
    · rename_i m1 hp
      have p := put_spec hS (elem_ne_top _ _) hp
      cases hs
      exact ⟨hr.put (Nat.le_refl _) p (elem_ne_arr _ _) (fun _ => data_ne_elem _ _ _) (by rw [p.mine _ (Ne.symm (elem_ne_bot _ _))]; exact hbot) trivial, by simp [Races]⟩
  · cases hs
    exact ⟨hr.quiet (quiet_fenceRel hS 0) rfl trivial, by simp [Races]⟩
  · -- pushBot
    split at hs
    · cases hs
    · rename_i m1 hp
      have p := put_spec hS bot_ne_top hp
      cases hs
      exact ⟨hr.put (Nat.le_succ _) p (Ne.symm arr_ne_bot) data_ne_bot (by rw [p.new]; exact Nat.succ_le_succ hbot) trivial, by simp [Races]⟩
  · rename_i b hx
    rw [hx] at hown
    cases hs
    exact ⟨hr.quiet (quiet_fenceSc hS 0) rfl hown, by simp [Races]⟩
  · -- popTop
    rename_i b hx
    rw [hx] at hown
    split at hs
    · cases hs
    · rename_i v m1 hl
      split at hs
      · split at hs
        · cases hs
          refine ⟨hr.load hS hl ?_, by simp [Races]⟩
          split
          · exact hown
          · trivial
        · split at hs
          · cases hs; exact ⟨hr.load hS hl hown, by simp [Races]⟩
          · cases hs; exact ⟨hr.load hS hl trivial, by simp [Races]⟩
      · cases hs; exact ⟨hr.load hS hl hown, by simp [Races]⟩
  · -- popCas
    rename_i b x hx
    rw [hx] at hown
    split at hs
    · cases hs
    · rename_i c y m1 hl
      cases hs
      exact ⟨hr.quiet (quiet_cas hS hl) (cas_rel hl).2.2.2.1 hown, by simp [Races]⟩
  · -- popFix
    rename_i b hx
    rw [hx] at hown
    split at hs
    · cases hs
    · rename_i m1 hp
      have p := put_spec hS bot_ne_top hp
      cases hs
      exact ⟨hr.put (Nat.le_refl _) p (Ne.symm arr_ne_bot) data_ne_bot (by rw [p.new]; exact hown) trivial, by simp [Races]⟩

theorem thief_race {s s' : State} {l : List Nat} {o : List Obs} {i t n : Nat} (h : Inv s l T L E) (hr : RaceInv s n) (hs : thiefStep s i t = some (s', o)) :
    RaceInv s' (n + pushed o) ∧ Races s o n := by
  have hS := h.core.solo
  have hown := hr.own
  have hpc := h.th i
  unfold thiefStep at hs
  split at hs
  · cases hs
  · cases hs
    exact ⟨hr.quiet (quiet_fenceSc hS _) rfl hown, by simp [Races]⟩
  · split at hs
    · cases hs
    · rename_i b m1 hl
      split at hs <;> cases hs <;> exact ⟨hr.load hS hl hown, by simp [Races]⟩
  · -- arr
    split at hs
    · cases hs
    · rename_i j m1 hl
      obtain ⟨g, hg⟩ := load_spec hl
      split at hs
      · rename_i hlt
        cases hs
        refine ⟨hr.load hS hl hown, fun k _ => ?_, by simp, by simp⟩
        have ht := hS.le_newest arr_ne_top hg.read
        obtain ⟨g', h8, h9⟩ := h.core.arr t ht
        have hj : j = t := by
          rw [hg.read] at h8
          rw [hg.val, Option.some.inj h8, h9]
        subst hj
        rw [hg.last] at hlt
        constructor
        · refine Classical.byContradiction fun hf => ?_
          have h1 := hr.cov (by simpa using hf) j g ht hg.read
          have h2 := hg.gain rfl (members j)
          omega
        · refine hr.grown fun h0 => ?_
          have := hr.zero j (by omega)
          omega
      · cases hs
        exact ⟨hr.load hS hl hown, by simp [Races]⟩
  · split at hs
    · cases hs
    · rename_i c m1 hl
      split at hs <;> cases hs <;> exact ⟨hr.load hS hl hown, by simp [Races]⟩
  · -- pin
    rename_i v x hv
    rw [hv] at hpc
    obtain ⟨h1, _, h3⟩ := hpc
    have key : s.mem.cur (i + 1) (data x) = 0 ∧ 0 < s.mem.last (data x) → ∃ v, s.th i = .pin v x ∧ s.mem.msg TOP (v + 1) ≠ none := by
      rintro ⟨h4, h5⟩
      refine ⟨v, hv, fun h6 => ?_⟩
      have hT : T = v := by
        refine Classical.byContradiction fun hn => ?_
        obtain ⟨g, h7, _⟩ := h.core.top.le (v + 1) (by omega)
        rw [h6] at h7; cases h7
      obtain ⟨_, _, hxe, h8⟩ := h3 hT
      have := hr.data x
      rw [← hxe, h4] at h8
      omega
    have hp : ∀ (th : Nat → TPc) (r : List Obs), pushed r = 0 → RaceInv { s with th := th } (n + pushed r) := fun th r h0 => by
      rw [h0]; exact hr.same (Nat.le_refl _) rfl rfl rfl (fun _ => rfl) hr.bot hown
    simp only at hs
    by_cases hu : s.mem.cur (i + 1) (data x) = 0 ∧ 0 < s.mem.last (data x)
    · obtain ⟨v', h4⟩ := key hu
      rw [if_pos hu] at hs
      split at hs <;> cases hs
      · exact ⟨hp _ _ rfl, by simp, by simp, fun k y hk => by simp at hk; obtain ⟨rfl, rfl⟩ := hk; exact ⟨v', h4⟩⟩
      · exact ⟨hp _ _ rfl, by simp, by simp, fun k y hk => by simp at hk; obtain ⟨rfl, rfl⟩ := hk; exact ⟨v', h4⟩⟩
    · rw [if_neg hu] at hs
      split at hs <;> cases hs
      · exact ⟨hp _ _ rfl, by simp [Races]⟩
      · exact ⟨hp _ _ rfl, by simp [Races]⟩
  · -- cas
    rename_i v x hv
    rw [hv] at hpc
    split at hs
    · cases hs
    · rename_i c y m1 hl
      have hq := hr.quiet (pc := s.own) (th := upd s.th i .idle) (quiet_cas hS hl) (cas_rel hl).2.2.2.1 hown
      split at hs
      · rename_i hc
        subst hc
        cases hs
        have hno : ¬ m1.cur (i + 1) (data x) < m1.last (data x) := by
          obtain ⟨_, ⟨_, hT, _, _⟩ | ⟨hf, _⟩⟩ := h.core.top.cas hl
          · obtain ⟨_, _, hxe, h8⟩ := hpc.2.2 hT
            have h1 := hr.data x
            have h2 := (cas_rel hl).2.2.2.2 (data x)
            rw [← hxe] at h8
            rw [(cas_rel hl).2.2.2.1]
            omega
          · cases hf
        rw [if_neg hno]
        exact ⟨hq, by simp [Races]⟩
      · cases hs
        exact ⟨hq, by simp [Races]⟩

theorem act_race {s s' : State} {l : List Nat} {o : List Obs} {e : Event} {n : Nat} (h : Inv s l T L E) (hr : RaceInv s n) (hs : act s e = some (s', o)) :
    RaceInv s' (n + pushed o) ∧ Races s o n := by
  have hS := h.core.solo
  cases e with
  | push x =>
    simp only [act] at hs
    split at hs
    case isFalse => cases hs
    cases hs
    exact ⟨hr.same (Nat.le_refl _) rfl rfl rfl (fun _ => rfl) hr.bot trivial, by simp [Races]⟩
  | pop =>
    simp only [act] at hs
    split at hs
    case isFalse => cases hs
    rename_i hi
    split at hs
    · cases hs
    · rename_i m1 hp
      have p := put_spec hS bot_ne_top hp
      cases hs
      have := hr.bot
      refine ⟨hr.put (Nat.le_refl _) p (Ne.symm arr_ne_bot) data_ne_bot (by rw [p.new]; omega) ?_, by simp [Races]⟩
      show mine s.mem BOT - 1 + 1 ≤ n
      omega
  | empty t =>
    simp only [act] at hs
    split at hs
    case isFalse => cases hs
    split at hs
    · cases hs
    · rename_i v m1 hl
      cases hs
      exact ⟨hr.load hS hl hr.own, by simp [Races]⟩
  | own t =>
    obtain ⟨h1, h2⟩ := own_race h hr hs
    exact ⟨h1, h2⟩
  | steal i t =>
    simp only [act] at hs
    split at hs
    case isFalse => cases hs
    split at hs
    · cases hs
    · rename_i v m1 hl
      cases hs
      exact ⟨hr.load hS hl hr.own, by simp [Races]⟩
  | thief i t => exact thief_race h hr hs
  | work x =>
    simp only [act] at hs
    split at hs
    case isFalse => cases hs
    cases hs
    have w := work_spec (x := x) hS
    have hA := w.cur _ (Ne.symm (data_ne_arr _))
    refine ⟨⟨fun j hj => ?_, fun hf j g hj hg => ?_, ?_, hr.own, fun h0 => ?_, fun y => ?_⟩, by simp [Races]⟩
    · simp only [hA] at hj
      simp only [w.last, upd_other _ _ (Ne.symm (data_ne_members x j))]
      exact hr.zero j hj
    · simp only [hA] at hj
      simp only [w.msg] at hg
      simp only [w.last, upd_other _ _ (Ne.symm (data_ne_members x j))]
      exact hr.cov hf j g hj hg
    · simp only [w.mine (Ne.symm (data_ne_bot _))]; exact hr.bot
    · simp only [hA] at h0; exact hr.grown h0
    · simp only [w.last]
      by_cases hy : y = x
      · subst hy; rw [upd_same]; exact w.new
      · rw [upd_other _ _ (fun he => hy (data_inj.1 he)), w.cur _ (fun he => hy (data_inj.1 he))]; exact hr.data y

theorem step_race {s s' : State} {l : List Nat} {o : List Obs} {e : Event} {n : Nat} (h : Inv s l T L E) (hr : RaceInv s n) (hs : step s e = some (s', o)) :
    RaceInv s' (n + pushed o) ∧ Races s o n := by
  obtain ⟨s1, h1, rfl⟩ := step_act hs
  obtain ⟨h2, h3⟩ := act_race h hr h1
  exact ⟨⟨h2.zero, h2.cov, h2.bot, h2.own, h2.grown, h2.data⟩, h3⟩

theorem init_race (p : Nat → Bool) (fix : Bool) (cap : Nat) : RaceInv (init p fix cap) 0 :=
  ⟨fun _ _ => rfl, fun _ _ _ _ _ => Nat.zero_le _, Nat.le_refl _, trivial, fun h => absurd rfl h, fun _ => Nat.le_refl _⟩

theorem reach_race {s : State} {tr : List Obs} {p : Nat → Bool} {fix : Bool} {cap : Nat} (hc : 0 < cap) (h : Reach step (init p fix cap) s tr) :
    RaceInv s (pushed tr) ∧ (∀ k, Obs.race k ∈ tr → fix = false ∧ cap ≤ pushed tr) ∧ ∀ k x, Obs.torn k x ∉ tr :=
  h.inv (fun s tr => RaceInv s (pushed tr) ∧ (∀ k, Obs.race k ∈ tr → fix = false ∧ cap ≤ pushed tr) ∧ ∀ k x, Obs.torn k x ∉ tr)
    ⟨init_race p fix cap, by simp, by simp⟩
    (fun s tr e s' o hr hi hs => by
      obtain ⟨⟨h1, h2, _⟩, _, _, T, L, E, h5⟩ := reach_inv hc hr
      obtain ⟨h6, h7, h9, _⟩ := step_race h5 hi.1 hs
      rw [h1, h2] at h7
      rw [pushed_append]
      refine ⟨h6, fun k hk => ?_, fun k x hk => ?_⟩
      · rcases List.mem_append.1 hk with h8 | h8
        · exact ⟨(hi.2.1 k h8).1, Nat.le_trans (hi.2.1 k h8).2 (Nat.le_add_right _ _)⟩
        · exact ⟨(h7 k h8).1, Nat.le_trans (h7 k h8).2 (Nat.le_add_right _ _)⟩
      · rcases List.mem_append.1 hk with h8 | h8
        · exact hi.2.2 k x h8
        · exact h9 k x h8)

end Verif.WeakSpmc
