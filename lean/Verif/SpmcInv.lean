import Verif.Spmc

/-! # The lock-free ready queue: invariant and simulation -/

namespace Verif.Spmc

/-- The index behind the youngest element. -/
def State.B (s : State) : Nat :=
  match s.own with
  | .popTop b | .popCas b _ | .popFix b => b + 1
  | _ => s.bottom

/-- The element with index `i`. -/
def State.el (s : State) (i : Nat) : Option Nat := (s.arrs s.cur).get i

/-- What the owner knows. -/
def ownInv (s : State) : Prop :=
  match s.own with
  | .idle => s.bottom = 0 → s.top = 0
  | .pushTop _ => s.bottom = 0 → s.top = 0
  | .pushGrow _ t => t ≤ s.top ∧ s.bottom ≤ t + (s.arrs s.cur).cap
  | .pushSlot _ => s.bottom < s.top + (s.arrs s.cur).cap
  | .pushBot x => s.bottom < s.top + (s.arrs s.cur).cap ∧ s.el s.bottom = some x
  | .popTop b => s.bottom = b
  | .popCas b x => s.bottom = b ∧ b ≤ s.top ∧ (s.top = b → s.el b = some x)
  | .popFix b => s.bottom = b ∧ s.top = b + 1

/-- What a thief knows. -/
def thInv (s : State) : TPc → Prop
  | .idle => True
  | .bot t => t ≤ s.top
  | .arr t => t ≤ s.top ∧ (t = s.top → t < s.B)
  | .read t a => t ≤ s.top ∧ (t = s.top → t < s.B ∧ (s.arrs a).get t = s.el t) ∧ a ≤ s.cur
  | .pin t x => t ≤ s.top ∧ (t = s.top → t < s.B ∧ s.el t = some x)
  | .cas t x => t ≤ s.top ∧ (t = s.top → t < s.B ∧ s.el t = some x) ∧ s.pinned x = false

/-- The queue represents `l`. -/
structure Inv (s : State) (l : List Nat) : Prop where
  lax  : s.lax = false
  cap  : 0 < (s.arrs s.cur).cap
  le   : s.top ≤ s.B
  fits : s.B ≤ s.top + (s.arrs s.cur).cap
  len  : l.length = s.B - s.top
  el   : ∀ i, i < l.length → s.el (s.top + i) = l[i]?
  own  : ownInv s
  th   : ∀ i, thInv s (s.th i)

theorem inv_init {p : Nat → Bool} {cap : Nat} (h : 0 < cap) : Inv (init p false cap) [] :=
  ⟨rfl, h, Nat.le_refl _, by simp [init, State.B], rfl, by simp, fun _ => rfl, fun _ => trivial⟩

variable {s s' : State} {l : List Nat} {o : List Obs}

/-- A step that changes only the program points. -/
theorem Inv.th_only (h : Inv s l) {i : Nat} {p : TPc} (hp : thInv s p) : Inv { s with th := upd s.th i p } l := by
  obtain ⟨h1, h2, h3, h4, h5, h6, h7, h8⟩ := h
  refine ⟨h1, h2, h3, h4, h5, h6, h7, fun j => ?_⟩
  by_cases hj : j = i
  · subst hj; simp only [upd_same]; cases p <;> exact hp
  · simp only [upd_apply, hj, if_false]; have := h8 j; revert this; cases s.th j <;> exact id

/-- The logical bottom, the top and the elements stay the same. -/
theorem thInv_mono {p : TPc} (h : thInv s p) (ht : s'.top = s.top) (hB : s.top < s.B → s'.top < s'.B) (hp : s'.pinned = s.pinned) (hc : s.cur ≤ s'.cur)
    (he : s.top < s.B → s'.el s.top = s.el s.top) (ha : s.top < s.B → ∀ a, a ≤ s.cur → (s'.arrs a).get s.top = (s.arrs a).get s.top) : thInv s' p := by
  cases p with
  | idle => trivial
  | bot t => simpa [thInv, ht] using h
  | arr t =>
    refine ⟨by rw [ht]; exact h.1, fun e => ?_⟩
    rw [ht] at e; subst e; rw [← ht]; exact hB (h.2 rfl)
  | read t a =>
    refine ⟨by rw [ht]; exact h.1, fun e => ?_, Nat.le_trans h.2.2 hc⟩
    rw [ht] at e; subst e
    have := h.2.1 rfl
    exact ⟨by have := hB this.1; rwa [ht] at this, by rw [ha this.1 a h.2.2, he this.1]; exact this.2⟩
  | pin t x =>
    refine ⟨by rw [ht]; exact h.1, fun e => ?_⟩
    rw [ht] at e; subst e
    have := h.2 rfl
    exact ⟨by have := hB this.1; rwa [ht] at this, by rw [he this.1]; exact this.2⟩
  | cas t x =>
    refine ⟨by rw [ht]; exact h.1, fun e => ?_, by rw [hp]; exact h.2.2⟩
    rw [ht] at e; subst e
    have := h.2.1 rfl
    exact ⟨by have := hB this.1; rwa [ht] at this, by rw [he this.1]; exact this.2⟩

/-- The top advances. -/
theorem thInv_top {p : TPc} (h : thInv s p) (ht : s'.top = s.top + 1) (hp : s'.pinned = s.pinned) (hc : s'.cur = s.cur) : thInv s' p := by
  cases p with
  | idle => trivial
  | bot t => have : t ≤ s.top := h; simp only [thInv]; omega
  | arr t => have := h.1; exact ⟨by omega, fun e => by omega⟩
  | read t a => have := h.1; exact ⟨by omega, fun e => by omega, by rw [hc]; exact h.2.2⟩
  | pin t x => have := h.1; exact ⟨by omega, fun e => by omega⟩
  | cas t x => have := h.1; exact ⟨by omega, fun e => by omega, by rw [hp]; exact h.2.2⟩

theorem inv_own (h : Inv s l) (hs : ownStep s = some (s', o)) : Runs l o ∧ Inv s' (o.foldl after l) := by
  obtain ⟨h1, h2, h3, h4, h5, h6, h7, h8⟩ := h
  unfold ownStep at hs
  split at hs
  · cases hs
  · -- pushTop
    rename_i x hp
    have hB : s.B = s.bottom := by simp [State.B, hp]
    rw [hB] at h3 h4 h5
    simp only [ownInv, hp] at h7
    have hsub : sub s.bottom s.top = s.bottom - s.top := by simp [sub, h3]
    rw [hsub] at hs
    split at hs <;> simp only [Option.some.injEq, Prod.mk.injEq] at hs <;> obtain ⟨rfl, rfl⟩ := hs
    · exact ⟨trivial, h1, h2, h3, h4, h5, h6, ⟨Nat.le_refl _, h4⟩,
        fun j => thInv_mono (h8 j) rfl (by rw [hB]; exact id) rfl (Nat.le_refl _) (fun _ => rfl) (fun _ _ _ => rfl)⟩
    · exact ⟨trivial, h1, h2, h3, h4, h5, h6, by simp only [ownInv]; omega,
        fun j => thInv_mono (h8 j) rfl (by rw [hB]; exact id) rfl (Nat.le_refl _) (fun _ => rfl) (fun _ _ _ => rfl)⟩
  · -- pushGrow
    rename_i x t hp
    have hB : s.B = s.bottom := by simp [State.B, hp]
    rw [hB] at h3 h4 h5
    simp only [ownInv, hp] at h7
    simp only [Option.some.injEq, Prod.mk.injEq] at hs
    obtain ⟨rfl, rfl⟩ := hs
    obtain ⟨g1, g2⟩ := grow_spec (s.arrs s.cur) (b := s.bottom) (t := t) (by omega) (by omega)
    refine ⟨trivial, h1, by simp; omega, h3, by simp only [upd_same, g1, State.B]; omega, h5, fun i hi => ?_, by simp only [ownInv, upd_same, g1]; omega, fun j => ?_⟩
    · simp only [List.foldl_nil] at hi ⊢
      rw [← h6 i hi]; simp only [State.el, upd_same]; exact g2 _ (by omega) (by omega)
    · refine thInv_mono (h8 j) rfl (by rw [hB]; exact id) rfl (Nat.le_succ _) (fun hh => ?_) (fun _ a ha => ?_)
      · simp only [State.el, upd_same]; exact g2 _ (by omega) (by omega)
      · simp only [upd_apply]; rw [if_neg (by omega)]
  · -- pushSlot
    rename_i x hp
    have hB : s.B = s.bottom := by simp [State.B, hp]
    rw [hB] at h3 h4 h5
    simp only [ownInv, hp] at h7
    simp only [Option.some.injEq, Prod.mk.injEq] at hs
    obtain ⟨rfl, rfl⟩ := hs
    have he : ∀ i, s.top ≤ i → i < s.bottom → ((s.arrs s.cur).put s.bottom (some x)).get i = (s.arrs s.cur).get i :=
      fun i g1 g2 => get_put_ne _ _ (mod_ne g2 (by omega))
    refine ⟨trivial, h1, by simpa [Arr.put] using h2, h3, by simpa [Arr.put, State.B] using h4, h5, fun i hi => ?_,
      ⟨by simpa [Arr.put] using h7, by simp [State.el, get_put]⟩, fun j => ?_⟩
    · simp only [List.foldl_nil] at hi ⊢
      rw [← h6 i hi]; simp only [State.el, upd_same]; exact he _ (by omega) (by omega)
    · refine thInv_mono (h8 j) rfl (by rw [hB]; exact id) rfl (Nat.le_refl _) (fun hh => ?_) (fun hh a ha => ?_)
      · simp only [State.el, upd_same]; exact he _ (by omega) (by omega)
      · simp only [upd_apply]; split
        · subst_vars; exact he _ (by omega) (by omega)
        · rfl
  · -- pushBot
    rename_i x hp
    have hB : s.B = s.bottom := by simp [State.B, hp]
    rw [hB] at h3 h4 h5
    simp only [ownInv, hp] at h7
    simp only [Option.some.injEq, Prod.mk.injEq] at hs
    obtain ⟨rfl, rfl⟩ := hs
    refine ⟨⟨trivial, trivial⟩, h1, h2, by simp only [State.B]; omega, by simp only [State.B]; omega, by simp [after, State.B]; omega, fun i hi => ?_,
      by simp only [ownInv]; omega, fun j => ?_⟩
    · simp only [List.foldl_cons, List.foldl_nil, after, List.length_append, List.length_singleton] at hi ⊢
      by_cases g : i < l.length
      · rw [List.getElem?_append_left g]; exact h6 i g
      · have g : i = l.length := by omega
        subst g
        rw [List.getElem?_concat_length, ← h7.2]
        change s.el (s.top + l.length) = s.el s.bottom; congr 1; omega
    · exact thInv_mono (h8 j) rfl (by rw [hB]; simp only [State.B]; omega) rfl (Nat.le_refl _) (fun _ => rfl) (fun _ _ _ => rfl)
  · -- popTop
    rename_i b hp
    have hB : s.B = b + 1 := by simp [State.B, hp]
    rw [hB] at h3 h4 h5
    simp only [ownInv, hp] at h7
    by_cases hb : s.top ≤ b
    · have hb' := h6 (b - s.top) (by omega)
      rw [show s.top + (b - s.top) = b by omega] at hb'
      have hx : ∃ x, (s.arrs s.cur).get b = some x ∧ l[b - s.top]? = some x := by
        cases e : l[b - s.top]? with
        | none => rw [List.getElem?_eq_none_iff] at e; omega
        | some x => rw [e] at hb'; exact ⟨x, hb', rfl⟩
      obtain ⟨x, hx, hl⟩ := hx
      simp only [hb, if_true, hx] at hs
      split at hs <;> simp only [Option.some.injEq, Prod.mk.injEq] at hs <;> obtain ⟨rfl, rfl⟩ := hs
      · exact ⟨trivial, h1, h2, h3, h4, h5, h6, ⟨h7, by rename_i e; simp only; omega, fun _ => hx⟩,
          fun j => thInv_mono (h8 j) rfl (by rw [hB]; exact id) rfl (Nat.le_refl _) (fun _ => rfl) (fun _ _ _ => rfl)⟩
      · rename_i hne
        have hne' : l ≠ [] := by intro e; subst e; simp at hl
        have hd : l = l.dropLast ++ [x] := by
          have := List.dropLast_concat_getLast hne'
          rw [List.getLast_eq_getElem] at this
          obtain ⟨g1, g2⟩ := List.getElem?_eq_some_iff.1 hl
          have g3 : b - s.top = l.length - 1 := by omega
          simp only [g3] at g2
          rw [g2] at this
          exact this.symm
        refine ⟨⟨⟨_, hd⟩, trivial⟩, h1, h2, by simp only [State.B]; omega, by simp only [State.B]; omega, by simp [after, State.B]; omega, fun i hi => ?_,
          by simp only [ownInv]; omega, fun j => ?_⟩
        · simp only [List.foldl_cons, List.foldl_nil, after, List.length_dropLast] at hi ⊢
          have := h6 i (by omega)
          rw [List.getElem?_dropLast, if_pos (by omega)]; exact this
        · exact thInv_mono (h8 j) rfl (by rw [hB]; simp only [State.B]; omega) rfl (Nat.le_refl _) (fun _ => rfl) (fun _ _ _ => rfl)
    · simp only [hb, if_false, Option.some.injEq, Prod.mk.injEq] at hs
      obtain ⟨rfl, rfl⟩ := hs
      have : l = [] := List.eq_nil_of_length_eq_zero (by omega)
      exact ⟨⟨this, trivial⟩, h1, h2, h3, h4, h5, h6, ⟨h7, by simp only; omega⟩,
        fun j => thInv_mono (h8 j) rfl (by rw [hB]; exact id) rfl (Nat.le_refl _) (fun _ => rfl) (fun _ _ _ => rfl)⟩
  · -- popCas
    rename_i b x hp
    have hB : s.B = b + 1 := by simp [State.B, hp]
    rw [hB] at h3 h4 h5
    simp only [ownInv, hp] at h7
    split at hs <;> simp only [Option.some.injEq, Prod.mk.injEq] at hs <;> obtain ⟨rfl, rfl⟩ := hs
    · rename_i e
      have hl : l = [x] := by
        have g1 := h6 0 (by omega)
        rw [Nat.add_zero, e, h7.2.2 e] at g1
        match l, h5, g1 with
        | [y], _, g1 => simpa using g1.symm
        | [], g, _ => simp at g; omega
        | _ :: _ :: _, g, _ => simp at g; omega
      subst hl
      refine ⟨⟨⟨[], rfl⟩, trivial⟩, h1, h2, by simp only [State.B]; omega, by simp only [State.B]; omega, by simp [after, State.B], by simp [after],
        ⟨h7.1, rfl⟩, fun j => thInv_top (h8 j) (by simp only; omega) rfl rfl⟩
    · rename_i e
      have : l = [] := List.eq_nil_of_length_eq_zero (by omega)
      exact ⟨⟨this, trivial⟩, h1, h2, h3, h4, h5, h6, ⟨h7.1, by simp only; omega⟩,
        fun j => thInv_mono (h8 j) rfl (by rw [hB]; exact id) rfl (Nat.le_refl _) (fun _ => rfl) (fun _ _ _ => rfl)⟩
  · -- popFix
    rename_i b hp
    have hB : s.B = b + 1 := by simp [State.B, hp]
    rw [hB] at h3 h4 h5
    simp only [ownInv, hp] at h7
    simp only [Option.some.injEq, Prod.mk.injEq] at hs
    obtain ⟨rfl, rfl⟩ := hs
    exact ⟨trivial, h1, h2, h3, h4, h5, h6, by simp [ownInv],
      fun j => thInv_mono (h8 j) rfl (by rw [hB]; exact id) rfl (Nat.le_refl _) (fun _ => rfl) (fun _ _ _ => rfl)⟩

theorem inv_thief {i : Nat} (h : Inv s l) (hs : thiefStep s i = some (s', o)) : Runs l o ∧ Inv s' (o.foldl after l) := by
  have hth := h.th i
  unfold thiefStep at hs
  split at hs
  · cases hs
  · rename_i t hp
    rw [hp] at hth
    have hb : s.bottom ≤ s.B := by
      have := h.own
      unfold ownInv at this; unfold State.B
      split at this <;> simp_all
    split at hs <;> simp only [Option.some.injEq, Prod.mk.injEq] at hs <;> obtain ⟨rfl, rfl⟩ := hs
    · exact ⟨trivial, h.th_only ⟨hth, fun e => by omega⟩⟩
    · exact ⟨⟨trivial, trivial⟩, h.th_only trivial⟩
  · rename_i t hp
    rw [hp] at hth
    simp only [Option.some.injEq, Prod.mk.injEq] at hs
    obtain ⟨rfl, rfl⟩ := hs
    exact ⟨trivial, h.th_only ⟨hth.1, fun e => ⟨hth.2 e, rfl⟩, Nat.le_refl _⟩⟩
  · rename_i t a hp
    rw [hp] at hth
    split at hs <;> simp only [Option.some.injEq, Prod.mk.injEq] at hs <;> obtain ⟨rfl, rfl⟩ := hs
    · exact ⟨⟨trivial, trivial⟩, h.th_only trivial⟩
    · rename_i x hx
      exact ⟨trivial, h.th_only ⟨hth.1, fun e => ⟨(hth.2.1 e).1, by rw [← (hth.2.1 e).2, hx]⟩⟩⟩
  · rename_i t x hp
    rw [hp] at hth
    split at hs <;> simp only [Option.some.injEq, Prod.mk.injEq] at hs <;> obtain ⟨rfl, rfl⟩ := hs
    · exact ⟨⟨trivial, trivial, trivial⟩, h.th_only trivial⟩
    · rename_i hx
      exact ⟨⟨trivial, trivial⟩, h.th_only ⟨hth.1, hth.2, by simpa using hx⟩⟩
  · rename_i t x hp
    rw [hp] at hth
    split at hs <;> simp only [Option.some.injEq, Prod.mk.injEq] at hs <;> obtain ⟨rfl, rfl⟩ := hs
    · rename_i e
      obtain ⟨g1, g2⟩ := hth.2.1 e.symm
      obtain ⟨h1, h2, h3, h4, h5, h6, h7, h8⟩ := h
      have g3 := h6 0 (by omega)
      rw [Nat.add_zero, e, g2] at g3
      cases l with
      | nil => simp at g3
      | cons y l =>
        simp only [List.length_cons] at h5 h6
        have : x = y := by simpa using g3
        subst this
        have hB : State.B { s with top := t + 1, th := upd s.th i .idle } = s.B := rfl
        refine ⟨⟨⟨l, rfl⟩, trivial⟩, h1, h2, by rw [hB]; simp only; omega, by rw [hB]; simp only; omega, by rw [hB]; simp [after]; omega, fun j hj => ?_, ?_, fun j => ?_⟩
        · simp only [List.foldl_cons, List.foldl_nil, after, List.tail_cons] at hj ⊢
          have := h6 (j + 1) (by omega)
          simp only [List.getElem?_cons_succ] at this
          rw [← this, e]
          change s.el _ = s.el _; congr 1; omega
        · have := h7
          unfold ownInv State.B at *
          revert this g1
          cases ho : s.own <;> simp only [State.el] <;> intros <;> simp_all <;> omega
        · by_cases hj : j = i
          · subst hj; simp only [upd_same]; trivial
          · simp only [upd_apply, hj, if_false]; exact thInv_top (h8 j) (by simp only; omega) rfl rfl
    · exact ⟨⟨trivial, trivial⟩, h.th_only trivial⟩

theorem inv_step {e : Event} (h : Inv s l) (hs : step s e = some (s', o)) : Runs l o ∧ Inv s' (o.foldl after l) := by
  cases e with
  | push x =>
    simp only [step] at hs
    split at hs
    case isFalse => cases hs
    rename_i hp
    simp only [Option.some.injEq, Prod.mk.injEq] at hs
    obtain ⟨rfl, rfl⟩ := hs
    obtain ⟨h1, h2, h3, h4, h5, h6, h7, h8⟩ := h
    have hB : s.B = s.bottom := by simp [State.B, hp]
    rw [hB] at h3 h4 h5
    simp only [ownInv, hp] at h7
    exact ⟨trivial, h1, h2, h3, h4, h5, h6, h7,
      fun j => thInv_mono (h8 j) rfl (by rw [hB]; exact id) rfl (Nat.le_refl _) (fun _ => rfl) (fun _ _ _ => rfl)⟩
  | pop =>
    simp only [step] at hs
    split at hs
    case isFalse => cases hs
    rename_i hp
    simp only [Option.some.injEq, Prod.mk.injEq] at hs
    obtain ⟨rfl, rfl⟩ := hs
    obtain ⟨h1, h2, h3, h4, h5, h6, h7, h8⟩ := h
    obtain ⟨hp, hpos⟩ := hp
    have hpos : 0 < s.bottom := by simpa [h1] using hpos
    have hsub : sub s.bottom 1 = s.bottom - 1 := by simp [sub]; omega
    have hB : s.B = s.bottom := by simp [State.B, hp]
    rw [hB] at h3 h4 h5
    rw [hsub]
    refine ⟨trivial, h1, h2, by simp only [State.B]; omega, by simp only [State.B]; omega, by simp only [List.foldl_nil, State.B]; omega, h6, rfl, fun j => ?_⟩
    exact thInv_mono (h8 j) rfl (by rw [hB]; simp only [State.B]; omega) rfl (Nat.le_refl _) (fun _ => rfl) (fun _ _ _ => rfl)
  | empty =>
    simp only [step] at hs
    split at hs
    case isFalse => cases hs
    rename_i hp
    simp only [Option.some.injEq, Prod.mk.injEq] at hs
    obtain ⟨rfl, rfl⟩ := hs
    refine ⟨⟨?_, trivial⟩, h⟩
    have h3 := h.le
    have h5 := h.len
    have hB : s.B = s.bottom := by simp [State.B, hp]
    rw [hB] at h3 h5
    simp only [ok, decide_eq_true_eq]
    constructor
    · intro; exact List.eq_nil_of_length_eq_zero (by omega)
    · rintro rfl; simp at h5; omega
  | own => exact inv_own h hs
  | steal i =>
    simp only [step] at hs
    split at hs
    case isFalse => cases hs
    simp only [Option.some.injEq, Prod.mk.injEq] at hs
    obtain ⟨rfl, rfl⟩ := hs
    exact ⟨trivial, h.th_only (Nat.le_refl s.top)⟩
  | thief i => exact inv_thief h hs

theorem replay_append (a b : List Obs) : replay (a ++ b) = b.foldl after (replay a) := List.foldl_append

theorem reach_inv {p : Nat → Bool} {cap : Nat} {tr : List Obs} (hc : 0 < cap) (h : Reach step (init p false cap) s tr) :
    Runs [] tr ∧ Inv s (replay tr) := by
  induction h with
  | refl => exact ⟨trivial, inv_init hc⟩
  | tail e _ hs ih =>
    have := inv_step ih.2 hs
    exact ⟨ih.1.append this.1, by rw [replay_append]; exact this.2⟩

end Verif.Spmc
