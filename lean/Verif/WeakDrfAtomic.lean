import Verif.WeakDrfInv

/-!
# Programs with locks: critical sections as single steps

Reduction (Lipton): the steps of a critical section commute with what other threads do, until the section is in one piece.
-/

namespace Verif.WeakDrf

open Verif.Rtm (Tid Lock Addr Req Done Hist Prog mine owner value Legal Allowed holding owner_iff)

variable {prog : Prog} {right : Hist → Addr → Nat → Right}

theorem legal_suffix {L h : Hist} (hl : Legal prog (L ++ h)) : Legal prog h := by
  induction L with
  | nil => exact hl
  | cons e L ih => exact ih hl.2

/-- Who has the right to access data does not change when data are accessed. -/
theorem right_access (hR : Rights prog right) {t : Tid} {d : Done} {h : Hist} (hl : Legal prog ((t, d) :: h))
    (hd : (∃ a v, d = .got a v) ∨ ∃ a v, d = .put a v) (a : Addr) (i : Nat) : right ((t, d) :: h) a i = right h a i := by
  rcases (hR t d h hl).2.2 a i with h1 | ⟨l, h1, _⟩ | ⟨l, h1, _⟩
  · exact h1
  · subst h1; simp at hd
  · subst h1; simp at hd

/-- Two threads do not use the same data one right after the other, if one of them writes. -/
theorem no_conflict (hR : Rights prog right) {t u : Tid} {d e : Done} {h : Hist} {a : Addr} {v w : Nat} (hne : u ≠ t)
    (hl : Legal prog ((t, d) :: (u, e) :: h)) (hd : d = .got a v ∨ d = .put a v) (he : e = .got a w ∨ e = .put a w) (hw : d = .put a v ∨ e = .put a w) : False := by
  have h1 : ∃ i, right ((u, e) :: h) a i = .thread t := by
    rcases hd with hd | hd
    · exact (hR _ _ _ hl).1 a v hd
    · exact ⟨0, (hR _ _ _ hl).2.1 a v hd 0⟩
  have h2 : ∃ i, right h a i = .thread u := by
    rcases he with he | he
    · exact (hR _ _ _ hl.2).1 a w he
    · exact ⟨0, (hR _ _ _ hl.2).2.1 a w he 0⟩
  have h3 := right_access hR hl.2 (by rcases he with h | h <;> subst h <;> simp) a
  obtain ⟨i, h1⟩ := h1
  obtain ⟨j, h2⟩ := h2
  rcases hw with hw | hw
  · have h4 := (hR _ _ _ hl).2.1 a v hw j
    rw [h3, h2] at h4
    exact hne (Right.thread.inj h4)
  · have h4 := (hR _ _ _ hl.2).2.1 a w hw i
    rw [h3, h4] at h1
    exact hne (Right.thread.inj h1)

/-- Neighbouring steps of two threads may be exchanged, unless the first one releases the lock that the second one takes. -/
theorem swap (hR : Rights prog right) {t u : Tid} {d e : Done} {h : Hist} (hne : u ≠ t) (hl : Legal prog ((t, d) :: (u, e) :: h))
    (hx : ∀ l, ¬ (e = .released l ∧ d = .acquired l)) :
    Legal prog ((u, e) :: (t, d) :: h) ∧ ∀ a, value ((u, e) :: (t, d) :: h) a = value ((t, d) :: (u, e) :: h) a := by
  have hc := fun a v w => no_conflict hR (a := a) (v := v) (w := w) hne hl
  obtain ⟨hd, he, hl'⟩ := hl
  have m1 : mine ((u, e) :: h) t = mine h t := mine_cons_other (fun h => hne h.symm) e h
  have m2 : mine ((t, d) :: h) u = mine h u := mine_cons_other hne d h
  refine ⟨⟨?_, ?_, hl'⟩, ?_⟩
  · cases d <;> cases e <;> simp only [Allowed, owner, value, m1, m2] at hd he hc hx ⊢ <;> grind
  · cases d <;> cases e <;> simp only [Allowed, owner, value, m1, m2] at hd he hc hx ⊢ <;> grind
  · intro a
    cases d <;> cases e <;> simp only [value] at hc ⊢ <;> grind

/-- Swapping below other steps. -/
theorem swap_under {L h1 h2 : Hist} (hm : ∀ t, mine h2 t = mine h1 t) (ho : ∀ l, owner h2 l = owner h1 l) (hv : ∀ a, value h2 a = value h1 a)
    (h2l : Legal prog h2) (hl : Legal prog (L ++ h1)) :
    Legal prog (L ++ h2) ∧ (∀ t, mine (L ++ h2) t = mine (L ++ h1) t) ∧ (∀ l, owner (L ++ h2) l = owner (L ++ h1) l) ∧
      ∀ a, value (L ++ h2) a = value (L ++ h1) a := by
  induction L with
  | nil => exact ⟨h2l, hm, ho, hv⟩
  | cons e L ih =>
    obtain ⟨t, d⟩ := e
    obtain ⟨ha, hl⟩ := hl
    obtain ⟨i1, i2, i3, i4⟩ := ih hl
    refine ⟨⟨?_, i1⟩, ?_, ?_, ?_⟩
    · simp only [List.append_eq] at ha ⊢
      cases d <;> simp only [Allowed, i2, i3, i4] at ha ⊢ <;> exact ha
    · intro u
      by_cases hu : u = t
      · subst hu; simp only [List.cons_append, mine_cons_same, i2]
      · simp only [List.cons_append, mine_cons_other hu, i2]
    · intro l; cases d <;> simp only [List.cons_append, owner, i3]
    · intro l; cases d <;> simp only [List.cons_append, value, i4]

theorem mine_append (L h : Hist) (t : Tid) : mine (L ++ h) t = mine L t ++ mine h t := by simp [mine]

theorem mine_nil (t : Tid) : mine [] t = [] := rfl

/-- Same steps of each thread, same locks, same data. -/
def Same (h h' : Hist) : Prop := (∀ t, mine h' t = mine h t) ∧ (∀ l, owner h' l = owner h l) ∧ ∀ a, value h' a = value h a

theorem same_owner {h h' : Hist} (hl : Legal prog h) (hl' : Legal prog h') (hm : ∀ t, mine h' t = mine h t) (l : Lock) :
    owner h' l = owner h l := by
  have h1 : ∀ t, owner h' l = some t ↔ owner h l = some t := fun t => by rw [owner_iff hl', owner_iff hl, hm]
  cases h2 : owner h l with
  | none =>
    cases h3 : owner h' l with
    | none => rfl
    | some t => rw [(h1 t).1 h3] at h2; cases h2
  | some t => exact (h1 t).2 h2

/-- A step that takes no lock moves back past steps of other threads. -/
theorem move_back (hR : Rights prog right) {t : Tid} {d : Done} {h : Hist} (hd : ∀ l, d ≠ .acquired l) :
    ∀ {L : Hist}, mine L t = [] → Legal prog ((t, d) :: (L ++ h)) →
      Legal prog (L ++ (t, d) :: h) ∧ Same ((t, d) :: (L ++ h)) (L ++ (t, d) :: h) := by
  intro L
  induction L with
  | nil => intro _ hl; exact ⟨hl, fun _ => rfl, fun _ => rfl, fun _ => rfl⟩
  | cons e L ih =>
    intro hm hl
    obtain ⟨u, e⟩ := e
    have hu : u ≠ t := by
      rintro rfl
      rw [mine_cons_same] at hm; cases hm
    rw [mine_cons_other (fun h => hu h.symm)] at hm
    obtain ⟨h1, h2⟩ := swap hR hu hl (fun l h => hd l h.2)
    have hsm : ∀ v, mine ((u, e) :: (t, d) :: (L ++ h)) v = mine ((t, d) :: (u, e) :: (L ++ h)) v := by
      intro v
      by_cases hv : v = u
      · subst hv; rw [mine_cons_same, mine_cons_other hu, mine_cons_other hu, mine_cons_same]
      · rw [mine_cons_other hv]
        by_cases hv' : v = t
        · subst hv'; rw [mine_cons_same, mine_cons_same, mine_cons_other hv]
        · rw [mine_cons_other hv', mine_cons_other hv', mine_cons_other hv]
    obtain ⟨h3, h4, h5, h6⟩ := ih hm h1.2
    obtain ⟨h7, h8, h9, h10⟩ := swap_under (L := [(u, e)]) h4 h5 h6 h3 h1
    refine ⟨h7, fun v => ?_, fun l => ?_, fun a => ?_⟩
    · exact (h8 v).trans (hsm v)
    · exact (h9 l).trans (same_owner hl h1 hsm l)
    · exact (h10 a).trans (h2 a)

/-- Steps of a thread that release no lock move on past steps of other threads. -/
theorem move_on (hR : Rights prog right) {t : Tid} {h : Hist} {B : Hist} (hB : ∀ e ∈ B, e.1 = t ∧ ∀ l, e.2 ≠ .released l) :
    ∀ {L : Hist}, mine L t = [] → Legal prog (L ++ (B ++ h)) → Legal prog (B ++ (L ++ h)) ∧ Same (L ++ (B ++ h)) (B ++ (L ++ h)) := by
  -- one step of another thread
  have one : ∀ {u : Tid} {e : Done} {B h : Hist}, (∀ e ∈ B, e.1 = t ∧ ∀ l, e.2 ≠ .released l) → u ≠ t → Legal prog ((u, e) :: (B ++ h)) →
      Legal prog (B ++ (u, e) :: h) ∧ Same ((u, e) :: (B ++ h)) (B ++ (u, e) :: h) := by
    intro u e B
    induction B with
    | nil => intro h _ _ hl; exact ⟨hl, fun _ => rfl, fun _ => rfl, fun _ => rfl⟩
    | cons b B ih =>
      intro h hB hu hl
      obtain ⟨t', d⟩ := b
      have hb := hB (t', d) (by simp)
      obtain ⟨rfl, hb2⟩ := hb
      obtain ⟨h1, h2⟩ := swap hR (fun h => hu h.symm) hl (fun l h => hb2 l h.1)
      have hsm : ∀ v, mine ((t', d) :: (u, e) :: (B ++ h)) v = mine ((u, e) :: (t', d) :: (B ++ h)) v := by
        intro v
        by_cases hv : v = u
        · subst hv; rw [mine_cons_same, mine_cons_other hu, mine_cons_other hu, mine_cons_same]
        · rw [mine_cons_other hv]
          by_cases hv' : v = t'
          · subst hv'; rw [mine_cons_same, mine_cons_same, mine_cons_other hv]
          · rw [mine_cons_other hv', mine_cons_other hv', mine_cons_other hv]
      obtain ⟨h3, h4, h5, h6⟩ := ih (fun e he => hB e (by simp [he])) hu h1.2
      obtain ⟨h7, h8, h9, h10⟩ := swap_under (L := [(t', d)]) h4 h5 h6 h3 h1
      refine ⟨h7, fun v => ?_, fun l => ?_, fun a => ?_⟩
      · exact (h8 v).trans (hsm v)
      · exact (h9 l).trans (same_owner hl h1 hsm l)
      · exact (h10 a).trans (h2 a)
  intro L
  induction L with
  | nil => intro _ hl; exact ⟨hl, fun _ => rfl, fun _ => rfl, fun _ => rfl⟩
  | cons e L ih =>
    intro hm hl
    obtain ⟨u, e⟩ := e
    have hu : u ≠ t := by
      rintro rfl
      rw [mine_cons_same] at hm; cases hm
    rw [mine_cons_other (fun h => hu h.symm)] at hm
    obtain ⟨h1, h2, h3, h4⟩ := ih hm hl.2
    obtain ⟨h5, h6, h7, h8⟩ := swap_under (L := [(u, e)]) h2 h3 h4 h1 hl
    obtain ⟨h9, h10, h11, h12⟩ := one hB hu h5
    exact ⟨h9, fun v => (h10 v).trans (h6 v), fun l => (h11 l).trans (h7 l), fun a => (h12 a).trans (h8 a)⟩

/-! ## The steps of a history in order of threads -/

/-- The last step of a thread in a history. -/
theorem last_step {t : Tid} : ∀ {h : Hist}, mine h t ≠ [] → ∃ L d h1, h = L ++ (t, d) :: h1 ∧ mine L t = [] := by
  intro h
  induction h with
  | nil => intro hm; exact absurd rfl hm
  | cons e h ih =>
    intro hm
    obtain ⟨u, d⟩ := e
    by_cases hu : u = t
    · subst hu; exact ⟨[], d, h, rfl, rfl⟩
    · have hu' : t ≠ u := fun h => hu h.symm
      rw [mine_cons_other hu'] at hm
      obtain ⟨L, d', h1, rfl, h2⟩ := ih hm
      exact ⟨(u, d) :: L, d', h1, rfl, by rw [mine_cons_other hu']; exact h2⟩

/-- A thread holds no lock. -/
def Idle (p : List Done) : Prop := ∀ l, holding p l = false

theorem idle_or (p : List Done) : Idle p ∨ ∃ l, holding p l = true := by
  by_cases h : ∃ l, holding p l = true
  · exact .inr h
  · exact .inl fun l => by
      cases hh : holding p l with
      | false => rfl
      | true => exact absurd ⟨l, hh⟩ h

/-- The section in which a thread is, in a history with uninterrupted sections, if it releases no lock in it. -/
theorem block {t : Tid} : ∀ {h1 : Hist} {L : Hist} {d : Done}, Legal prog (L ++ (t, d) :: h1) → Atomic (L ++ (t, d) :: h1) →
    (∃ l, holding (mine ((t, d) :: h1) t) l = true) → ¬ Shrinking (mine ((t, d) :: h1) t) →
    ∃ B h0, (t, d) :: h1 = B ++ h0 ∧ B ≠ [] ∧ (∀ e ∈ B, e.1 = t ∧ ∀ l, e.2 ≠ .released l) ∧ Idle (mine h0 t) := by
  intro h1
  induction h1 with
  | nil =>
    intro L d hl ha hh hs
    refine ⟨[(t, d)], [], rfl, by simp, ?_, fun l => rfl⟩
    intro e he
    simp only [List.mem_singleton] at he
    subst he
    refine ⟨rfl, fun l hc => hs ?_⟩
    simp only at hc
    subst hc
    rw [mine_cons_same] at hh ⊢
    exact hh
  | cons e h2 ih =>
    intro L d hl ha hh hs
    obtain ⟨u, c⟩ := e
    have hrel : ∀ l, d ≠ .released l := by
      intro l hc
      subst hc
      rw [mine_cons_same] at hh hs
      exact hs hh
    have hs' : ¬ Shrinking (mine ((u, c) :: h2) t) := by
      rw [mine_cons_same] at hs
      cases d <;> simp only [Shrinking] at hs <;> first | exact hs | exact absurd rfl (hrel _)
    rcases idle_or (mine ((u, c) :: h2) t) with hi | hh'
    · refine ⟨[(t, d)], (u, c) :: h2, rfl, by simp, ?_, hi⟩
      intro e he
      simp only [List.mem_singleton] at he
      subst he
      exact ⟨rfl, hrel⟩
    · have hu : u = t := by
        refine Decidable.byContradiction fun hu => ?_
        have hu' : t ≠ u := fun h => hu h.symm
        obtain ⟨l, hl'⟩ := hh'
        rw [mine_cons_other hu'] at hl'
        have hle : Legal prog ((u, c) :: h2) := legal_suffix (L := L ++ [(t, d)]) (by simpa using hl)
        have := ha (L ++ [(t, d)]) u c h2 t l (by simp) hu ((owner_iff hle.2 t l).2 hl')
        rw [mine_append, mine_cons_same] at this
        simp at this
      subst hu
      obtain ⟨B, h0, h3, h4, h5, h6⟩ := ih (L := L ++ [(u, d)]) (d := c) (by simpa using hl) (by simpa using ha) hh' hs'
      refine ⟨(u, d) :: B, h0, by rw [h3]; rfl, by simp, ?_, h6⟩
      intro e he
      simp only [List.mem_cons] at he
      rcases he with rfl | he
      · exact ⟨rfl, hrel⟩
      · exact h5 e he

theorem mine_block {t u : Tid} {B : Hist} (hB : ∀ e ∈ B, e.1 = t) (hu : u ≠ t) : mine B u = [] := by
  induction B with
  | nil => rfl
  | cons b B ih =>
    obtain ⟨t', d⟩ := b
    have := hB (t', d) (by simp)
    simp only at this
    subst this
    rw [mine_cons_other hu]
    exact ih fun e he => hB e (by simp [he])

theorem mine_block_self {t : Tid} {B : Hist} (hB : ∀ e ∈ B, e.1 = t) (hne : B ≠ []) : mine B t ≠ [] := by
  cases B with
  | nil => exact absurd rfl hne
  | cons b B =>
    obtain ⟨t', d⟩ := b
    have := hB (t', d) (by simp)
    simp only at this
    subst this
    rw [mine_cons_same]; simp

/-- `h = A ++ C` split at an element: it is in `A` or in `C`. -/
theorem split_append {A C later earlier : Hist} {e : Tid × Done} (h : A ++ C = later ++ e :: earlier) :
    (∃ A2, A = later ++ e :: A2 ∧ earlier = A2 ++ C) ∨ ∃ C1, C = C1 ++ e :: earlier ∧ later = A ++ C1 := by
  rcases List.append_eq_append_iff.1 h with ⟨X, h1, h2⟩ | ⟨X, h1, h2⟩
  · exact .inr ⟨X, h2, h1⟩
  · cases X with
    | nil => simp at h1 h2; subst h1; exact .inr ⟨[], by simpa using h2.symm, by simp⟩
    | cons x X =>
      simp only [List.cons_append, List.cons.injEq] at h2
      obtain ⟨rfl, rfl⟩ := h2
      exact .inl ⟨X, h1, rfl⟩

/-- Every history of disciplined programs can be reordered such that sections are not interrupted. -/
theorem reorder (h2 : TwoPhase prog) (hR : Rights prog right) {h : Hist} (hl : Legal prog h) :
    ∃ h', Legal prog h' ∧ Same h h' ∧ Atomic h' := by
  induction h with
  | nil =>
    refine ⟨[], trivial, ⟨fun _ => rfl, fun _ => rfl, fun _ => rfl⟩, ?_⟩
    intro later u d earlier t l h
    simp at h
  | cons e h ih =>
    obtain ⟨t, d⟩ := e
    obtain ⟨h', hl', ⟨sm, so, sv⟩, hA⟩ := ih hl.2
    obtain ⟨hLd, sm', so', sv'⟩ := swap_under (L := [(t, d)]) sm so sv hl' hl
    simp only [List.cons_append, List.nil_append] at hLd sm' so' sv'
    have hold : ∀ {X : Hist} {u l}, Legal prog X → (owner X l = some u ↔ holding (mine X u) l = true) := fun hX => owner_iff hX _ _
    rcases idle_or (mine h' t) with hi | hh
    · -- no section
      refine ⟨(t, d) :: h', hLd, ⟨sm', so', sv'⟩, ?_⟩
      intro later u e earlier t' l heq hu ho
      cases later with
      | nil => rfl
      | cons x later =>
        simp only [List.cons_append, List.cons.injEq] at heq
        obtain ⟨rfl, rfl⟩ := heq
        have hm := hA later u e earlier t' l rfl hu ho
        by_cases ht : t' = t
        · subst ht
          exfalso
          have hX : Legal prog earlier := (legal_suffix hl').2
          have h3 := (hold hX).1 ho
          have h4 := hi l
          rw [mine_append, hm, List.nil_append, mine_cons_other (fun h => hu h.symm), h3] at h4
          cases h4
        · rw [mine_cons_other ht]; exact hm
    · -- in a section
      have hne : mine h' t ≠ [] := by
        obtain ⟨l, hl⟩ := hh
        intro hc
        rw [hc] at hl; cases hl
      obtain ⟨L, c, h1, rfl, hmL⟩ := last_step hne
      by_cases hacq : ∃ l, d = .acquired l
      · -- another lock: the section so far moves on
        obtain ⟨k, rfl⟩ := hacq
        have hmm : mine (L ++ (t, c) :: h1) t = mine ((t, c) :: h1) t := by rw [mine_append, hmL, List.nil_append]
        have hns : ¬ Shrinking (mine ((t, c) :: h1) t) := by
          rw [← hmm]
          exact h2 _ t k hl' hLd.1.1
        rw [hmm] at hh
        obtain ⟨B, h0, hB1, hB2, hB3, hB4⟩ := block hl' hA hh hns
        rw [hB1] at hl' hA hLd sm' so' sv'
        obtain ⟨m1, m2⟩ := move_on hR hB3 hmL hl'
        obtain ⟨n1, n2, n3, n4⟩ := swap_under (L := [(t, .acquired k)]) m2.1 m2.2.1 m2.2.2 m1 hLd
        simp only [List.cons_append, List.nil_append] at n1 n2 n3 n4
        refine ⟨(t, .acquired k) :: (B ++ (L ++ h0)), n1, ⟨fun v => (n2 v).trans (sm' v), fun l => (n3 l).trans (so' l), fun a => (n4 a).trans (sv' a)⟩, ?_⟩
        have hBt : ∀ e ∈ (t, .acquired k) :: B, e.1 = t := by
          intro e he
          simp only [List.mem_cons] at he
          rcases he with rfl | he
          · rfl
          · exact (hB3 e he).1
        have hBt' : ∀ e ∈ B, e.1 = t := fun e he => (hB3 e he).1
        intro later u e earlier t' l heq hu ho
        rw [← List.cons_append] at heq
        rcases split_append heq with ⟨B2, h5, h6⟩ | ⟨C1, h5, h6⟩
        · have hut : u = t := hBt (u, e) (by rw [h5]; simp)
          subst hut
          exact mine_block (fun x hx => hBt x (by rw [h5]; simp [hx])) (fun h => hu h.symm)
        · have hX : Legal prog earlier := by
            have : Legal prog (L ++ h0) := legal_suffix (L := (t, .acquired k) :: B) (by simpa using n1)
            rw [h5] at this
            exact (legal_suffix this).2
          rcases split_append h5 with ⟨L2, h7, h8⟩ | ⟨H1, h7, h8⟩
          · by_cases ht : t' = t
            · exfalso
              subst ht
              have hmL2 : mine L2 t' = [] := by
                rw [h7, mine_append, mine_cons_other (fun h => hu h.symm)] at hmL
                simp at hmL; exact hmL.2
              have h9 := (hold hX).1 ho
              rw [h8, mine_append, hmL2, List.nil_append, hB4 l] at h9
              cases h9
            · have hY : Legal prog (L2 ++ (B ++ h0)) := by
                rw [h7] at hl'
                have : Legal prog ((u, e) :: (L2 ++ (B ++ h0))) := legal_suffix (L := C1) (by simpa using hl')
                exact this.2
              have h9 : owner (L2 ++ (B ++ h0)) l = some t' := by
                rw [hold hY, mine_append, mine_append, mine_block hBt' ht, List.nil_append, ← mine_append, ← h8]
                exact (hold hX).1 ho
              have := hA C1 u e (L2 ++ (B ++ h0)) t' l (by rw [h7]; simp) hu h9
              rw [h6, mine_append, mine_block hBt ht, this]; rfl
          · have := hA (L ++ (B ++ H1)) u e earlier t' l (by rw [h7]; simp) hu ho
            rw [mine_append, mine_append] at this
            simp only [List.append_eq_nil_iff] at this
            by_cases ht : t' = t
            · subst ht
              exact absurd this.2.1 (mine_block_self hBt' hB2)
            · rw [h6, h8, mine_append, mine_append, mine_block hBt ht, this.1, this.2.2]; rfl
      · -- the step moves back to its section
        have hd : ∀ l, d ≠ .acquired l := fun l h => hacq ⟨l, h⟩
        obtain ⟨m1, m2⟩ := move_back hR hd hmL hLd
        refine ⟨_, m1, ⟨fun v => (m2.1 v).trans (sm' v), fun l => (m2.2.1 l).trans (so' l), fun a => (m2.2.2 a).trans (sv' a)⟩, ?_⟩
        intro later u e earlier t' l heq hu ho
        have hX : Legal prog earlier := by
          rw [heq] at m1
          exact (legal_suffix m1).2
        rcases split_append heq with ⟨L2, h5, h6⟩ | ⟨C1, h5, h6⟩
        · by_cases ht : t' = t
          · subst ht
            rw [h5, mine_append] at hmL
            simp only [List.append_eq_nil_iff] at hmL
            exact hmL.1
          · have hY : Legal prog (L2 ++ (t, c) :: h1) := by
              rw [h5] at hl'
              have : Legal prog ((u, e) :: (L2 ++ (t, c) :: h1)) := legal_suffix (L := later) (by simpa using hl')
              exact this.2
            refine hA later u e (L2 ++ (t, c) :: h1) t' l (by rw [h5]; simp) hu ?_
            have h9 := (hold hX).1 ho
            rw [h6, mine_append, mine_cons_other ht] at h9
            rw [hold hY, mine_append]; exact h9
        · cases C1 with
          | nil =>
            simp only [List.nil_append, List.cons.injEq, Prod.mk.injEq] at h5
            obtain ⟨⟨rfl, rfl⟩, rfl⟩ := h5
            rw [h6, List.append_nil]
            have hX' : Legal prog h1 := hX.2
            have h9 := (hold hX).1 ho
            rw [mine_cons_other (fun h => hu h.symm)] at h9
            exact hA L t c h1 t' l rfl hu ((hold hX').2 h9)
          | cons x C1 =>
            simp only [List.cons_append, List.cons.injEq] at h5
            obtain ⟨rfl, h5⟩ := h5
            have h9 := hA (L ++ C1) u e earlier t' l (by rw [h5]; simp) hu ho
            rw [mine_append] at h9
            simp only [List.append_eq_nil_iff] at h9
            by_cases ht : t' = t
            · exfalso
              subst ht
              cases C1 with
              | nil =>
                simp only [List.nil_append, List.cons.injEq, Prod.mk.injEq] at h5
                exact hu h5.1.1.symm
              | cons y C1 =>
                simp only [List.cons_append, List.cons.injEq] at h5
                obtain ⟨rfl, _⟩ := h5
                rw [mine_cons_same] at h9
                simp at h9
            · rw [h6, mine_append, mine_cons_other ht, h9.1, h9.2]; rfl

end Verif.WeakDrf
