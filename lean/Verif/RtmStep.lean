import Verif.RtmInv

/-!
# Elided locks: the invariant is preserved
-/

namespace Verif.Rtm

variable {prog : Prog} {s : State} {t : Tid}

/-- What a thread knows of its past is its past. -/
theorem at_ {hist : Hist} {L : List Done} (P : List Done → Prop) (h : P (L ++ mine hist t)) :
    P (mine (by_ t L ++ hist) t) := by
  rw [mine_same]; exact h

theorem wants_round {p : List Done} {l : Lock} (r : Nat) (h : prog t p = some (.lock l)) :
    Wants prog t p (round l r) ∧ (round l r).inside = false ∧ (round l r).half = 0 ∧
      (∀ k, round l r ≠ .xend k) ∧ (∀ k, round l r ≠ .fin k) := by
  unfold round; split <;> exact ⟨h, rfl, rfl, nofun, nofun⟩

theorem ok_rollback (hs : Ok prog s) {T : Tx} (ht : (s.th t).tx = some T) (st : Status) :
    Ok prog (rollback s t T st) := by
  have h := hs.thr t
  simp only [TOk, ht] at h
  obtain ⟨h1, h2, h3, h4⟩ := h
  unfold rollback
  split
  · rename_i l r hr
    rw [hr] at h1
    refine ok_set hs ?_
    simp only [TOk]
    split
    · exact ⟨(wants_round _ h1).1, (wants_round _ h1).2.1⟩
    · split
      · exact ⟨h1, rfl⟩
      · exact ⟨h1, rfl⟩
  · rename_i l hr
    rw [hr] at h1
    refine ok_publish hs ⟨h1, hs.legal⟩ ?_ ?_ ?_ ?_
    · intro a; exact hs.val a
    · intro l; exact hs.own l
    · intro l; exact hs.bin l
    · intro l _; rfl
  · exact hs

/-- In a transaction a thread that wants to unlock holds the lock. -/
theorem TxOk.owns (hp : Proper prog) {mem : Loc → Nat} {hist : Hist} {pc : Pc} {T : Tx}
    (h : TxOk prog mem hist t pc T) {l : Lock} (hw : prog t (T.log ++ mine hist t) = some (.unlock l)) :
    owner (by_ t T.log ++ hist) l = some t := by
  rw [owner_iff h.legal, mine_same]
  exact hp.1 _ _ _ hw

theorem owns (hp : Proper prog) (hs : Ok prog s) {l : Lock}
    (hw : prog t (mine s.hist t) = some (.unlock l)) : owner s.hist l = some t := by
  rw [owner_iff hs.legal]
  exact hp.1 _ _ _ hw

/-- Only the place in the code changes. -/
theorem TxOk.goto {mem : Loc → Nat} {hist : Hist} {pc pc' : Pc} {T : Tx} (h : TxOk prog mem hist t pc T)
    (hw : Wants prog t (T.log ++ mine hist t) pc') (hh : pc'.half = pc.half)
    (hx : ∀ l, pc' ≠ .xend l) (hf : ∀ l, pc' ≠ .fin l) : TxOk prog mem hist t pc' T :=
  { wants := hw, legal := h.legal, val := h.val, own := h.own, held := h.held, nodup := h.nodup,
    depth := by rw [hh]; exact h.depth, foot := h.foot, keep := h.keep, bin := h.bin,
    xend := fun l hl => absurd hl (hx l), fin := fun l hl => absurd hl (hf l) }

/-- An operation that does not concern locks, in a transaction. -/
theorem TxOk.got {mem : Loc → Nat} {hist : Hist} {T : Tx} (h : TxOk prog mem hist t .run T) {a : Addr}
    (hw : prog t (T.log ++ mine hist t) = some (.read a)) :
    TxOk prog mem hist t .run
      { T with rs := [.data a] ++ T.rs, ws := [] ++ T.ws, log := .got a (written T.ws mem (.data a)) :: T.log } :=
  { wants := trivial
    legal := ⟨⟨at_ (fun p => prog t p = _) hw, h.val a⟩, h.legal⟩
    val := h.val, own := h.own
    held := fun l hl => ⟨(h.held l hl).1, (h.held l hl).2.1, by simp [(h.held l hl).2.2]⟩
    nodup := h.nodup, depth := h.depth
    foot := by
      intro d hd
      simp only [List.mem_cons] at hd
      rcases hd with rfl | hd
      · left; simp [Rtm.foot]
      · rcases h.foot d hd with h | h
        · left; simp [h]
        · right; simpa using h
    keep := h.keep, bin := h.bin, xend := nofun, fin := nofun }

theorem TxOk.put {mem : Loc → Nat} {hist : Hist} {T : Tx} (h : TxOk prog mem hist t .run T) {a : Addr} {v : Nat}
    (hw : prog t (T.log ++ mine hist t) = some (.write a v)) :
    TxOk prog mem hist t .run
      { T with rs := [] ++ T.rs, ws := [(.data a, v)] ++ T.ws, log := .put a v :: T.log } :=
  { wants := trivial
    legal := ⟨at_ (fun p => prog t p = _) hw, h.legal⟩
    val := by
      intro b
      show (if a = b then v else value (by_ t T.log ++ hist) b) = written ((.data a, v) :: T.ws) mem (.data b)
      rw [written_cons, h.val]
      by_cases hb : a = b
      · simp [hb]
      · have : ¬ b = a := fun h => hb h.symm
        simp [hb, this]
    own := by
      intro l
      show _ ↔ written ((.data a, v) :: T.ws) mem (.state l) = unlocked ∧ l ∉ T.held
      rw [written_cons, if_neg (by simp)]; exact h.own l
    held := by
      intro l hl
      show _ ∧ written ((.data a, v) :: T.ws) mem (.state l) = unlocked ∧ _
      rw [written_cons, if_neg (by simp)]; exact h.held l hl
    nodup := h.nodup, depth := h.depth
    foot := by
      intro d hd
      simp only [List.mem_cons] at hd
      rcases hd with rfl | hd
      · right; simp [Rtm.foot]
      · rcases h.foot d hd with h | h
        · left; simpa using h
        · right; simp only [List.cons_append, List.nil_append, List.map_cons, List.mem_cons]; exact .inr h
    keep := by
      intro l h1 h2
      refine h.keep l ?_ h2
      intro hm; apply h1
      simp only [List.cons_append, List.nil_append, List.map_cons, List.mem_cons]; exact .inr hm
    bin := by
      intro l
      show written ((.data a, v) :: T.ws) mem (.state l) = unlocked ∨ written ((.data a, v) :: T.ws) mem (.state l) = locked
      rw [written_cons, if_neg (by simp)]; exact h.bin l
    xend := nofun, fin := nofun }

/-- A lock that was taken by the fallback is released in a transaction. -/
theorem TxOk.release (hp : Proper prog) {mem : Loc → Nat} {hist : Hist} {T : Tx} {l : Lock}
    (h : TxOk prog mem hist t (.fin l) T) :
    TxOk prog mem hist t .run
      { T with rs := [] ++ T.rs, ws := [(.state l, unlocked)] ++ T.ws, log := .released l :: T.log } :=
  have hw := h.wants
  have ho := h.owns hp hw
  have hn : l ∉ T.held := fun hl => (h.fin l rfl).1 (h.held l hl).2.1
  { wants := trivial
    legal := ⟨⟨at_ (fun p => prog t p = _) hw, ho⟩, h.legal⟩
    val := by
      intro b
      show value (by_ t T.log ++ hist) b = written ((.state l, unlocked) :: T.ws) mem (.data b)
      rw [written_cons, if_neg (by simp)]; exact h.val b
    own := by
      intro k
      show (if l = k then none else owner (by_ t T.log ++ hist) k) = none ↔
        written ((.state l, unlocked) :: T.ws) mem (.state k) = unlocked ∧ k ∉ T.held
      rw [written_cons]
      by_cases hk : l = k
      · subst hk; simp [hn]
      · have : ¬ (Loc.state k = .state l) := by simp; exact fun h => hk h.symm
        rw [if_neg hk, if_neg this]; exact h.own k
    held := by
      intro k hk
      have hkl : l ≠ k := fun h => hn (h ▸ hk)
      have : ¬ (Loc.state k = .state l) := by simp; exact fun h => hkl h.symm
      show (if l = k then none else owner (by_ t T.log ++ hist) k) = some t ∧
        written ((.state l, unlocked) :: T.ws) mem (.state k) = unlocked ∧ _
      rw [written_cons, if_neg this, if_neg hkl]
      exact h.held k hk
    nodup := h.nodup, depth := h.depth
    foot := by
      intro d hd
      simp only [List.mem_cons] at hd
      rcases hd with rfl | hd
      · right; simp [Rtm.foot]
      · rcases h.foot d hd with h | h
        · left; simpa using h
        · right; simp only [List.cons_append, List.nil_append, List.map_cons, List.mem_cons]; exact .inr h
    keep := by
      intro k h1 h2
      simp only [List.cons_append, List.nil_append, List.map_cons, List.mem_cons, not_or] at h1
      have hkl : l ≠ k := fun h => h1.1 (by rw [h])
      show (if l = k then none else owner (by_ t T.log ++ hist) k) = owner hist k
      rw [if_neg hkl]
      exact h.keep k h1.2 h2
    bin := by
      intro k
      show written ((.state l, unlocked) :: T.ws) mem (.state k) = unlocked ∨
        written ((.state l, unlocked) :: T.ws) mem (.state k) = locked
      rw [written_cons]; split
      · exact .inl rfl
      · exact h.bin k
    xend := nofun, fin := nofun }

/-- A lock is taken by speculation. -/
theorem TxOk.elided {mem : Loc → Nat} {hist : Hist} {T : Tx} {l : Lock} {pc : Pc}
    (h : TxOk prog mem hist t pc T) (hh : pc.half = 1)
    (hw : prog t (T.log ++ mine hist t) = some (.lock l) ∨ prog t (T.log ++ mine hist t) = some (.tryLock l))
    (hn : l ∉ T.held) (hu : written T.ws mem (.state l) = unlocked) :
    TxOk prog mem hist t .run
      { T with rs := .state l :: T.rs, log := .acquired l :: T.log, held := l :: T.held } :=
  have ho : owner (by_ t T.log ++ hist) l = none := (h.own l).2 ⟨hu, hn⟩
  { wants := trivial
    legal := ⟨⟨at_ (fun p => prog t p = some (.lock l) ∨ prog t p = some (.tryLock l)) hw, ho⟩, h.legal⟩
    val := h.val
    own := by
      intro k
      show (if l = k then some t else owner (by_ t T.log ++ hist) k) = none ↔
        written T.ws mem (.state k) = unlocked ∧ k ∉ l :: T.held
      by_cases hk : l = k
      · subst hk; simp
      · have : ¬ k = l := fun h => hk h.symm
        rw [if_neg hk, h.own k]; simp [this]
    held := by
      intro k hk
      show (if l = k then some t else owner (by_ t T.log ++ hist) k) = some t ∧
        written T.ws mem (.state k) = unlocked ∧ Loc.state k ∈ Loc.state l :: T.rs
      by_cases hkl : l = k
      · subst hkl; simp [hu]
      · have h1 : ¬ k = l := fun h => hkl h.symm
        have : k ∈ T.held := by
          have hk' : k ∈ l :: T.held := hk
          simpa [h1] using hk'
        rw [if_neg hkl]
        exact ⟨(h.held k this).1, (h.held k this).2.1, by simp [(h.held k this).2.2]⟩
    nodup := List.nodup_cons.2 ⟨hn, h.nodup⟩
    depth := by have := h.depth; simp only [List.length_cons, Pc.half]; omega
    foot := by
      intro d hd
      simp only [List.mem_cons] at hd
      rcases hd with rfl | hd
      · left; simp [Rtm.foot]
      · rcases h.foot d hd with h | h
        · left; simp [h]
        · right; exact h
    keep := by
      intro k h1 h2
      simp only [List.mem_cons, not_or] at h2
      show (if l = k then some t else owner (by_ t T.log ++ hist) k) = owner hist k
      rw [if_neg (fun h => h2.1 h.symm)]
      exact h.keep k h1 h2.2
    bin := h.bin, xend := nofun, fin := nofun }

theorem nodup_erase {l k : Nat} {L : List Nat} (h : L.Nodup) : k ∈ L.erase l ↔ k ∈ L ∧ k ≠ l := by
  rw [h.mem_erase_iff]; exact And.comm

/-- An elided lock is released, but the transaction goes on. -/
theorem TxOk.unelide (hp : Proper prog) {mem : Loc → Nat} {hist : Hist} {T : Tx} {l : Lock}
    (hg : ∀ l, owner hist l = none ↔ mem (.state l) = unlocked) (h : TxOk prog mem hist t (.xend l) T) :
    TxOk prog mem hist t .run
      { T with depth := T.depth - 1, log := .released l :: T.log, held := T.held.erase l } :=
  have hw := h.wants
  have ho := h.owns hp hw
  have hu := (h.xend l rfl).1
  have hin : l ∈ T.held := by
    apply Decidable.byContradiction; intro hn
    have := (h.own l).2 ⟨hu, hn⟩
    rw [ho] at this; cases this
  { wants := trivial
    legal := ⟨⟨at_ (fun p => prog t p = _) hw, ho⟩, h.legal⟩
    val := h.val
    own := by
      intro k
      show (if l = k then none else owner (by_ t T.log ++ hist) k) = none ↔
        written T.ws mem (.state k) = unlocked ∧ k ∉ T.held.erase l
      rw [nodup_erase h.nodup]
      by_cases hk : l = k
      · subst hk; simp [hu]
      · have : k ≠ l := fun h => hk h.symm
        rw [if_neg hk, h.own k]; simp [this]
    held := by
      intro k hk
      obtain ⟨hk, hkl⟩ := (nodup_erase h.nodup).1 hk
      show (if l = k then none else owner (by_ t T.log ++ hist) k) = some t ∧ _
      rw [if_neg (fun h => hkl h.symm)]
      exact h.held k hk
    nodup := h.nodup.erase l
    depth := by
      have := h.depth
      have h2 := List.length_erase_of_mem hin
      have h3 := List.length_pos_of_mem hin
      simp only [Pc.half] at this ⊢; omega
    foot := by
      intro d hd
      simp only [List.mem_cons] at hd
      rcases hd with rfl | hd
      · left; exact (h.xend l rfl).2
      · exact h.foot d hd
    keep := by
      intro k h1 h2
      rw [nodup_erase h.nodup] at h2
      show (if l = k then none else owner (by_ t T.log ++ hist) k) = owner hist k
      by_cases hk : l = k
      · subst hk
        rw [if_pos rfl]
        rw [written_not_mem h1] at hu
        exact ((hg l).2 hu).symm
      · have hkl : k ≠ l := fun h => hk h.symm
        rw [if_neg hk]
        exact h.keep k h1 (fun hh => h2 ⟨hh, hkl⟩)
    bin := h.bin, xend := nofun, fin := nofun }

theorem TxOk.isHeld (hp : Proper prog) {mem : Loc → Nat} {hist : Hist} {T : Tx} {l : Lock}
    (h : TxOk prog mem hist t (.xend l) T) : l ∈ T.held := by
  apply Decidable.byContradiction; intro hn
  have := (h.own l).2 ⟨(h.xend l rfl).1, hn⟩
  rw [h.owns hp h.wants] at this; cases this

theorem ok_leave (hp : Proper prog) (hs : Ok prog s) (hd : doomed s t = false) {l : Lock}
    (hpc : (s.th t).pc = .xend l) : Ok prog (leave s t l) := by
  have h := hs.thr t
  unfold leave
  cases ht : (s.th t).tx with
  | none => simp only [TOk, ht, hpc] at h; exact absurd h.2 (by simp [Pc.inside])
  | some T =>
    simp only [TOk, ht, hpc] at h
    obtain ⟨h1, h2, h3, h4⟩ := h
    have h4 := h4 (by simpa [doomed, ht] using hd)
    dsimp only
    split
    · refine ok_set hs ?_
      simp only [TOk]
      exact ⟨h1, h2, rfl, fun _ => h4.unelide hp hs.own⟩
    · rename_i hdep
      have hin := h4.isHeld hp
      have hlen : T.held.erase l = [] := by
        have := h4.depth
        have h5 := List.length_erase_of_mem hin
        simp only [Pc.half] at this
        apply List.eq_nil_of_length_eq_zero; omega
      have hu := h4.unelide hp hs.own
      have hnil : ∀ k, k ∉ T.held.erase l := by rw [hlen]; simp
      refine ok_publish hs hu.legal hu.val ?_ hu.bin ?_
      · intro k
        have := hu.own k
        simp only [hnil k, not_false_eq_true, and_true] at this
        exact this
      · intro k hk
        exact hu.keep k hk (hnil k)

/-- Operations outside of transactions. -/
theorem ok_perform (hs : Ok prog s) (hd : doomed s t = false) {d : Done} {rs : List Loc} {ws : List (Loc × Nat)}
    (hn : (s.th t).tx = none →
      Legal prog ((t, d) :: s.hist) ∧ (∀ a, value ((t, d) :: s.hist) a = written ws s.mem (.data a)) ∧
      (∀ l, owner ((t, d) :: s.hist) l = none ↔ written ws s.mem (.state l) = unlocked) ∧
      (∀ l, written ws s.mem (.state l) = unlocked ∨ written ws s.mem (.state l) = locked) ∧
      (∀ l, .state l ∉ ws.map (fun w => w.1) → owner ((t, d) :: s.hist) l = owner s.hist l))
    (hx : ∀ T, (s.th t).tx = some T → TxOk prog s.mem s.hist t (s.th t).pc T →
      TxOk prog s.mem s.hist t .run { T with rs := rs ++ T.rs, ws := ws ++ T.ws, log := d :: T.log }) :
    Ok prog (perform s t d rs ws) := by
  have h := hs.thr t
  unfold perform
  cases ht : (s.th t).tx with
  | none =>
    obtain ⟨h1, h2, h3, h4, h5⟩ := hn ht
    exact ok_publish hs h1 h2 h3 h4 h5
  | some T =>
    simp only [TOk, ht] at h
    obtain ⟨h1, h2, h3, h4⟩ := h
    have h4 := h4 (by simpa [doomed, ht] using hd)
    refine ok_set hs ?_
    simp only [TOk]
    exact ⟨h1, h2, rfl, fun _ => hx T ht h4⟩

theorem ok_read (hs : Ok prog s) (hd : doomed s t = false) (hpc : (s.th t).pc = .run) {a : Addr}
    (hw : prog t (past s t) = some (.read a)) :
    Ok prog (perform s t (.got a (look s t (.data a))) [.data a] []) := by
  refine ok_perform hs hd ?_ ?_
  · intro hn
    simp only [past, hn] at hw
    refine ⟨⟨⟨hw, ?_⟩, hs.legal⟩, hs.val, hs.own, hs.bin, fun _ _ => rfl⟩
    simp only [look, hn]; exact hs.val a
  · intro T hT h
    rw [hpc] at h
    simp only [past, hT] at hw
    simp only [look, hT]
    exact h.got hw

theorem ok_write (hs : Ok prog s) (hd : doomed s t = false) (hpc : (s.th t).pc = .run) {a : Addr} {v : Nat}
    (hw : prog t (past s t) = some (.write a v)) :
    Ok prog (perform s t (.put a v) [] [(.data a, v)]) := by
  refine ok_perform hs hd ?_ ?_
  · intro hn
    simp only [past, hn] at hw
    refine ⟨⟨hw, hs.legal⟩, ?_, ?_, ?_, fun _ _ => rfl⟩
    · intro b
      show (if a = b then v else value s.hist b) = _
      rw [written_cons, hs.val]
      by_cases hb : a = b
      · simp [hb]
      · have : ¬ b = a := fun h => hb h.symm
        simp [hb, this, written]
    · intro l; rw [written_cons, if_neg (by simp)]; exact hs.own l
    · intro l; rw [written_cons, if_neg (by simp)]; exact hs.bin l
  · intro T hT h
    rw [hpc] at h
    simp only [past, hT] at hw
    exact h.put hw

/-- The fallback: the exchange found the lock free. -/
theorem ok_fall (hs : Ok prog s) (hd : doomed s t = false) {l : Lock} (hpc : (s.th t).pc = .fall l)
    (hl : ¬ look s t (.state l) = locked) :
    Ok prog (perform s t (.acquired l) [.state l] [(.state l, locked)]) := by
  have h := hs.thr t
  refine ok_perform hs hd ?_ ?_
  · intro hn
    simp only [TOk, hn, hpc] at h
    simp only [look, hn] at hl
    have hu : s.mem (.state l) = unlocked := (hs.bin l).resolve_right hl
    refine ⟨⟨⟨.inl h.1, (hs.own l).2 hu⟩, hs.legal⟩, ?_, ?_, ?_, ?_⟩
    · intro b; rw [written_cons, if_neg (by simp)]; exact hs.val b
    · intro k
      show (if l = k then some t else owner s.hist k) = none ↔ _
      rw [written_cons]
      by_cases hk : l = k
      · subst hk; simp [locked, unlocked]
      · have : ¬ (Loc.state k = .state l) := by simp; exact fun h => hk h.symm
        rw [if_neg hk, if_neg this]; exact hs.own k
    · intro k; rw [written_cons]; split
      · exact .inr rfl
      · exact hs.bin k
    · intro k hk
      have hkl : ¬ l = k := by intro h; apply hk; simp [h]
      show (if l = k then some t else owner s.hist k) = _
      rw [if_neg hkl]
  · intro T hT _
    simp only [TOk, hT, hpc] at h
    exact absurd h.2.2.1 (by simp [Pc.outside])

/-- A lock taken by the fallback is released. -/
theorem ok_fin (hp : Proper prog) (hs : Ok prog s) (hd : doomed s t = false) {l : Lock}
    (hpc : (s.th t).pc = .fin l) :
    Ok prog (perform s t (.released l) [] [(.state l, unlocked)]) := by
  have h := hs.thr t
  refine ok_perform hs hd ?_ ?_
  · intro hn
    simp only [TOk, hn, hpc] at h
    refine ⟨⟨⟨h.1, owns hp hs h.1⟩, hs.legal⟩, ?_, ?_, ?_, ?_⟩
    · intro b; rw [written_cons, if_neg (by simp)]; exact hs.val b
    · intro k
      show (if l = k then none else owner s.hist k) = none ↔ _
      rw [written_cons]
      by_cases hk : l = k
      · subst hk; simp
      · have : ¬ (Loc.state k = .state l) := by simp; exact fun h => hk h.symm
        rw [if_neg hk, if_neg this]; exact hs.own k
    · intro k; rw [written_cons]; split
      · exact .inl rfl
      · exact hs.bin k
    · intro k hk
      have hkl : ¬ l = k := by intro h; apply hk; simp [h]
      show (if l = k then none else owner s.hist k) = _
      rw [if_neg hkl]
  · intro T hT h
    rw [hpc] at h
    exact h.release hp

theorem ok_elide (hp : Proper prog) (hs : Ok prog s) (hd : doomed s t = false) {l : Lock}
    (hpc : (s.th t).pc = .tcheck l ∨ ∃ r, (s.th t).pc = .check l r) : Ok prog (elide s t l) := by
  have h := hs.thr t
  unfold elide
  cases ht : (s.th t).tx with
  | none =>
    simp only [TOk, ht] at h
    rcases hpc with hpc | ⟨r, hpc⟩ <;> rw [hpc] at h <;> exact absurd h.2 (by simp [Pc.inside])
  | some T =>
    dsimp only
    split
    · rename_i hu
      simp only [look, ht] at hu
      simp only [TOk, ht] at h
      obtain ⟨h1, h2, h3, h4⟩ := h
      have h4 := h4 (by simpa [doomed, ht] using hd)
      have hw : (prog t (T.log ++ mine s.hist t) = some (.lock l) ∨
          prog t (T.log ++ mine s.hist t) = some (.tryLock l)) := by
        have := h4.wants
        rcases hpc with hpc | ⟨r, hpc⟩ <;> rw [hpc] at this
        · exact .inr this
        · exact .inl this
      have hf : holding (T.log ++ mine s.hist t) l = false := by
        rcases hw with hw | hw
        · exact hp.2.1 _ _ _ hw
        · exact hp.2.2 _ _ _ hw
      have hn : l ∉ T.held := by
        intro hl
        have := (owner_iff h4.legal t l).1 (h4.held l hl).1
        rw [mine_same, hf] at this; cases this
      refine ok_set hs ?_
      simp only [TOk]
      refine ⟨h1, h2, rfl, fun _ => h4.elided ?_ hw hn hu⟩
      rcases hpc with hpc | ⟨r, hpc⟩ <;> rw [hpc] <;> rfl
    · exact ok_rollback hs ht _

/-- Beginning a transaction. -/
theorem ok_enter (hs : Ok prog s) (hd : doomed s t = false) {pc : Pc} (hst : (s.th t).pc.start = true)
    (hh : pc.half = 1) (hi : pc.outside = false)
    (hw : ∀ p, Wants prog t p (s.th t).pc → Wants prog t p pc) : Ok prog (enter s t (s.th t).pc pc) := by
  have h := hs.thr t
  have hx : (∀ l, pc ≠ .xend l) ∧ ∀ l, pc ≠ .fin l := by
    cases pc <;> simp_all [Pc.half]
  have h0 : (s.th t).pc.half = 0 := by
    generalize (s.th t).pc = q at hst
    cases q <;> simp_all [Pc.half, Pc.start]
  unfold enter
  cases ht : (s.th t).tx with
  | none =>
    simp only [TOk, ht] at h
    refine ok_set hs ?_
    simp only [TOk]
    refine ⟨h.1, hst, hi, fun _ => ?_⟩
    exact
      { wants := hw _ h.1, legal := hs.legal, val := hs.val, own := fun l => by simpa [written] using hs.own l,
        held := nofun, nodup := by simp, depth := by simp [hh], foot := nofun, keep := fun _ _ _ => rfl,
        bin := hs.bin, xend := fun l hl => absurd hl (hx.1 l), fin := fun l hl => absurd hl (hx.2 l) }
  | some T =>
    simp only [TOk, ht] at h
    obtain ⟨h1, h2, h3, h4⟩ := h
    have h := h4 (by simpa [doomed, ht] using hd)
    refine ok_set hs ?_
    simp only [TOk]
    refine ⟨h1, h2, hi, fun _ => ?_⟩
    exact
      { wants := hw _ h.wants, legal := h.legal, val := h.val, own := h.own, held := h.held,
        nodup := h.nodup, depth := by have := h.depth; simp only [h0, hh] at this ⊢; omega, foot := h.foot,
        keep := h.keep, bin := h.bin, xend := fun l hl => absurd hl (hx.1 l), fin := fun l hl => absurd hl (hx.2 l) }

/-- Loading a location and going on elsewhere. -/
theorem ok_load (hs : Ok prog s) (hd : doomed s t = false) {x : Loc} {pc : Pc}
    (hn : (s.th t).tx = none → Wants prog t (mine s.hist t) (s.th t).pc →
      Wants prog t (mine s.hist t) pc ∧ pc.inside = false)
    (hx : ∀ T, (s.th t).tx = some T → (s.th t).pc.outside = false → TxOk prog s.mem s.hist t (s.th t).pc T →
      pc.outside = false ∧ TxOk prog s.mem s.hist t pc { T with rs := x :: T.rs }) :
    Ok prog (load s t x pc) := by
  have h := hs.thr t
  unfold load
  cases ht : (s.th t).tx with
  | none =>
    simp only [TOk, ht] at h
    refine ok_set hs ?_
    simp only [TOk, ht]
    exact hn ht h.1
  | some T =>
    simp only [TOk, ht] at h
    obtain ⟨h1, h2, h3, h4⟩ := h
    have h := h4 (by simpa [doomed, ht] using hd)
    refine ok_set hs ?_
    simp only [TOk]
    exact ⟨h1, h2, (hx T ht h3 h).1, fun _ => (hx T ht h3 h).2⟩

/-- Reading a location more. -/
theorem TxOk.reads {mem : Loc → Nat} {hist : Hist} {pc : Pc} {T : Tx} (h : TxOk prog mem hist t pc T) (x : Loc) :
    TxOk prog mem hist t pc { T with rs := x :: T.rs } :=
  { wants := h.wants, legal := h.legal, val := h.val, own := h.own
    held := fun l hl => ⟨(h.held l hl).1, (h.held l hl).2.1, by simp [(h.held l hl).2.2]⟩
    nodup := h.nodup, depth := h.depth
    foot := fun d hd => (h.foot d hd).imp (fun h => by simp [h]) id
    keep := h.keep, bin := h.bin
    xend := fun l hl => ⟨(h.xend l hl).1, by simp [(h.xend l hl).2]⟩
    fin := fun l hl => ⟨(h.fin l hl).1, by simp [(h.fin l hl).2]⟩ }

/-- Going elsewhere without a change. -/
theorem ok_goto (hs : Ok prog s) (hd : doomed s t = false) {pc : Pc} (hpc : (s.th t).pc = .run)
    (hw : Wants prog t (past s t) pc) (hi : pc.inside = false) (ho : (s.th t).tx ≠ none → pc.outside = false)
    (hh : pc.half = 0) (hx : ∀ l, pc ≠ .xend l) (hf : ∀ l, pc ≠ .fin l) :
    Ok prog (s.set t { s.th t with pc := pc }) := by
  have h := hs.thr t
  refine ok_set hs ?_
  cases ht : (s.th t).tx with
  | none => simp only [TOk, ht, past] at hw ⊢; exact ⟨hw, hi⟩
  | some T =>
    simp only [TOk, ht, past] at hw h ⊢
    obtain ⟨h1, h2, h3, h4⟩ := h
    have h := h4 (by simpa [doomed, ht] using hd)
    refine ⟨h1, h2, ho (by simp [ht]), fun _ => h.goto hw ?_ hx hf⟩
    rw [hpc, hh]; rfl

theorem ok_instr (hp : Proper prog) (hs : Ok prog s) (hd : doomed s t = false) {s' : State}
    (hi : instr prog s t = some s') : Ok prog s' := by
  have h := hs.thr t
  unfold instr at hi
  split at hi
  · rename_i hpc
    split at hi
    · cases hi
    · rename_i l hw
      rw [← Option.some.inj hi]
      refine ok_goto hs hd hpc (wants_round _ hw).1 (wants_round _ hw).2.1 ?_ (wants_round 0 hw).2.2.1
        (wants_round _ hw).2.2.2.1 (wants_round _ hw).2.2.2.2
      intro _; simp [round, retryThreshold, Pc.outside]
    · rename_i l hw
      rw [← Option.some.inj hi]
      exact ok_goto hs hd hpc hw rfl (fun _ => rfl) rfl nofun nofun
    · rename_i l hw
      rw [← Option.some.inj hi]
      exact ok_goto hs hd hpc hw rfl (fun _ => rfl) rfl nofun nofun
    · rename_i a hw
      rw [← Option.some.inj hi]
      exact ok_read hs hd hpc hw
    · rename_i a v hw
      rw [← Option.some.inj hi]
      exact ok_write hs hd hpc hw
  · rename_i l r hpc
    rw [← Option.some.inj hi, ← hpc]
    exact ok_enter hs hd (by rw [hpc]; rfl) rfl rfl (by rw [hpc]; exact fun _ h => h)
  · rename_i l r hpc
    rw [← Option.some.inj hi]
    exact ok_elide hp hs hd (.inr ⟨_, hpc⟩)
  · rename_i l r hpc
    split at hi
    · rw [← Option.some.inj hi]; exact hs
    · rw [← Option.some.inj hi]
      refine ok_load hs hd ?_ ?_
      · intro _ hw; rw [hpc] at hw; exact ⟨(wants_round _ hw).1, (wants_round _ hw).2.1⟩
      · intro _ _ ho; rw [hpc] at ho; simp [Pc.outside] at ho
  · rename_i l hpc
    split at hi
    · rw [← Option.some.inj hi]
      refine ok_load hs hd ?_ ?_
      · intro _ hw; rw [hpc] at hw; exact ⟨hw, rfl⟩
      · intro _ _ ho; rw [hpc] at ho; simp [Pc.outside] at ho
    · rename_i hl
      rw [← Option.some.inj hi]
      exact ok_fall hs hd hpc hl
  · rename_i l hpc
    rw [← Option.some.inj hi, ← hpc]
    exact ok_enter hs hd (by rw [hpc]; rfl) rfl rfl (by rw [hpc]; exact fun _ h => h)
  · rename_i l hpc
    rw [← Option.some.inj hi]
    exact ok_elide hp hs hd (.inl hpc)
  · rename_i l hpc
    split at hi
    · rename_i hu
      rw [← Option.some.inj hi]
      refine ok_load hs hd ?_ ?_
      · intro hn hw
        rw [hpc] at hw
        have := owns hp hs hw
        simp only [look, hn] at hu
        rw [(hs.own l).2 hu] at this; cases this
      · intro T hT _ hk
        rw [hpc] at hk
        simp only [look, hT] at hu
        have hk := hk.reads (.state l)
        exact ⟨rfl, { wants := hk.wants, legal := hk.legal, val := hk.val, own := hk.own, held := hk.held, nodup := hk.nodup,
                      depth := hk.depth, foot := hk.foot, keep := hk.keep, bin := hk.bin,
                      xend := fun k hh => by cases hh; exact ⟨hu, by simp⟩, fin := nofun }⟩
    · rename_i hu
      rw [← Option.some.inj hi]
      refine ok_load hs hd ?_ ?_
      · intro hn hw
        rw [hpc] at hw
        exact ⟨hw, rfl⟩
      · intro T hT _ hk
        rw [hpc] at hk
        simp only [look, hT] at hu
        have hk := hk.reads (.state l)
        exact ⟨rfl, { wants := hk.wants, legal := hk.legal, val := hk.val, own := hk.own, held := hk.held, nodup := hk.nodup,
                      depth := hk.depth, foot := hk.foot, keep := hk.keep, bin := hk.bin,
                      xend := nofun, fin := fun k hh => by cases hh; exact ⟨hu, by simp⟩ }⟩
  · rename_i l hpc
    rw [← Option.some.inj hi]
    exact ok_leave hp hs hd hpc
  · rename_i l hpc
    rw [← Option.some.inj hi]
    exact ok_fin hp hs hd hpc
  · cases hi

theorem ok_step (hp : Proper prog) (hs : Ok prog s) {e : Ev} {s' : State} {o : List Unit}
    (h : step prog s e = some (s', o)) : Ok prog s' := by
  cases e with
  | step t =>
    simp only [step] at h
    split at h
    · cases h
    · rename_i hd
      cases hi : instr prog s t with
      | none => simp [hi] at h
      | some s'' =>
        simp [hi] at h
        rw [← h.1]
        exact ok_instr hp hs (by simpa using hd) hi
  | abort t st =>
    simp only [step] at h
    split at h
    · cases h
    · rename_i T hT
      simp only [Option.some.injEq, Prod.mk.injEq] at h
      rw [← h.1]
      exact ok_rollback hs hT st

theorem ok_reach (hp : Proper prog) {s : State} {tr : List Unit} (h : Reach (step prog) init s tr) : Ok prog s :=
  Reach.inv (fun s _ => Ok prog s) (ok_init prog) (fun _ _ _ _ _ _ hi hs => ok_step hp hi hs) h

end Verif.Rtm
