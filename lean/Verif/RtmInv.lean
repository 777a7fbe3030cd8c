import Verif.Rtm

/-!
# Elided locks: the invariant

Proof that what the threads complete is always a history of the same programs with ordinary locks
(`Verif.Rtm`).
-/

namespace Verif.Rtm

/-- The location an operation depends on. -/
def foot : Done → Loc
  | .acquired l => .state l
  | .failed l => .state l
  | .released l => .state l
  | .got a _ => .data a
  | .put a _ => .data a

/-- Operations of one thread. -/
abbrev by_ (t : Tid) (L : List Done) : Hist := L.map (fun d => (t, d))

theorem mine_same (t : Tid) (L : List Done) (h : Hist) : mine (by_ t L ++ h) t = L ++ mine h t := by
  induction L with
  | nil => simp [mine]
  | cons d L ih => simp [mine] at ih ⊢; exact ih

theorem mine_other {t u : Tid} (hu : u ≠ t) (L : List Done) (h : Hist) : mine (by_ t L ++ h) u = mine h u := by
  induction L with
  | nil => simp [mine]
  | cons d L ih =>
    have : ¬ t = u := fun h => hu h.symm
    simp [mine, this] at ih ⊢

/-- An operation changes only the lock of its footprint. -/
theorem owner_cons {t : Tid} {d : Done} {h : Hist} {l : Lock} (hd : foot d ≠ .state l) :
    owner ((t, d) :: h) l = owner h l := by
  cases d <;> simp_all [foot, owner]

theorem value_cons {t : Tid} {d : Done} {h : Hist} {a : Addr} (hd : foot d ≠ .data a) :
    value ((t, d) :: h) a = value h a := by
  cases d <;> simp_all [foot, value]

theorem owner_untouched (t : Tid) (L : List Done) (h : Hist) (l : Lock) (hf : ∀ d ∈ L, foot d ≠ .state l) :
    owner (by_ t L ++ h) l = owner h l := by
  induction L with
  | nil => rfl
  | cons d L ih =>
    simp only [List.map_cons, List.cons_append]
    rw [owner_cons (hf d (by simp))]
    exact ih (fun d hd => hf d (by simp [hd]))

theorem value_untouched (t : Tid) (L : List Done) (h : Hist) (a : Addr) (hf : ∀ d ∈ L, foot d ≠ .data a) :
    value (by_ t L ++ h) a = value h a := by
  induction L with
  | nil => rfl
  | cons d L ih =>
    simp only [List.map_cons, List.cons_append]
    rw [value_cons (hf d (by simp))]
    exact ih (fun d hd => hf d (by simp [hd]))

/-- Operations of a thread go through in the same way after another history that agrees on what they
depend on. -/
theorem frame {prog : Prog} {t : Tid} {h1 h2 : Hist} (R : Loc → Prop) (hm : mine h1 t = mine h2 t)
    (ho : ∀ l, R (.state l) → owner h1 l = owner h2 l) (hv : ∀ a, R (.data a) → value h1 a = value h2 a)
    (h2l : Legal prog h2) :
    ∀ L : List Done, (∀ d ∈ L, R (foot d)) → Legal prog (by_ t L ++ h1) →
      Legal prog (by_ t L ++ h2) ∧ (∀ l, R (.state l) → owner (by_ t L ++ h1) l = owner (by_ t L ++ h2) l) ∧
      (∀ a, R (.data a) → value (by_ t L ++ h1) a = value (by_ t L ++ h2) a) := by
  intro L
  induction L with
  | nil => intro _ _; exact ⟨h2l, ho, hv⟩
  | cons d L ih =>
    intro hf hl
    simp only [List.map_cons, List.cons_append] at hl ⊢
    obtain ⟨ha, hl⟩ := hl
    obtain ⟨i1, i2, i3⟩ := ih (fun d hd => hf d (by simp [hd])) hl
    have hfd := hf d (by simp)
    have hmm : mine (by_ t L ++ h1) t = mine (by_ t L ++ h2) t := by rw [mine_same, mine_same, hm]
    refine ⟨⟨?_, i1⟩, ?_, ?_⟩
    · cases d <;> simp only [Allowed, foot] at ha hfd ⊢ <;> rw [← hmm]
      · rw [← i2 _ hfd]; exact ha
      · exact ha
      · rw [← i2 _ hfd]; exact ha
      · rw [← i3 _ hfd]; exact ha
      · exact ha
    · intro l hl; cases d <;> simp only [owner] <;> (try split) <;> first | rfl | exact i2 l hl
    · intro a hl; cases d <;> simp only [value] <;> (try split) <;> first | rfl | exact i3 a hl

/-- In a legal history a thread holds a lock when its own past says so. -/
theorem owner_iff {prog : Prog} {h : Hist} (hl : Legal prog h) (t : Tid) (l : Lock) :
    owner h l = some t ↔ holding (mine h t) l = true := by
  induction h with
  | nil => simp [owner, mine, holding]
  | cons e h ih =>
    obtain ⟨u, d⟩ := e
    obtain ⟨ha, hl⟩ := hl
    have ih := ih hl
    by_cases hu : u = t
    · subst hu
      have hm : mine ((u, d) :: h) u = d :: mine h u := mine_same u [d] h
      rw [hm]
      cases d <;> simp only [owner, holding] <;> first | exact ih | (split <;> simp_all)
    · have hm : mine ((u, d) :: h) t = mine h t := mine_other (fun h => hu h.symm) [d] h
      rw [hm, ← ih]
      cases d <;> simp only [owner] <;> try exact Iff.rfl
      · split
        · rename_i hk; subst hk
          simp only [Allowed] at ha
          rw [ha.2]; simp [hu]
        · exact Iff.rfl
      · split
        · rename_i hk; subst hk
          simp only [Allowed] at ha
          rw [ha.2]; simp [hu]
        · exact Iff.rfl

/-- What the program wants at a place in the code. -/
def Wants (prog : Prog) (t : Tid) (p : List Done) : Pc → Prop
  | .run => True
  | .begin_ l _ => prog t p = some (.lock l)
  | .check l _ => prog t p = some (.lock l)
  | .wait l _ => prog t p = some (.lock l)
  | .fall l => prog t p = some (.lock l)
  | .tbegin l => prog t p = some (.tryLock l)
  | .tcheck l => prog t p = some (.tryLock l)
  | .unl l => prog t p = some (.unlock l)
  | .xend l => prog t p = some (.unlock l)
  | .fin l => prog t p = some (.unlock l)
  | .fault => False

/-- Places inside of a transaction only. -/
def Pc.inside : Pc → Bool
  | .check _ _ => true
  | .tcheck _ => true
  | .xend _ => true
  | _ => false

/-- Places outside of transactions only. -/
def Pc.outside : Pc → Bool
  | .wait _ _ => true
  | .fall _ => true
  | .fault => true
  | _ => false

/-- A lock whose elision has begun but is not complete. -/
def Pc.half : Pc → Nat
  | .check _ _ => 1
  | .tcheck _ => 1
  | _ => 0

/-- Places where a transaction can have begun. -/
def Pc.start : Pc → Bool
  | .begin_ _ _ => true
  | .tbegin _ => true
  | _ => false

/-- A transaction that is not doomed. -/
structure TxOk (prog : Prog) (mem : Loc → Nat) (hist : Hist) (t : Tid) (pc : Pc) (T : Tx) : Prop where
  wants : Wants prog t (T.log ++ mine hist t) pc
  legal : Legal prog (by_ t T.log ++ hist)
  val : ∀ a, value (by_ t T.log ++ hist) a = written T.ws mem (.data a)
  own : ∀ l, owner (by_ t T.log ++ hist) l = none ↔ written T.ws mem (.state l) = unlocked ∧ l ∉ T.held
  held : ∀ l, l ∈ T.held →
    owner (by_ t T.log ++ hist) l = some t ∧ written T.ws mem (.state l) = unlocked ∧ .state l ∈ T.rs
  nodup : T.held.Nodup
  depth : T.depth = T.held.length + pc.half
  foot : ∀ d ∈ T.log, foot d ∈ T.rs ∨ foot d ∈ T.ws.map (fun w => w.1)
  keep : ∀ l, .state l ∉ T.ws.map (fun w => w.1) → l ∉ T.held → owner (by_ t T.log ++ hist) l = owner hist l
  bin : ∀ l, written T.ws mem (.state l) = unlocked ∨ written T.ws mem (.state l) = locked
  xend : ∀ l, pc = .xend l → written T.ws mem (.state l) = unlocked ∧ .state l ∈ T.rs
  fin : ∀ l, pc = .fin l → written T.ws mem (.state l) ≠ unlocked ∧ .state l ∈ T.rs

/-- A thread. -/
def TOk (prog : Prog) (mem : Loc → Nat) (hist : Hist) (t : Tid) (k : Thread) : Prop :=
  match k.tx with
  | none => Wants prog t (mine hist t) k.pc ∧ k.pc.inside = false
  | some T =>
    Wants prog t (mine hist t) T.ret ∧ T.ret.start = true ∧ k.pc.outside = false ∧
      (T.doomed = false → TxOk prog mem hist t k.pc T)

/-- The whole machine. -/
structure Ok (prog : Prog) (s : State) : Prop where
  legal : Legal prog s.hist
  val : ∀ a, value s.hist a = s.mem (.data a)
  own : ∀ l, owner s.hist l = none ↔ s.mem (.state l) = unlocked
  bin : ∀ l, s.mem (.state l) = unlocked ∨ s.mem (.state l) = locked
  thr : ∀ t, TOk prog s.mem s.hist t (s.th t)

theorem ok_init (prog : Prog) : Ok prog init :=
  ⟨trivial, fun _ => rfl, fun _ => by simp [owner, init], fun _ => .inl rfl,
    fun _ => by simp [TOk, init, Wants, Pc.inside]⟩

/-- Changing one thread only. -/
theorem ok_set {prog : Prog} {s : State} (hs : Ok prog s) {t : Tid} {k : Thread}
    (hk : TOk prog s.mem s.hist t k) : Ok prog (s.set t k) := by
  refine ⟨hs.legal, hs.val, hs.own, hs.bin, fun u => ?_⟩
  by_cases hu : u = t
  · subst hu; simpa [State.set] using hk
  · simpa [State.set, hu] using hs.thr u

theorem written_not_mem {ws : List (Loc × Nat)} {m : Loc → Nat} {x : Loc}
    (hx : x ∉ ws.map (fun w => w.1)) : written ws m x = m x := by
  induction ws with
  | nil => rfl
  | cons w ws ih =>
    simp only [List.map_cons, List.mem_cons, not_or] at hx
    have := ih hx.2
    simp only [written] at this ⊢
    rw [List.lookup_cons]
    have h : (x == w.1) = false := by simpa using hx.1
    rw [h]; exact this

/-- Whether `x` is written does not depend on the memory below. -/
theorem written_mem {ws : List (Loc × Nat)} {m m' : Loc → Nat} {x : Loc}
    (hx : x ∈ ws.map (fun w => w.1)) : written ws m x = written ws m' x := by
  induction ws with
  | nil => simp at hx
  | cons w ws ih =>
    simp only [written] at ih ⊢
    rw [List.lookup_cons]
    by_cases h : x = w.1
    · simp [h]
    · have h' : (x == w.1) = false := by simpa using h
      rw [h']; exact ih (by simpa [h] using hx)

theorem written_congr {ws : List (Loc × Nat)} {m m' : Loc → Nat} {x : Loc} (hx : m x = m' x) :
    written ws m x = written ws m' x := by
  simp only [written, hx]

theorem written_cons (x y : Loc) (v : Nat) (ws : List (Loc × Nat)) (m : Loc → Nat) :
    written ((x, v) :: ws) m y = if y = x then v else written ws m y := by
  simp only [written, List.lookup_cons]
  by_cases h : y = x
  · simp [h]
  · have h' : (y == x) = false := by simpa using h
    simp [h, h']

theorem meets_false {T : Tx} {ws : List (Loc × Nat)} (h : T.meets ws = false) :
    ∀ x ∈ ws.map (fun w => w.1), x ∉ T.rs ∧ x ∉ T.ws.map (fun w => w.1) := by
  intro x hx
  simp only [Tx.meets, List.any_eq_false] at h
  simp only [List.mem_map] at hx
  obtain ⟨w, hw, rfl⟩ := hx
  have := h w hw
  simp at this
  refine ⟨this.1, ?_⟩
  simp only [List.mem_map, not_exists, not_and]
  intro v hv hvw
  obtain ⟨a, b⟩ := v
  simp only at hvw
  subst hvw
  exact this.2 b hv

/-- Making operations visible: the other threads are not disturbed, or doomed. -/
theorem ok_publish {prog : Prog} {s : State} (hs : Ok prog s) {t : Tid} {L : List Done} {ws : List (Loc × Nat)}
    (hl : Legal prog (by_ t L ++ s.hist))
    (hv : ∀ a, value (by_ t L ++ s.hist) a = written ws s.mem (.data a))
    (ho : ∀ l, owner (by_ t L ++ s.hist) l = none ↔ written ws s.mem (.state l) = unlocked)
    (hb : ∀ l, written ws s.mem (.state l) = unlocked ∨ written ws s.mem (.state l) = locked)
    (hk : ∀ l, .state l ∉ ws.map (fun w => w.1) → owner (by_ t L ++ s.hist) l = owner s.hist l) :
    Ok prog ((publish s t L ws).set t { pc := .run, tx := none, rollbacks := 0 }) := by
  refine ⟨hl, hv, ho, hb, fun u => ?_⟩
  by_cases hu : u = t
  · subst hu; simp [State.set, TOk, Wants, Pc.inside]
  · have hth : ((publish s t L ws).set t { pc := .run, tx := none, rollbacks := 0 }).th u =
        match (s.th u).tx with
        | none => s.th u
        | some T => { s.th u with tx := some { T with doomed := T.doomed || T.meets ws } } := by
      simp only [State.set, publish, upd_other _ _ hu, if_neg hu]
      cases (s.th u).tx <;> rfl
    rw [hth]
    have hold := hs.thr u
    have hm : mine ((publish s t L ws).set t { pc := .run, tx := none, rollbacks := 0 }).hist u =
        mine s.hist u := mine_other hu L s.hist
    cases htx : (s.th u).tx with
    | none =>
      simp only [TOk, htx] at hold ⊢
      rw [hm]; exact hold
    | some T =>
      simp only [TOk, htx] at hold ⊢
      rw [hm]
      obtain ⟨o1, o2, o3, o4⟩ := hold
      refine ⟨o1, o2, o3, fun hd => ?_⟩
      simp only [Bool.or_eq_false_iff] at hd
      have ok := o4 hd.1
      have hmeet := meets_false hd.2
      let R : Loc → Prop := fun x => x ∈ T.rs ∨ x ∈ T.ws.map (fun w => w.1)
      have hR : ∀ x, R x → x ∉ ws.map (fun w => w.1) := by
        intro x hx hw
        have := hmeet x hw
        rcases hx with h | h
        · exact this.1 h
        · exact this.2 h
      have hmemR : ∀ x, R x → written ws s.mem x = s.mem x := fun x hx => written_not_mem (hR x hx)
      have ho' : ∀ l, R (.state l) → owner s.hist l = owner (by_ t L ++ s.hist) l :=
        fun l hx => (hk l (hR _ hx)).symm
      have hv' : ∀ a, R (.data a) → value s.hist a = value (by_ t L ++ s.hist) a := by
        intro a hx; rw [hv, hs.val, hmemR _ hx]
      have hm' : mine s.hist u = mine (by_ t L ++ s.hist) u := (mine_other hu L s.hist).symm
      obtain ⟨f1, f2, f3⟩ := frame R hm' ho' hv' hl T.log ok.foot ok.legal
      have hwR : ∀ x, R x → written T.ws (written ws s.mem) x = written T.ws s.mem x :=
        fun x hx => written_congr (hmemR x hx)
      have hun : ∀ l, ¬ R (.state l) → owner (by_ u T.log ++ (by_ t L ++ s.hist)) l = owner (by_ t L ++ s.hist) l :=
        fun l hx => owner_untouched u T.log _ l (fun d hd h => hx (h ▸ ok.foot d hd))
      have hwn : ∀ x, ¬ R x → written T.ws (written ws s.mem) x = written ws s.mem x :=
        fun x hx => written_not_mem (fun h => hx (.inr h))
      refine
        { wants := ?_, legal := f1, val := ?_, own := ?_, held := ?_, nodup := ok.nodup, depth := ok.depth,
          foot := ok.foot, keep := ?_, bin := ?_, xend := ?_, fin := ?_ }
      · show Wants prog u (T.log ++ mine (by_ t L ++ s.hist) u) (s.th u).pc
        rw [← hm']; exact ok.wants
      · intro a
        by_cases hx : R (.data a)
        · show value (by_ u T.log ++ (by_ t L ++ s.hist)) a = written T.ws (written ws s.mem) (.data a)
          rw [hwR _ hx, ← f3 a hx, ok.val]
        · show value (by_ u T.log ++ (by_ t L ++ s.hist)) a = written T.ws (written ws s.mem) (.data a)
          rw [hwn _ hx, value_untouched u T.log _ a (fun d hd h => hx (h ▸ ok.foot d hd)), hv]
      · intro l
        show owner (by_ u T.log ++ (by_ t L ++ s.hist)) l = none ↔
          written T.ws (written ws s.mem) (.state l) = unlocked ∧ l ∉ T.held
        by_cases hx : R (.state l)
        · rw [hwR _ hx, ← f2 l hx]; exact ok.own l
        · rw [hwn _ hx, hun l hx, ho]
          have : l ∉ T.held := fun h => hx (.inl (ok.held l h).2.2)
          simp [this]
      · intro l hl
        show owner (by_ u T.log ++ (by_ t L ++ s.hist)) l = some u ∧
          written T.ws (written ws s.mem) (.state l) = unlocked ∧ _
        have h := ok.held l hl
        have hx : R (.state l) := .inl h.2.2
        rw [hwR _ hx, ← f2 l hx]; exact h
      · intro l h1 h2
        show owner (by_ u T.log ++ (by_ t L ++ s.hist)) l = owner (by_ t L ++ s.hist) l
        by_cases hx : R (.state l)
        · rw [← f2 l hx, ← ho' l hx]; exact ok.keep l h1 h2
        · exact hun l hx
      · intro l
        show written T.ws (written ws s.mem) (.state l) = unlocked ∨ written T.ws (written ws s.mem) (.state l) = locked
        by_cases hx : R (.state l)
        · rw [hwR _ hx]; exact ok.bin l
        · rw [hwn _ hx]; exact hb l
      · intro l hpc
        have h := ok.xend l hpc
        refine ⟨?_, h.2⟩
        show written T.ws (written ws s.mem) (.state l) = unlocked
        rw [hwR _ (.inl h.2)]; exact h.1
      · intro l hpc
        have h := ok.fin l hpc
        refine ⟨?_, h.2⟩
        show written T.ws (written ws s.mem) (.state l) ≠ unlocked
        rw [hwR _ (.inl h.2)]; exact h.1

end Verif.Rtm
