import Verif.Fss

/-!
# Fiber-specific pointers (C53, C54)
-/

namespace Verif.Fss

/-! ## Specification -/

/-- What the user knows: the pointer of every fiber in every `fiber_specific_ptr`, the cleanup function that goes with it, and the
`fiber_specific_ptr`s that exist. -/
structure Spec where
  val : Fid → Addr → Ptr
  own : Fid → Addr → Fn
  obj : Addr → Option Fn

def Spec.init : Spec := ⟨fun _ _ => 0, fun _ _ => 0, fun _ => none⟩

/-- Assignment to the entry of fiber `f` and pointer `a`. -/
def put {α : Type} (t : Fid → Addr → α) (f : Fid) (a : Addr) (v : α) : Fid → Addr → α := fun g b => if g = f ∧ b = a then v else t g b

def after (l : Spec) : Obs → Spec
  | .made a fn => { l with obj := upd l.obj a (some fn) }
  | .stored f a v => { l with val := put l.val f a v, own := put l.own f a ((l.obj a).getD 0) }
  | .released f a _ => { l with val := put l.val f a 0 }
  | .cleanup f a _ _ => { l with val := put l.val f a 0 }
  | .destroyed _ a _ => { l with obj := upd l.obj a none }
  | .gone f => { l with val := upd l.val f (fun _ => 0) }
  | _ => l

/-- What may be observed: a new `fiber_specific_ptr` is null for every fiber; `get` and `release` return the pointer of the calling
fiber; a cleanup function is called on the pointer that the fiber has, and it is the one that belongs to it; a pointer is
stored, a `fiber_specific_ptr` destroyed and a fiber finished only when no pointer is left that was not cleaned up. -/
def ok (l : Spec) : Obs → Prop
  | .made a _ => l.obj a = none ∧ ∀ f, l.val f a = 0
  | .got f a r => r = l.val f a ∧ l.obj a ≠ none
  | .stored f a _ => l.val f a = 0 ∧ l.obj a ≠ none
  | .released f a r => r = l.val f a ∧ l.obj a ≠ none
  | .cleanup f a fn v => v = l.val f a ∧ (v ≠ 0 → fn = l.own f a)
  | .destroyed _ a _ => ∀ g, l.val g a = 0
  | .exited f => ∀ a, l.val f a = 0
  | .gone _ => True

def Runs : Spec → List Obs → Prop
  | _, [] => True
  | l, o :: tr => ok l o ∧ Runs (after l o) tr

def replay (tr : List Obs) : Spec := tr.foldl after .init

/-- The documented requirement of the destructor: no other fiber has a pointer in it. -/
def Careful (tr : List Obs) : Prop := ∀ x f a r y, tr = x ++ .destroyed f a r :: y → ∀ g, g ≠ f → (replay x).val g a = 0

theorem Runs.append {l : Spec} {x y : List Obs} : Runs l (x ++ y) ↔ Runs l x ∧ Runs (x.foldl after l) y := by
  induction x generalizing l with
  | nil => simp [Runs]
  | cons o x ih => simp only [List.cons_append, Runs, ih, List.foldl_cons]; exact and_assoc.symm

theorem replay_append (x y : List Obs) : replay (x ++ y) = y.foldl after (replay x) := List.foldl_append ..

theorem Runs.at {x y : List Obs} {o : Obs} (h : Runs .init (x ++ o :: y)) : ok (replay x) o := (Runs.append.1 h).2.1

theorem Careful.left {x y : List Obs} (h : Careful (x ++ y)) : Careful x :=
  fun a f b r c he => h a f b r (c ++ y) (by rw [he]; simp)

/-! ## The map -/

/-- Sorted by key, without repetition. -/
def Sorted (m : Map) : Prop := (m.map Prod.fst).Pairwise (· < ·)

theorem Sorted.tail {b : Addr} {e : Ptr × Fn} {m : Map} (h : Sorted ((b, e) :: m)) : Sorted m := (List.pairwise_cons.1 h).2

theorem find_none {a : Addr} {m : Map} (h : ∀ b ∈ m.map Prod.fst, a < b) : find a m = none := by
  induction m with
  | nil => rfl
  | cons e m ih =>
    have h1 := h e.1 (by simp)
    rw [find, if_neg (Nat.ne_of_lt h1)]
    exact ih fun b hb => h b (by simp only [List.map_cons, List.mem_cons]; exact .inr hb)

theorem find_insert {a b : Addr} {d : Ptr × Fn} {m : Map} (hn : find a m = none) :
    find b (insert a d m) = if b = a then some d else find b m := by
  induction m with
  | nil => simp only [insert, find]
  | cons e m ih =>
    obtain ⟨c, e⟩ := e
    rw [find] at hn
    split at hn
    · cases hn
    · simp only [insert]
      split
      · simp only [find]
      · simp only [find, ih hn]; grind

theorem find_assign {a b : Addr} {d : Ptr × Fn} {m : Map} (hn : find a m ≠ none) :
    find b (assign a d m) = if b = a then some d else find b m := by
  induction m with
  | nil => exact absurd rfl hn
  | cons e m ih =>
    obtain ⟨c, e⟩ := e
    rw [find] at hn
    simp only [assign]
    split
    · simp only [find]; grind
    · rename_i hc
      rw [if_neg hc] at hn
      simp only [find, ih hn]; grind

theorem find_erase {a b : Addr} {m : Map} (h : Sorted m) : find b (erase a m) = if b = a then none else find b m := by
  induction m with
  | nil => simp [erase, find]
  | cons e m ih =>
    obtain ⟨c, e⟩ := e
    simp only [erase]
    split
    · rename_i hc
      subst hc
      by_cases hb : b = a
      · subst hb
        rw [if_pos rfl]
        exact find_none (List.pairwise_cons.1 h).1
      · rw [if_neg hb, find, if_neg hb]
    · simp only [find, ih h.tail]; grind

theorem mem_insert {a c : Addr} {d : Ptr × Fn} {m : Map} : c ∈ (insert a d m).map Prod.fst ↔ c = a ∨ c ∈ m.map Prod.fst := by
  induction m with
  | nil => simp [insert]
  | cons e m ih =>
    simp only [insert]
    split
    · simp
    · simp only [List.map_cons, List.mem_cons, ih]; grind

theorem sorted_insert {a : Addr} {d : Ptr × Fn} {m : Map} (h : Sorted m) (hn : find a m = none) : Sorted (insert a d m) := by
  induction m with
  | nil => simp [insert, Sorted]
  | cons e m ih =>
    obtain ⟨c, e⟩ := e
    rw [find] at hn
    split at hn
    · cases hn
    · rename_i hc
      have h1 := List.pairwise_cons.1 h
      simp only [insert]
      split
      · rename_i hac
        refine List.pairwise_cons.2 ⟨?_, h⟩
        intro b hb
        have hb' : b = c ∨ b ∈ m.map Prod.fst := by simpa using hb
        rcases hb' with rfl | hb
        · exact hac
        · exact Nat.lt_trans hac (h1.1 b hb)
      · refine List.pairwise_cons.2 ⟨?_, ih h.tail hn⟩
        intro b hb
        rcases mem_insert.1 hb with rfl | hb
        · exact Nat.lt_of_le_of_ne (Nat.le_of_not_lt (by assumption)) (fun h => hc h.symm)
        · exact h1.1 b hb

theorem keys_assign {a : Addr} {d : Ptr × Fn} {m : Map} : (assign a d m).map Prod.fst = m.map Prod.fst := by
  induction m with
  | nil => rfl
  | cons e m ih => simp only [assign]; split <;> simp [ih]

theorem erase_sublist (a : Addr) (m : Map) : (erase a m).Sublist m := by
  induction m with
  | nil => exact List.Sublist.refl _
  | cons e m ih =>
    simp only [erase]
    split
    · exact List.sublist_cons_self ..
    · exact ih.cons₂ _

theorem setData_find {a b : Addr} {fn : Fn} {v : Ptr} {x : Bool} {m : Map} (h : Sorted m) :
    find b (setData a fn v x m).1 = if b = a then (if v ≠ 0 ∨ find a m = none then some (v, fn) else none) else find b m := by
  simp only [setData]
  cases hf : find a m with
  | none => simp only [find_insert hf]; simp
  | some d =>
    simp only
    by_cases hv : v = 0
    · simp only [hv, ne_eq, not_true_eq_false, if_false, find_erase h]; simp
    · simp only [ne_eq, hv, not_false_eq_true, if_true, find_assign (by rw [hf]; simp : find a m ≠ none)]; simp

theorem setData_sorted {a : Addr} {fn : Fn} {v : Ptr} {x : Bool} {m : Map} (h : Sorted m) : Sorted (setData a fn v x m).1 := by
  simp only [setData]
  cases hf : find a m with
  | none => exact sorted_insert h hf
  | some d =>
    simp only
    split
    · rw [Sorted, keys_assign]; exact h
    · exact h.sublist ((erase_sublist a m).map _)

theorem setData_get {a b : Addr} {fn : Fn} {v : Ptr} {x : Bool} {m : Map} (h : Sorted m) :
    getData b (setData a fn v x m).1 = if b = a then v else getData b m := by
  simp only [getData, setData_find h]
  by_cases hb : b = a
  · simp only [hb, if_true]
    by_cases hv : v ≠ 0 ∨ find a m = none
    · rw [if_pos hv]
    · rw [if_neg hv]
      have : v = 0 := Classical.byContradiction fun h => hv (.inl h)
      rw [this]
  · simp only [if_neg hb]

/-! ## Invariant -/

structure Inv (s : State) (l : Spec) : Prop where
  srt : ∀ f, Sorted (s.map f)
  val : ∀ f a, l.val f a = getData a (s.map f)
  own : ∀ f a p g, find a (s.map f) = some (p, g) → p ≠ 0 → g = l.own f a
  obj : l.obj = s.obj
  dead : ∀ a, s.obj a = none → ∀ f, l.val f a = 0
  fin : ∀ f, s.done f = true → s.map f = []

theorem inv_init (main : Fid → Bool) : Inv (init main) .init := by
  constructor <;> simp [init, Spec.init, Sorted, getData, find]

theorem put_apply {α : Type} (t : Fid → Addr → α) (f g : Fid) (a b : Addr) (v : α) : put t f a v g b = if g = f ∧ b = a then v else t g b := rfl

/-- The calls of cleanup functions when a fiber ends. -/
theorem sweep {f : Fid} : ∀ (m : Map) (l : Spec), Sorted m → (∀ a, l.val f a = getData a m) →
    (∀ a p g, find a m = some (p, g) → p ≠ 0 → g = l.own f a) →
    let o : List Obs := m.map (fun e => .cleanup f e.1 e.2.2 e.2.1)
    Runs l o ∧ (o.foldl after l).own = l.own ∧ (o.foldl after l).obj = l.obj ∧ (∀ a, (o.foldl after l).val f a = 0) ∧
      ∀ g a, g ≠ f → (o.foldl after l).val g a = l.val g a := by
  intro m
  induction m with
  | nil => intro l _ hv _; simp [Runs]; intro a; rw [hv a]; rfl
  | cons e m ih =>
    obtain ⟨a, p, g⟩ := e
    intro l hs hv ho
    have hn : find a m = none := find_none (List.pairwise_cons.1 hs).1
    obtain ⟨h1, h2, h3, h4, h5⟩ := ih (after l (.cleanup f a g p)) hs.tail
      (by
        intro b
        simp only [after, put_apply, true_and]
        by_cases hb : b = a
        · rw [if_pos hb, hb, getData, hn]
        · rw [if_neg hb, hv b, getData, getData, find, if_neg hb])
      (by
        intro b p' g' hb hp
        refine ho b p' g' ?_ hp
        rw [find]
        by_cases hba : b = a
        · rw [hba, hn] at hb; cases hb
        · rw [if_neg hba]; exact hb)
    refine ⟨⟨⟨?_, ?_⟩, h1⟩, h2, h3, h4, ?_⟩
    · rw [hv a]; simp [getData, find]
    · intro hp; exact ho a p g (by simp [find]) hp
    · intro g' b hg
      refine (h5 g' b hg).trans ?_
      simp only [after, put_apply]
      rw [if_neg (by intro h; exact hg h.1)]

theorem inv_step {s s' : State} {l : Spec} (hi : Inv s l) {e : Event} {o : List Obs} (hs : step s e = some (s', o))
    (hc : ∀ f a r x, o = x ++ [.destroyed f a r] → ∀ g, g ≠ f → l.val g a = 0) :
    Runs l o ∧ Inv s' (o.foldl after l) := by
  obtain ⟨i1, i2, i3, i4, i5, i6⟩ := hi
  cases e with
  | make a fn =>
    simp only [step] at hs
    split at hs
    · rename_i ha
      simp only [Option.some.injEq, Prod.mk.injEq] at hs
      obtain ⟨rfl, rfl⟩ := hs
      refine ⟨⟨⟨by rw [i4]; exact ha, i5 a ha⟩, trivial⟩, ⟨i1, i2, i3, ?_, ?_, i6⟩⟩
      · simp only [List.foldl, after, i4]
      · simp only [List.foldl, after, upd_apply]; grind
    · cases hs
  | get f a =>
    simp only [step] at hs
    split at hs
    · cases hs
    · split at hs
      · cases hs
      · rename_i fn ha
        simp only [Option.some.injEq, Prod.mk.injEq] at hs
        obtain ⟨rfl, rfl⟩ := hs
        exact ⟨⟨⟨(i2 f a).symm, by rw [i4, ha]; simp⟩, trivial⟩, ⟨i1, i2, i3, i4, i5, i6⟩⟩
  | release f a =>
    simp only [step] at hs
    split at hs
    · cases hs
    · rename_i hd
      split at hs
      · cases hs
      · rename_i fn ha
        simp only [Option.some.injEq, Prod.mk.injEq] at hs
        obtain ⟨rfl, rfl⟩ := hs
        refine ⟨⟨⟨(i2 f a).symm, by rw [i4, ha]; simp⟩, trivial⟩, ⟨?_, ?_, ?_, ?_, ?_, ?_⟩⟩
        · intro g; simp only [upd_apply]; split
          · exact setData_sorted (i1 f)
          · exact i1 g
        · intro g b
          simp only [List.foldl, after, put_apply, upd_apply]
          by_cases hg : g = f
          · simp only [hg, if_true, true_and, setData_get (i1 f), i2]
          · simp only [hg, if_false, false_and, i2]
        · intro g b p q
          simp only [List.foldl, after, upd_apply]
          by_cases hg : g = f
          · simp only [hg, if_true, setData_find (i1 f)]
            by_cases hb : b = a
            · simp only [hb, if_true]; grind
            · simp only [hb, if_false]; exact i3 f b p q
          · simp only [hg, if_false]; exact i3 g b p q
        · exact i4
        · intro b hb g
          simp only [List.foldl, after, put_apply]
          split
          · rfl
          · exact i5 b hb g
        · intro g hg
          simp only [upd_apply]
          split
          · rename_i h; subst h; exact absurd hg hd
          · exact i6 g hg
  | reset f a v =>
    simp only [step] at hs
    split at hs
    · cases hs
    · rename_i hd
      split at hs
      · cases hs
      · rename_i fn ha
        split at hs
        · rename_i hne
          simp only [Option.some.injEq, Prod.mk.injEq] at hs
          obtain ⟨rfl, rfl⟩ := hs
          have hcl : (find a (s.map f) = none ∧ cleaned f a (setData a fn v true (s.map f)).2 = []) ∨
              ∃ p g, find a (s.map f) = some (p, g) ∧ cleaned f a (setData a fn v true (s.map f)).2 = [.cleanup f a g p] := by
            simp only [setData]
            cases hf : find a (s.map f) with
            | none => exact .inl ⟨rfl, rfl⟩
            | some d => exact .inr ⟨d.1, d.2, rfl, rfl⟩
          have hobj : l.obj a = some fn := by rw [i4, ha]
          have hinv : ∀ l' : Spec, l'.obj = l.obj → l'.own = l.own → (∀ g b, (g = f → b ≠ a) → l'.val g b = l.val g b) →
              Inv { s with map := upd s.map f (setData a fn v true (s.map f)).1 } (after l' (.stored f a v)) := by
            intro l' e1 e2 e3
            refine ⟨?_, ?_, ?_, ?_, ?_, ?_⟩
            · intro g; simp only [upd_apply]; split
              · exact setData_sorted (i1 f)
              · exact i1 g
            · intro g b
              simp only [after, put_apply, upd_apply]
              by_cases hg : g = f
              · subst hg
                simp only [if_true, true_and, setData_get (i1 g)]
                by_cases hb : b = a
                · simp [hb]
                · simp only [hb, if_false]; rw [e3 g b (fun _ => hb), i2]
              · simp only [hg, if_false, false_and]; rw [e3 g b (fun h => absurd h hg), i2]
            · intro g b p q
              simp only [after, put_apply, upd_apply, e1, e2]
              by_cases hg : g = f
              · subst hg
                simp only [if_true, setData_find (i1 g), true_and]
                by_cases hb : b = a
                · simp only [hb, if_true, hobj]; grind
                · simp only [hb, if_false]; exact i3 g b p q
              · simp only [hg, if_false, false_and]; exact i3 g b p q
            · simp only [after, e1, i4]
            · intro b hb g
              simp only [after, put_apply]
              have hba : b ≠ a := by rintro rfl; simp only at hb; rw [ha] at hb; cases hb
              simp only [hba, and_false, if_false]
              rw [e3 g b (fun _ => hba)]
              exact i5 b hb g
            · intro g hg
              simp only [upd_apply]
              split
              · rename_i h; subst h; exact absurd hg hd
              · exact i6 g hg
          rcases hcl with ⟨hf, h2⟩ | ⟨p, g, hf, h2⟩
          · rw [h2]
            refine ⟨⟨⟨?_, by rw [hobj]; simp⟩, trivial⟩, hinv l rfl rfl (fun _ _ _ => rfl)⟩
            rw [i2, getData, hf]
          · rw [h2]
            refine ⟨⟨⟨?_, fun hp => i3 f a p g hf hp⟩, ⟨?_, ?_⟩, trivial⟩, ?_⟩
            · rw [i2, getData, hf]
            · simp [after, put_apply]
            · simp only [after]; rw [hobj]; simp
            · refine hinv (after l (.cleanup f a g p)) rfl rfl ?_
              intro h b hb
              simp only [after, put_apply]
              rw [if_neg]; rintro ⟨hh, hba⟩; exact hb hh hba
        · simp only [Option.some.injEq, Prod.mk.injEq] at hs
          obtain ⟨rfl, rfl⟩ := hs
          exact ⟨trivial, ⟨i1, i2, i3, i4, i5, i6⟩⟩
  | destroy f a =>
    simp only [step] at hs
    split at hs
    · cases hs
    · rename_i hd
      split at hs
      · cases hs
      · rename_i fn ha
        simp only [Option.some.injEq, Prod.mk.injEq] at hs
        obtain ⟨rfl, rfl⟩ := hs
        have hoth := hc f a _ _ rfl
        have hcl : (find a (s.map f) = none ∧ cleaned f a (setData a fn 0 true (s.map f)).2 = []) ∨
            ∃ p g, find a (s.map f) = some (p, g) ∧ cleaned f a (setData a fn 0 true (s.map f)).2 = [.cleanup f a g p] := by
          simp only [setData]
          cases hf : find a (s.map f) with
          | none => exact .inl ⟨rfl, rfl⟩
          | some d => exact .inr ⟨d.1, d.2, rfl, rfl⟩
        have hinv : ∀ l' : Spec, l'.obj = l.obj → l'.own = l.own → (∀ g b, l'.val g b = if g = f ∧ b = a then 0 else l.val g b) →
            Inv { s with map := upd s.map f (setData a fn 0 true (s.map f)).1, obj := upd s.obj a none } (after l' (.destroyed f a (getData a (s.map f)))) := by
          intro l' e1 e2 e3
          refine ⟨?_, ?_, ?_, ?_, ?_, ?_⟩
          · intro g; simp only [upd_apply]; split
            · exact setData_sorted (i1 f)
            · exact i1 g
          · intro g b
            simp only [after, upd_apply, e3]
            by_cases hg : g = f
            · subst hg
              simp only [if_true, true_and, setData_get (i1 g), i2]
            · simp only [hg, if_false, false_and, i2]
          · intro g b p q
            simp only [after, upd_apply, e2]
            by_cases hg : g = f
            · subst hg
              simp only [if_true, setData_find (i1 g)]
              by_cases hb : b = a
              · simp only [hb, if_true]; grind
              · simp only [hb, if_false]; exact i3 g b p q
            · simp only [hg, if_false]; exact i3 g b p q
          · simp only [after, e1, i4]
          · intro b hb g
            simp only [after, e3]
            by_cases hba : b = a
            · subst hba
              by_cases hg : g = f
              · simp [hg]
              · simp only [hg, false_and, if_false]; exact hoth g hg
            · simp only [hba, and_false, if_false]
              simp only [upd_apply, hba, if_false] at hb
              exact i5 b hb g
          · intro g hg
            simp only [upd_apply]
            split
            · rename_i h; subst h; exact absurd hg hd
            · exact i6 g hg
        rcases hcl with ⟨hf, h2⟩ | ⟨p, g, hf, h2⟩
        · rw [h2]
          have hz : l.val f a = 0 := by rw [i2, getData, hf]
          refine ⟨⟨?_, trivial⟩, hinv l rfl rfl ?_⟩
          · intro h
            by_cases hh : h = f
            · rw [hh]; exact hz
            · exact hoth h hh
          · intro h b; split
            · rename_i hh; rw [hh.1, hh.2]; exact hz
            · rfl
        · rw [h2]
          refine ⟨⟨⟨?_, fun hp => i3 f a p g hf hp⟩, ?_, trivial⟩, hinv (after l (.cleanup f a g p)) rfl rfl (fun _ _ => rfl)⟩
          · rw [i2, getData, hf]
          · intro h
            simp only [after, put_apply, and_true]
            split
            · rfl
            · rename_i hh; exact hoth h hh
  | exit f =>
    simp only [step] at hs
    split at hs
    · cases hs
    · split at hs
      · simp only [Option.some.injEq, Prod.mk.injEq] at hs
        obtain ⟨rfl, rfl⟩ := hs
        refine ⟨⟨trivial, trivial⟩, ⟨?_, ?_, ?_, i4, ?_, ?_⟩⟩
        · intro g; simp only [upd_apply]; split
          · exact List.Pairwise.nil
          · exact i1 g
        · intro g a
          simp only [List.foldl, after, upd_apply]
          split
          · rfl
          · exact i2 g a
        · intro g a p q
          simp only [upd_apply]
          split
          · intro h; cases h
          · exact i3 g a p q
        · intro a ha g
          simp only [List.foldl, after, upd_apply]
          split
          · rfl
          · exact i5 a ha g
        · intro g
          simp only [upd_apply]
          split
          · intro _; rfl
          · exact i6 g
      · simp only [Option.some.injEq, Prod.mk.injEq] at hs
        obtain ⟨rfl, rfl⟩ := hs
        obtain ⟨h1, h2, h3, h4, h5⟩ := sweep (f := f) (s.map f) l (i1 f) (i2 f) (i3 f)
        refine ⟨Runs.append.2 ⟨h1, h4, trivial⟩, ?_⟩
        rw [List.foldl_append]
        simp only [List.foldl, after]
        refine ⟨?_, ?_, ?_, h3.trans i4, ?_, ?_⟩
        · intro g; simp only [upd_apply]; split
          · exact List.Pairwise.nil
          · exact i1 g
        · intro g a
          simp only [upd_apply]
          split
          · rename_i hg; rw [hg, h4]; rfl
          · rename_i hg; rw [h5 g a hg, i2]
        · intro g a p q
          simp only [upd_apply]
          split
          · intro h; cases h
          · rw [h2]; exact i3 g a p q
        · intro a ha g
          by_cases hg : g = f
          · rw [hg]; exact h4 a
          · rw [h5 g a hg]; exact i5 a ha g
        · intro g
          simp only [upd_apply]
          split
          · intro _; rfl
          · exact i6 g

theorem reach_inv {main : Fid → Bool} {s : State} {tr : List Obs} (h : Reach step (init main) s tr) (hc : Careful tr) :
    Runs .init tr ∧ Inv s (replay tr) := by
  refine (h.inv (fun s tr => Careful tr → Runs .init tr ∧ Inv s (replay tr)) (fun _ => ⟨trivial, inv_init main⟩) ?_) hc
  intro s tr e s' o _ ih hs hc
  obtain ⟨h1, h2⟩ := ih hc.left
  have key : ∀ f a r x, o = x ++ [.destroyed f a r] → ∀ g, g ≠ f → (replay tr).val g a = 0 := by
    intro f a r x ho g hg
    have h3 := hc (tr ++ x) f a r [] (by rw [ho]; simp) g hg
    rw [replay_append] at h3
    -- the observations before the destruction in the same step are calls of cleanup functions by `f`
    have hx : ∀ o' ∈ x, ∃ b fn v, o' = .cleanup f b fn v := by
      cases e <;> simp only [step] at hs <;> (repeat' split at hs) <;> first | (cases hs; done) | skip
      all_goals (simp only [Option.some.injEq, Prod.mk.injEq] at hs; obtain ⟨rfl, rfl⟩ := hs)
      all_goals first
        | (have := congrArg List.reverse ho; simp at this; done)
        | skip
      all_goals (have h4 := List.append_inj' ho rfl; simp only [List.cons.injEq, Obs.destroyed.injEq, and_true] at h4)
      obtain ⟨h5, rfl, rfl, rfl⟩ := h4
      intro o' ho'
      rw [← h5] at ho'
      simp only [cleaned, List.mem_map] at ho'
      obtain ⟨d, _, rfl⟩ := ho'
      exact ⟨_, _, _, rfl⟩
    have hkeep : ∀ (x : List Obs) (l : Spec), (∀ o' ∈ x, ∃ b fn v, o' = .cleanup f b fn v) → (x.foldl after l).val g a = l.val g a := by
      intro x
      induction x with
      | nil => intro l _; rfl
      | cons o' x ih =>
        intro l hx
        obtain ⟨b, fn, v, rfl⟩ := hx o' (List.mem_cons_self ..)
        rw [List.foldl_cons, ih _ (fun y hy => hx y (List.mem_cons_of_mem _ hy))]
        simp only [after, put_apply]
        rw [if_neg (fun h => hg h.1)]
    rw [hkeep x _ hx] at h3
    exact h3
  obtain ⟨h5, h6⟩ := inv_step h2 hs key
  exact ⟨Runs.append.2 ⟨h1, h5⟩, by rw [replay_append]; exact h6⟩

/-! ## C53 -/

variable {main : Fid → Bool} {s s' : State} {tr : List Obs} {f : Fid} {a : Addr}

/-- Every history conforms to the specification. -/
theorem conforms (h : Reach step (init main) s tr) (hc : Careful tr) : Runs .init tr := (reach_inv h hc).1

/-- The pointer that fiber `f` last stored in `a`: null at first, and after `release`. -/
def last (f : Fid) (a : Addr) : List Obs → Ptr := List.foldl (fun r o => match o with
  | .made b _ => if b = a then 0 else r
  | .stored g b v => if g = f ∧ b = a then v else r
  | .released g b _ => if g = f ∧ b = a then 0 else r
  | _ => r) 0

/-- `o` does not change what was last stored. -/
theorem last_append (x y : List Obs) : last f a (x ++ y) = y.foldl (fun r o => match o with
  | .made b _ => if b = a then 0 else r
  | .stored g b v => if g = f ∧ b = a then v else r
  | .released g b _ => if g = f ∧ b = a then 0 else r
  | _ => r) (last f a x) := List.foldl_append ..

theorem foldl_cleanups (l : List (Fn × Ptr)) (g : Fid) (b : Addr) (r : Ptr) : (cleaned g b l).foldl (fun r o => match o with
  | .made b _ => if b = a then 0 else r
  | .stored g b v => if g = f ∧ b = a then v else r
  | .released g b _ => if g = f ∧ b = a then 0 else r
  | _ => r) r = r := by
  induction l with
  | nil => rfl
  | cons d l ih => exact ih

theorem last_inv (h : Reach step (init main) s tr) (hc : Careful tr) :
    ∀ f a, s.obj a ≠ none → s.done f = false → last f a tr = getData a (s.map f) := by
  refine (h.inv (fun s tr => Careful tr → ∀ f a, s.obj a ≠ none → s.done f = false → last f a tr = getData a (s.map f))
    (fun _ f a h => absurd rfl h) ?_) hc
  intro s tr e s' o hr ih hs hc f a ho hd
  have hi := (reach_inv hr hc.left).2
  have ih := ih hc.left
  rw [last_append]
  cases e with
  | make b fn =>
    simp only [step] at hs
    split at hs
    · rename_i hb
      simp only [Option.some.injEq, Prod.mk.injEq] at hs
      obtain ⟨rfl, rfl⟩ := hs
      simp only [List.foldl]
      by_cases hba : b = a
      · subst hba
        rw [if_pos rfl, ← hi.val, hi.dead b hb]
      · rw [if_neg hba]
        simp only [upd_apply, if_neg (fun h => hba h.symm : a ≠ b)] at ho
        exact ih f a ho hd
    · cases hs
  | get g b =>
    simp only [step] at hs
    repeat' split at hs
    all_goals first
      | (cases hs; done)
      | skip
    simp only [Option.some.injEq, Prod.mk.injEq] at hs
    obtain ⟨rfl, rfl⟩ := hs
    exact ih f a ho hd
  | reset g b v =>
    simp only [step] at hs
    repeat' split at hs
    all_goals first
      | (cases hs; done)
      | skip
    · simp only [Option.some.injEq, Prod.mk.injEq] at hs
      obtain ⟨rfl, rfl⟩ := hs
      rw [List.foldl_append, foldl_cleanups]
      simp only [List.foldl, upd_apply]
      by_cases hf : g = f
      · subst hf
        simp only [if_true, true_and, setData_get (hi.srt g)]
        rw [ih g a ho hd]
        grind
      · rw [if_neg (fun h => hf h.1), if_neg (fun h => hf h.symm)]
        exact ih f a ho hd
    · simp only [Option.some.injEq, Prod.mk.injEq] at hs
      obtain ⟨rfl, rfl⟩ := hs
      exact ih f a ho hd
  | release g b =>
    simp only [step] at hs
    repeat' split at hs
    all_goals first
      | (cases hs; done)
      | skip
    simp only [Option.some.injEq, Prod.mk.injEq] at hs
    obtain ⟨rfl, rfl⟩ := hs
    simp only [List.foldl, upd_apply]
    by_cases hf : g = f
    · subst hf
      simp only [if_true, true_and, setData_get (hi.srt g)]
      rw [ih g a ho hd]
      grind
    · rw [if_neg (fun h => hf h.1), if_neg (fun h => hf h.symm)]
      exact ih f a ho hd
  | destroy g b =>
    simp only [step] at hs
    repeat' split at hs
    all_goals first
      | (cases hs; done)
      | skip
    simp only [Option.some.injEq, Prod.mk.injEq] at hs
    obtain ⟨rfl, rfl⟩ := hs
    rw [List.foldl_append, foldl_cleanups]
    simp only [upd_apply] at ho
    have hab : a ≠ b := by intro h; simp [h] at ho
    rw [if_neg hab] at ho
    simp only [List.foldl, upd_apply]
    by_cases hf : f = g
    · subst hf
      simp only [if_true, setData_get (hi.srt f), if_neg hab]
      exact ih f a ho hd
    · rw [if_neg hf]; exact ih f a ho hd
  | exit g =>
    simp only [step] at hs
    have hsw : ∀ (m : Map) (r : Ptr), (m.map (fun e => Obs.cleanup g e.1 e.2.2 e.2.1)).foldl (fun r o => match o with
      | .made b _ => if b = a then 0 else r
      | .stored g b v => if g = f ∧ b = a then v else r
      | .released g b _ => if g = f ∧ b = a then 0 else r
      | _ => r) r = r := by
      intro m r
      induction m with
      | nil => rfl
      | cons d m ih => exact ih
    repeat' split at hs
    all_goals first
      | (cases hs; done)
      | skip
    all_goals (
      simp only [Option.some.injEq, Prod.mk.injEq] at hs
      obtain ⟨rfl, rfl⟩ := hs
      simp only [upd_apply] at hd
      have hf : f ≠ g := by intro h; simp [h] at hd
      rw [if_neg hf] at hd
      first
        | (rw [List.foldl_append, hsw]; simp only [List.foldl, upd_apply, if_neg hf]; exact ih f a ho hd)
        | (simp only [List.foldl, upd_apply, if_neg hf]; exact ih f a ho hd))

/-- A fiber that has ended makes no more calls, and nothing of it is cleaned up any more. -/
theorem nothing_after_end (hd : s.done f = true) (h : Reach step s s' tr) :
    s'.done f = true ∧ (∀ a fn v, .cleanup f a fn v ∉ tr) ∧ (∀ a v, .stored f a v ∉ tr) ∧ (∀ a v, .released f a v ∉ tr) := by
  refine h.inv (fun s' tr => s'.done f = true ∧ (∀ a fn v, .cleanup f a fn v ∉ tr) ∧ (∀ a v, .stored f a v ∉ tr) ∧ (∀ a v, .released f a v ∉ tr))
    ⟨hd, by simp, by simp, by simp⟩ ?_
  intro s tr e s' o _ ⟨h1, h2, h3, h4⟩ hs
  have key : s'.done f = true ∧ (∀ a fn v, Obs.cleanup f a fn v ∉ o) ∧ (∀ a v, .stored f a v ∉ o) ∧ (∀ a v, .released f a v ∉ o) := by
    cases e <;> simp only [step] at hs <;> (repeat' split at hs) <;> first | (cases hs; done) | skip
    all_goals (
      simp only [Option.some.injEq, Prod.mk.injEq] at hs
      obtain ⟨rfl, rfl⟩ := hs
      simp only [upd_apply, cleaned, List.mem_append, List.mem_map, List.mem_singleton, List.not_mem_nil]
      grind)
  refine ⟨key.1, fun a fn v hm => ?_, fun a v hm => ?_, fun a v hm => ?_⟩ <;> rcases List.mem_append.1 hm with hm | hm
  · exact h2 a fn v hm
  · exact key.2.1 a fn v hm
  · exact h3 a v hm
  · exact key.2.2.1 a v hm
  · exact h4 a v hm
  · exact key.2.2.2 a v hm

/-- The state before an observation. -/
theorem Reach.before {x y : List Obs} {ob : Obs} (h : Reach step (init main) s (x ++ ob :: y)) :
    ∃ s₁ s₂ e o x₁ x₂ y₁, Reach step (init main) s₁ x₁ ∧ step s₁ e = some (s₂, o) ∧ o = x₂ ++ ob :: y₁ ∧ x = x₁ ++ x₂ := by
  generalize ht : x ++ ob :: y = tr at h
  induction h generalizing y with
  | refl => simp at ht
  | tail e hr hs ih =>
    rename_i s₁ s₂ tr₁ o
    rcases List.append_eq_append_iff.1 ht with ⟨z, hz1, hz2⟩ | ⟨z, hz1, hz2⟩
    · cases z with
      | nil =>
        simp only [List.append_nil, List.nil_append] at hz1 hz2
        exact ⟨s₁, s₂, e, o, tr₁, [], y, hr, hs, by simp [← hz2], by simp [hz1]⟩
      | cons w z =>
        simp only [List.cons_append, List.cons.injEq] at hz2
        obtain ⟨rfl, hz2⟩ := hz2
        exact ih hz1.symm
    · exact ⟨s₁, s₂, e, o, tr₁, z, y, hr, hs, hz2, hz1⟩

/-- `get()` returns the pointer that the same fiber last stored in the same `fiber_specific_ptr`. -/
theorem get_last {x y : List Obs} {r : Ptr} (h : Reach step (init main) s (x ++ .got f a r :: y)) (hc : Careful x) : r = last f a x := by
  obtain ⟨s₁, s₂, e, o, x₁, x₂, y₁, h1, h2, h3, rfl⟩ := Reach.before h
  have hi := last_inv h1 hc.left
  have hm : Obs.got f a r ∈ o := by rw [h3]; simp
  cases e with
  | get g b =>
    simp only [step] at h2
    split at h2
    · cases h2
    rename_i hd
    split at h2
    · cases h2
    rename_i fn ha
    simp only [Option.some.injEq, Prod.mk.injEq] at h2
    obtain ⟨rfl, rfl⟩ := h2
    have h4 : x₂ = [] ∧ y₁ = [] := by
      cases x₂ with
      | nil => simp only [List.nil_append, List.cons.injEq] at h3; exact ⟨rfl, h3.2.symm⟩
      | cons w z => simp at h3
    obtain ⟨rfl, rfl⟩ := h4
    simp only [List.nil_append, List.cons.injEq, Obs.got.injEq, and_true] at h3
    obtain ⟨rfl, rfl, rfl⟩ := h3
    rw [List.append_nil]
    exact (hi g b (by rw [ha]; simp) (by simpa using hd)).symm
  | _ =>
    exfalso
    simp only [step] at h2
    (repeat' split at h2) <;> first | (cases h2; done) | skip
    all_goals (
      simp only [Option.some.injEq, Prod.mk.injEq] at h2
      obtain ⟨rfl, rfl⟩ := h2
      clear h3
      simp [cleaned] at hm)

/-- The same for what `release()` returns. -/
theorem release_last {x y : List Obs} {r : Ptr} (h : Reach step (init main) s (x ++ .released f a r :: y)) (hc : Careful x) : r = last f a x := by
  obtain ⟨s₁, s₂, e, o, x₁, x₂, y₁, h1, h2, h3, rfl⟩ := Reach.before h
  have hi := last_inv h1 hc.left
  have hm : Obs.released f a r ∈ o := by rw [h3]; simp
  cases e with
  | release g b =>
    simp only [step] at h2
    split at h2
    · cases h2
    rename_i hd
    split at h2
    · cases h2
    rename_i fn ha
    simp only [Option.some.injEq, Prod.mk.injEq] at h2
    obtain ⟨rfl, rfl⟩ := h2
    have h4 : x₂ = [] ∧ y₁ = [] := by
      cases x₂ with
      | nil => simp only [List.nil_append, List.cons.injEq] at h3; exact ⟨rfl, h3.2.symm⟩
      | cons w z => simp at h3
    obtain ⟨rfl, rfl⟩ := h4
    simp only [List.nil_append, List.cons.injEq, Obs.released.injEq, and_true] at h3
    obtain ⟨rfl, rfl, rfl⟩ := h3
    rw [List.append_nil]
    exact (hi g b (by rw [ha]; simp) (by simpa using hd)).symm
  | _ =>
    exfalso
    simp only [step] at h2
    (repeat' split at h2) <;> first | (cases h2; done) | skip
    all_goals (
      simp only [Option.some.injEq, Prod.mk.injEq] at h2
      obtain ⟨rfl, rfl⟩ := h2
      clear h3
      simp [cleaned] at hm)

/-- Fiber `f` stored `v` in `a`. -/
def isStored (f : Fid) (a : Addr) (v : Ptr) : Obs → Bool
  | .stored g b w => decide (g = f ∧ b = a ∧ w = v)
  | _ => false

/-- Fiber `f` had `v`, which it had stored in `a`, cleaned up. -/
def isCleaned (f : Fid) (a : Addr) (v : Ptr) : Obs → Bool
  | .cleanup g b _ w => decide (g = f ∧ b = a ∧ w = v)
  | _ => false

/-- Fiber `f` took `v` out of `a`. -/
def isReleased (f : Fid) (a : Addr) (v : Ptr) : Obs → Bool
  | .released g b w => decide (g = f ∧ b = a ∧ w = v)
  | _ => false

/-- 1 if the pointer of fiber `f` in `a` is `v`. -/
def remains (l : Spec) (f : Fid) (a : Addr) (v : Ptr) : Nat := if l.val f a = v then 1 else 0

theorem counts {v : Ptr} (hv : v ≠ 0) : ∀ (tr : List Obs) (l : Spec), Runs l tr → .gone f ∉ tr →
    tr.countP (isStored f a v) + remains l f a v =
      tr.countP (isCleaned f a v) + tr.countP (isReleased f a v) + remains (tr.foldl after l) f a v := by
  intro tr
  induction tr with
  | nil => intro l _ _; simp
  | cons o tr ih =>
    intro l hr hg
    obtain ⟨h1, h2⟩ := hr
    have h3 := ih _ h2 (fun h => hg (List.mem_cons_of_mem _ h))
    have h4 : o ≠ .gone f := fun h => hg (h ▸ List.mem_cons_self ..)
    have h5 : (if isStored f a v o = true then 1 else 0) + remains l f a v =
        (if isCleaned f a v o = true then 1 else 0) + (if isReleased f a v o = true then 1 else 0) + remains (after l o) f a v := by
      cases o <;> simp only [remains, isStored, isCleaned, isReleased, after, put_apply, upd_apply, ok, decide_eq_true_eq] at * <;> grind
    simp only [List.countP_cons, List.foldl_cons]
    omega

/-- Every non-null pointer that a fiber stored was, as often as it was stored, cleaned up, taken out by `release()`, or is still
there. (The main fiber of a thread that has ended is excepted, see `main_not_cleaned`.) -/
theorem accounted {v : Ptr} (h : Reach step (init main) s tr) (hc : Careful tr) (hg : .gone f ∉ tr) (hv : v ≠ 0) :
    tr.countP (isStored f a v) = tr.countP (isCleaned f a v) + tr.countP (isReleased f a v) + remains (replay tr) f a v := by
  have := counts (f := f) (a := a) hv tr .init (reach_inv h hc).1 hg
  rw [replay]
  rw [← this]
  simp [remains, Spec.init, Ne.symm hv]

theorem exited_done (h : Reach step (init main) s tr) (he : .exited f ∈ tr) : s.done f = true := by
  refine h.inv (fun s tr => .exited f ∈ tr → s.done f = true) (by simp) ?_ he
  intro s tr e s' o _ ih hs hm
  have keep : s.done f = true → s'.done f = true := fun hd => (nothing_after_end hd (Reach.tail e .refl hs)).1
  rcases List.mem_append.1 hm with hm | hm
  · exact keep (ih hm)
  · cases e <;> simp only [step] at hs <;> (repeat' split at hs) <;> first | (cases hs; done) | skip
    all_goals (
      simp only [Option.some.injEq, Prod.mk.injEq] at hs
      obtain ⟨rfl, rfl⟩ := hs
      simp [cleaned] at hm)
    subst hm
    simp

/-- When a fiber (not a main fiber) has ended, every non-null pointer it stored was cleaned up exactly as often as it was stored,
except those taken out by `release()`. -/
theorem cleaned_when_ended {v : Ptr} (h : Reach step (init main) s tr) (hc : Careful tr) (he : .exited f ∈ tr) (hg : .gone f ∉ tr) (hv : v ≠ 0) :
    tr.countP (isStored f a v) = tr.countP (isCleaned f a v) + tr.countP (isReleased f a v) := by
  have hi := (reach_inv h hc).2
  have h1 := accounted (a := a) h hc hg hv
  rw [remains, hi.val, hi.fin f (exited_done h he)] at h1
  simpa [getData, find, Ne.symm hv] using h1

/-- What the main fiber of a thread stored is never cleaned up when the thread ends. -/
theorem main_not_cleaned : ∃ s, Reach step (init fun _ => true) s [.made 0 7, .stored 1 0 5, .gone 1] ∧
    ∀ s' tr, Reach step s s' tr → ∀ a fn v, .cleanup 1 a fn v ∉ tr := by
  refine ⟨_, reach_of_exec (es := [.make 0 7, .reset 1 0 5, .exit 1]) rfl, fun s' tr h => ?_⟩
  exact (nothing_after_end (f := 1) rfl h).2.1

/-! ## C54 -/

/-- `release()` on a fiber that never stored a pointer leaves a null entry, on which the cleanup function is called at the end. -/
theorem release_then_exit : ∃ s, Reach step (init fun _ => false) s [.made 0 7, .released 1 0 0, .cleanup 1 0 7 0, .exited 1] :=
  ⟨_, reach_of_exec (es := [.make 0 7, .release 1 0, .exit 1]) rfl⟩

/-- So does the destructor of a `fiber_specific_ptr`. -/
theorem destroy_then_exit : ∃ s, Reach step (init fun _ => false) s [.made 0 7, .destroyed 1 0 0, .cleanup 1 0 7 0, .exited 1] :=
  ⟨_, reach_of_exec (es := [.make 0 7, .destroy 1 0, .exit 1]) rfl⟩

/-- Apart from that the cleanup function is not called on null: it is not as long as `release()` and the destructor are only used by
fibers that have a pointer. -/
theorem cleanup_null_partial (h : Reach step (init main) s tr) (h1 : ∀ f a, .released f a 0 ∉ tr) (h2 : ∀ f a, .destroyed f a 0 ∉ tr) (fn : Fn) :
    .cleanup f a fn 0 ∉ tr := by
  have key : (∀ f, Sorted (s.map f)) ∧ (∀ f a p g, find a (s.map f) = some (p, g) → p ≠ 0) ∧ ∀ f a fn, .cleanup f a fn 0 ∉ tr := by
    refine (h.inv (fun s tr => (∀ f a, .released f a 0 ∉ tr) → (∀ f a, .destroyed f a 0 ∉ tr) → (∀ f, Sorted (s.map f)) ∧
      (∀ f a p g, find a (s.map f) = some (p, g) → p ≠ 0) ∧ ∀ f a fn, .cleanup f a fn 0 ∉ tr) ?_ ?_) h1 h2
    · intro _ _; exact ⟨fun _ => List.Pairwise.nil, by simp [init, find], by simp⟩
    · intro s tr e s' o _ ih hs h1 h2
      obtain ⟨i1, i2, i3⟩ := ih (fun f a hm => h1 f a (List.mem_append_left _ hm)) (fun f a hm => h2 f a (List.mem_append_left _ hm))
      have h1' : ∀ f a, .released f a 0 ∉ o := fun f a hm => h1 f a (List.mem_append_right _ hm)
      have h2' : ∀ f a, .destroyed f a 0 ∉ o := fun f a hm => h2 f a (List.mem_append_right _ hm)
      have hset : ∀ (f : Fid) (a : Addr) (fn : Fn) (v : Ptr) (x : Bool), (v ≠ 0 ∨ find a (s.map f) ≠ none) →
          (∀ g, Sorted (upd s.map f (setData a fn v x (s.map f)).1 g)) ∧
          (∀ g b p q, find b (upd s.map f (setData a fn v x (s.map f)).1 g) = some (p, q) → p ≠ 0) ∧
          ∀ d ∈ (setData a fn v x (s.map f)).2, d.2 ≠ 0 := by
        intro f a fn v x hv
        refine ⟨fun g => ?_, fun g b p q => ?_, fun d hd => ?_⟩
        · simp only [upd_apply]; split
          · exact setData_sorted (i1 f)
          · exact i1 g
        · simp only [upd_apply]; split
          · rw [setData_find (i1 f)]
            split
            · split
              · rename_i hor
                intro he
                simp only [Option.some.injEq, Prod.mk.injEq] at he
                rw [← he.1]
                rcases hv with hv | hv
                · exact hv
                · rcases hor with hor | hor
                  · exact hor
                  · exact absurd hor hv
              · intro he; cases he
            · exact i2 f b p q
          · exact i2 g b p q
        · simp only [setData] at hd
          cases hf : find a (s.map f) with
          | none => rw [hf] at hd; simp at hd
          | some e =>
            rw [hf] at hd
            cases x <;> simp at hd
            subst hd
            exact i2 f a e.1 e.2 hf
      have hin : ∀ f a, getData a (s.map f) ≠ 0 → find a (s.map f) ≠ none := by
        intro f a hz hn; apply hz; rw [getData, hn]
      have happ : ∀ o : List Obs, (∀ f a fn, .cleanup f a fn 0 ∉ o) → ∀ f a fn, .cleanup f a fn 0 ∉ tr ++ o := by
        intro o ho f a fn hm
        rcases List.mem_append.1 hm with hm | hm
        · exact i3 f a fn hm
        · exact ho f a fn hm
      cases e with
      | make b fn =>
        simp only [step] at hs
        split at hs
        · simp only [Option.some.injEq, Prod.mk.injEq] at hs
          obtain ⟨rfl, rfl⟩ := hs
          exact ⟨i1, i2, happ _ (by simp)⟩
        · cases hs
      | get g b =>
        simp only [step] at hs
        repeat' split at hs
        all_goals first
          | (cases hs; done)
          | skip
        simp only [Option.some.injEq, Prod.mk.injEq] at hs
        obtain ⟨rfl, rfl⟩ := hs
        exact ⟨i1, i2, happ _ (by simp)⟩
      | reset g b v =>
        simp only [step] at hs
        repeat' split at hs
        all_goals first
          | (cases hs; done)
          | skip
        · rename_i fn hb hne
          simp only [Option.some.injEq, Prod.mk.injEq] at hs
          obtain ⟨rfl, rfl⟩ := hs
          have hv : v ≠ 0 ∨ find b (s.map g) ≠ none := by
            by_cases hv : v = 0
            · right; refine hin g b ?_; rw [hv] at hne; exact hne
            · exact .inl hv
          obtain ⟨j1, j2, j3⟩ := hset g b fn v true hv
          refine ⟨j1, j2, happ _ ?_⟩
          intro f a q hm
          simp only [cleaned, List.mem_append, List.mem_map, List.mem_singleton, reduceCtorEq, or_false, Obs.cleanup.injEq] at hm
          obtain ⟨d, hd, _, _, _, hz⟩ := hm
          exact j3 d hd hz
        · simp only [Option.some.injEq, Prod.mk.injEq] at hs
          obtain ⟨rfl, rfl⟩ := hs
          exact ⟨i1, i2, happ _ (by simp)⟩
      | release g b =>
        simp only [step] at hs
        repeat' split at hs
        all_goals first
          | (cases hs; done)
          | skip
        rename_i fn hb
        simp only [Option.some.injEq, Prod.mk.injEq] at hs
        obtain ⟨rfl, rfl⟩ := hs
        have hz : getData b (s.map g) ≠ 0 := fun hz => h1' g b (by rw [hz]; simp)
        obtain ⟨j1, j2, j3⟩ := hset g b fn 0 false (.inr (hin g b hz))
        exact ⟨j1, j2, happ _ (by simp)⟩
      | destroy g b =>
        simp only [step] at hs
        repeat' split at hs
        all_goals first
          | (cases hs; done)
          | skip
        rename_i fn hb
        simp only [Option.some.injEq, Prod.mk.injEq] at hs
        obtain ⟨rfl, rfl⟩ := hs
        have hz : getData b (s.map g) ≠ 0 := fun hz => h2' g b (by rw [hz]; simp)
        obtain ⟨j1, j2, j3⟩ := hset g b fn 0 true (.inr (hin g b hz))
        refine ⟨j1, j2, happ _ ?_⟩
        intro f a q hm
        simp only [cleaned, List.mem_append, List.mem_map, List.mem_singleton, reduceCtorEq, or_false, Obs.cleanup.injEq] at hm
        obtain ⟨d, hd, _, _, _, hz⟩ := hm
        exact j3 d hd hz
      | exit g =>
        have hfin : ∀ m : Map, Sorted m → ∀ e ∈ m, find e.1 m = some e.2 := by
          intro m
          induction m with
          | nil => intro _ e he; cases he
          | cons d m ih =>
            intro hs e he
            rcases List.mem_cons.1 he with rfl | he
            · simp [find]
            · have h1 : d.1 < e.1 := (List.pairwise_cons.1 hs).1 e.1 (List.mem_map_of_mem he)
              rw [find, if_neg (Nat.ne_of_gt h1)]
              exact ih hs.tail e he
        simp only [step] at hs
        have hupd : (∀ f, Sorted (upd s.map g [] f)) ∧ ∀ f a p q, find a (upd s.map g [] f) = some (p, q) → p ≠ 0 := by
          refine ⟨fun f => ?_, fun f a p q => ?_⟩ <;> simp only [upd_apply] <;> split
          · exact List.Pairwise.nil
          · exact i1 f
          · intro h; cases h
          · exact i2 f a p q
        repeat' split at hs
        all_goals first
          | (cases hs; done)
          | skip
        · simp only [Option.some.injEq, Prod.mk.injEq] at hs
          obtain ⟨rfl, rfl⟩ := hs
          exact ⟨hupd.1, hupd.2, happ _ (by simp)⟩
        · simp only [Option.some.injEq, Prod.mk.injEq] at hs
          obtain ⟨rfl, rfl⟩ := hs
          refine ⟨hupd.1, hupd.2, happ _ ?_⟩
          intro f a q hm
          simp only [List.mem_append, List.mem_map, List.mem_singleton, reduceCtorEq, or_false, Obs.cleanup.injEq] at hm
          obtain ⟨d, hd, _, _, _, hz⟩ := hm
          exact i2 g d.1 d.2.1 d.2.2 (hfin _ (i1 g) d hd) hz
  exact key.2.2 f a fn

/-- `reset` with the pointer that the fiber last stored does nothing; in particular the pointer, still in use, is not cleaned up. -/
theorem reset_same {v : Ptr} {o : List Obs} (h : Reach step (init main) s tr) (hc : Careful tr) (hv : last f a tr = v)
    (hs : step s (.reset f a v) = some (s', o)) : s' = s ∧ o = [] := by
  simp only [step] at hs
  split at hs
  · cases hs
  · rename_i hd
    split at hs
    · cases hs
    · rename_i fn ho
      have hg := last_inv h hc f a (by rw [ho]; simp) (by simpa using hd)
      rw [if_neg (by rw [← hg, hv]; simp)] at hs
      simp only [Option.some.injEq, Prod.mk.injEq] at hs
      exact ⟨hs.1.symm, hs.2.symm⟩

/-! ## Examples -/

def demo : List Event := [.make 4 7, .make 2 8, .reset 1 4 5, .reset 1 2 6, .reset 2 4 9, .get 1 4, .reset 1 4 3, .get 1 4, .release 2 4,
  .exit 1, .get 2 4, .exit 2]

def demoTrace : List Obs := [.made 4 7, .made 2 8, .stored 1 4 5, .stored 1 2 6, .stored 2 4 9, .got 1 4 5, .cleanup 1 4 7 5, .stored 1 4 3,
  .got 1 4 3, .released 2 4 9, .cleanup 1 2 8 6, .cleanup 1 4 7 3, .exited 1, .got 2 4 0, .exited 2]

theorem demo_reach : ∃ s, Reach step (init fun f => decide (f = 0)) s demoTrace := ⟨_, reach_of_exec (es := demo) rfl⟩

-- `conforms`, `accounted`, `cleaned_when_ended`
example : Careful demoTrace := by
  intro x f a r y h
  have : Obs.destroyed f a r ∈ demoTrace := by rw [h]; simp
  simp [demoTrace] at this

example : demoTrace.countP (isStored 1 4 5) = 1 ∧ demoTrace.countP (isCleaned 1 4 5) = 1 ∧ demoTrace.countP (isReleased 2 4 9) = 1 ∧
    demoTrace.countP (isCleaned 2 4 9) = 0 ∧ Obs.exited 1 ∈ demoTrace ∧ Obs.gone 1 ∉ demoTrace := by decide

-- `get_last`
example : last 1 4 [.made 4 7, .stored 1 4 5, .stored 2 4 9] = 5 := by decide

-- `reset_same`: the call happens, and the pointer is not null
example : ∃ s, Reach step (init fun _ => false) s [.made 4 7, .stored 1 4 5] ∧ last 1 4 [.made 4 7, .stored 1 4 5] = 5 ∧ (step s (.reset 1 4 5)).isSome :=
  ⟨_, reach_of_exec (es := [.make 4 7, .reset 1 4 5]) rfl, rfl, rfl⟩

-- `cleanup_null_partial`
example : (∀ f a, Obs.released f a 0 ∉ demoTrace) ∧ ∀ f a, Obs.destroyed f a 0 ∉ demoTrace := by
  constructor <;> intro f a h <;> simp [demoTrace] at h

end Verif.Fss
