import Verif.WeakLock
import Verif.Props.Spinlock

/-!
# Spinlocks under weak memory: exclusion and visibility (C73)
-/

namespace Verif

open Weak

/-! ## Specification -/

/-- Nobody gets the lock while somebody holds it, judging from the calls that returned. -/
def WExclusive (tr : List WlObs) : Prop := Exclusive (tr.filterMap WlObs.lock?)

/-- Whatever was done to data under the lock is visible to those who use the data under the lock later. -/
def Visible (tr : List WlObs) : Prop := ∀ w x, WlObs.race w x ∉ tr

/-! ## The lock word -/

namespace WeakLock

/-- The lock word is 0 in a message that nobody has taken. -/
def Open (m : Mem) (u : Nat) (g : Msg) : Prop := m.msg 0 u = some g ∧ g.val = 0 ∧ m.msg 0 (u + 1) = none

structure Lk (vis : Prop) (m : Mem) (h : Nat → Prop) : Prop where
  one : ∀ w w', h w → h w' → w = w'
  excl : ∀ u g w, Open m u g → ¬ h w
  top : ∀ u g u' g', Open m u g → m.msg 0 u' = some g' → g'.val = 0 → u' ≤ u
  nz : ∀ w u g, h w → m.msg 0 u = some g → g.val = 0 → u < m.cur w 0
  visO : vis → ∀ u g x, Open m u g → 2 ≤ x → m.last x ≤ g.view x
  visH : vis → ∀ w x, h w → 2 ≤ x → m.last x ≤ m.cur w x

variable {vis : Prop} {m m' : Mem} {h h' : Nat → Prop} {w x t v : Nat} {f : Nat → Nat} {a r b : Bool} {g : Msg}

theorem Lk.sub (hl : Lk vis m h) (hh : ∀ w, h' w → h w) : Lk vis m h' where
  one := fun w w' h1 h2 => hl.one w w' (hh w h1) (hh w' h2)
  excl := fun u g w ho h1 => hl.excl u g w ho (hh w h1)
  top := hl.top
  nz := fun w u g h1 => hl.nz w u g (hh w h1)
  visO := hl.visO
  visH := fun hv w x h1 => hl.visH hv w x (hh w h1)

/-- Location 0 and the data do not change; views grow. -/
theorem Lk.frame (hl : Lk vis m h) (hm : m'.msg 0 = m.msg 0) (hla : m'.last = m.last) (hc : ∀ u y, m.cur u y ≤ m'.cur u y) : Lk vis m' h := by
  have ho : ∀ u g, Open m' u g ↔ Open m u g := fun u g => by simp only [Open, hm]
  exact
    { one := hl.one
      excl := fun u g w h1 => hl.excl u g w ((ho u g).1 h1)
      top := fun u g u' g' h1 h2 => hl.top u g u' g' ((ho u g).1 h1) (by rw [← hm]; exact h2)
      nz := fun w u g h1 h2 h3 => Nat.lt_of_lt_of_le (hl.nz w u g h1 (by rw [← hm]; exact h2) h3) (hc w 0)
      visO := fun hv u g x h1 h2 => by rw [hla]; exact hl.visO hv u g x ((ho u g).1 h1) h2
      visH := fun hv w x h1 h2 => by rw [hla]; exact Nat.le_trans (hl.visH hv w x h1 h2) (hc w x) }

theorem mono_all {w : Nat} (ho : ∀ u, u ≠ w → m'.cur u = m.cur u) (hm : ∀ y, m.cur w y ≤ m'.cur w y) (u y : Nat) : m.cur u y ≤ m'.cur u y := by
  by_cases hu : u = w
  · subst hu; exact hm y
  · rw [ho u hu]; exact Nat.le_refl _

theorem Lk.load (hl : Lk vis m h) (hs : Loaded m w x t a v m' g) : Lk vis m' h :=
  hl.frame (by rw [hs.msg]) hs.last (mono_all hs.others hs.mono)

theorem Lk.store (hl : Lk vis m h) (hs : Stored m w x t v r m') (hx : x ≠ 0) : Lk vis m' h := by
  obtain ⟨g, _, _, _, _, hm⟩ := hs.msg
  exact hl.frame (by rw [hm, upd_other _ _ (Ne.symm hx)]) hs.last (mono_all hs.others hs.mono)

/-- A use of data by the holder is no race, and the holder knows it. -/
theorem Lk.touch (hl : Lk vis m h) (hs : Touched m w x b m') (hw : h w) (hx : 2 ≤ x) : Lk vis m' h ∧ (vis → b = false) := by
  have ho : ∀ u g, Open m' u g ↔ Open m u g := fun u g => by simp only [Open, hs.msg]
  have hc := mono_all hs.others hs.mono
  refine ⟨⟨hl.one, ?_, ?_, ?_, ?_, ?_⟩, ?_⟩
  · exact fun u g w h1 => hl.excl u g w ((ho u g).1 h1)
  · exact fun u g u' g' h1 h2 => hl.top u g u' g' ((ho u g).1 h1) (by rw [← hs.msg]; exact h2)
  · exact fun w u g h1 h2 h3 => Nat.lt_of_lt_of_le (hl.nz w u g h1 (by rw [← hs.msg]; exact h2) h3) (hc w 0)
  · intro _ u g y h1
    exact absurd hw (hl.excl u g w ((ho u g).1 h1))
  · intro hv u y h1 h2
    have : u = w := hl.one u w h1 hw
    subst this
    rw [hs.last, upd_apply]
    split
    · rename_i he; subst he; exact hs.new
    · exact Nat.le_trans (hl.visH hv u y h1 h2) (hc u y)
  · intro hv
    have h1 := hl.visH hv w x hw hx
    cases hb : b with
    | false => rfl
    | true => have := hs.race.1 hb; omega

/-- The messages of location 0 after a new one. -/
theorem msg0 {n : Msg} {t : Nat} (hm : m'.msg = upd m.msg 0 (upd (m.msg 0) t (some n))) (u : Nat) :
    m'.msg 0 u = if u = t then some n else m.msg 0 u := by rw [hm, upd_same, upd_apply]

/-- Taking a free lock. -/
theorem Lk.take (hl : Lk vis m h) (hs : Modified m w 0 t f true r v m' g) (hv : v = 0) (hf : f v ≠ 0) :
    (∀ u, ¬ h u) ∧ Lk vis m' (· = w) := by
  have hgv : g.val = 0 := hs.val.symm.trans hv
  have hop : Open m t g := ⟨hs.read, hgv, hs.free⟩
  obtain ⟨n, hn, _, _, _, hm⟩ := hs.msg
  have hmsg := msg0 hm
  have hz : ∀ u g', m'.msg 0 u = some g' → g'.val = 0 → m.msg 0 u = some g' ∧ u ≤ t := by
    intro u g' h1 h2
    rw [hmsg] at h1
    split at h1
    · cases h1; exact absurd (hn.symm.trans h2) hf
    · exact ⟨h1, hl.top t g u g' hop h1 h2⟩
  have hno : ∀ u g', ¬ Open m' u g' := by
    rintro u g' ⟨h1, h2, h3⟩
    obtain ⟨h4, h5⟩ := hz u g' h1 h2
    rw [hmsg] at h3
    split at h3
    · cases h3
    · rename_i hne
      have := hl.top u g' t g ⟨h4, h2, h3⟩ hs.read hgv
      exact hne (by omega)
  refine ⟨fun u => hl.excl t g u hop, ?_, ?_, ?_, ?_, ?_, ?_⟩
  · intro u u' h1 h2; rw [h1, h2]
  · intro u g' _ h1; exact absurd h1 (hno u g')
  · intro u g' _ _ h1; exact absurd h1 (hno u g')
  · intro u y g' h1 h2 h3
    subst h1
    have := (hz y g' h2 h3).2
    have := hs.new
    omega
  · intro _ u g' _ h1; exact absurd h1 (hno u g')
  · intro hv u y h1 h2
    subst h1
    rw [hs.last]
    exact Nat.le_trans (hl.visO hv t g y hop h2) (hs.gain rfl y)

/-- A read-modify-write of a lock that is not free. -/
theorem Lk.bump (hl : Lk vis m h) (hs : Modified m w 0 t f a r v m' g) (hv : v ≠ 0) (hf : f v ≠ 0) : Lk vis m' h := by
  have hgv : g.val ≠ 0 := fun he => hv (hs.val.trans he)
  obtain ⟨n, hn, _, _, _, hm⟩ := hs.msg
  have hmsg := msg0 hm
  have hc := mono_all hs.others hs.mono
  have hz : ∀ u g', m'.msg 0 u = some g' → g'.val = 0 → m.msg 0 u = some g' := by
    intro u g' h1 h2
    rw [hmsg] at h1
    split at h1
    · cases h1; exact absurd (hn.symm.trans h2) hf
    · exact h1
  have ho : ∀ u g', Open m' u g' → Open m u g' := by
    rintro u g' ⟨h1, h2, h3⟩
    refine ⟨hz u g' h1 h2, h2, ?_⟩
    rw [hmsg] at h3
    split at h3
    · cases h3
    · exact h3
  refine ⟨hl.one, ?_, ?_, ?_, ?_, ?_⟩
  · exact fun u g w h1 => hl.excl u g w (ho u g h1)
  · exact fun u g u' g' h1 h2 h3 => hl.top u g u' g' (ho u g h1) (hz u' g' h2 h3) h3
  · exact fun w u g h1 h2 h3 => Nat.lt_of_lt_of_le (hl.nz w u g h1 (hz u g h2 h3) h3) (hc w 0)
  · exact fun hv u g x h1 h2 => by rw [hs.last]; exact hl.visO hv u g x (ho u g h1) h2
  · exact fun hv w x h1 h2 => by rw [hs.last]; exact Nat.le_trans (hl.visH hv w x h1 h2) (hc w x)

/-- The holder writes a message with value 0 that contains its view. -/
theorem Lk.free (hl : Lk vis m h) (hw : h w) {n : Msg} {u : Nat} (hm : m'.msg = upd m.msg 0 (upd (m.msg 0) u (some n))) (hu : m.cur w 0 ≤ u)
    (hla : m'.last = m.last) (hv : vis → ∀ y, m.cur w y ≤ n.view y) : Lk vis m' (fun _ => False) := by
  have hmsg := msg0 hm
  have ho : ∀ u' g', Open m' u' g' → u' = u ∧ g' = n := by
    rintro u' g' ⟨h1, h2, h3⟩
    rw [hmsg] at h1
    split at h1
    · rename_i he; exact ⟨he, (Option.some.inj h1).symm⟩
    · rw [hmsg] at h3
      split at h3
      · cases h3
      · exact absurd hw (hl.excl u' g' w ⟨h1, h2, h3⟩)
  refine ⟨fun _ _ h => h.elim, fun _ _ _ _ h => h, ?_, fun _ _ _ h => h.elim, ?_, fun _ _ _ h => h.elim⟩
  · intro u1 g1 u2 g2 h1 h2 h3
    obtain ⟨rfl, rfl⟩ := ho u1 g1 h1
    rw [hmsg] at h2
    split at h2
    · omega
    · have := hl.nz w u2 g2 hw h2 h3; omega
  · intro hv' u1 g1 y h1 h2
    obtain ⟨rfl, rfl⟩ := ho u1 g1 h1
    rw [hla]
    exact Nat.le_trans (hl.visH hv' w y hw h2) (hv hv' y)

/-- Releasing the lock by a release store. -/
theorem Lk.put (hl : Lk vis m h) (hs : Stored m w 0 t 0 true m') (hw : h w) : Lk vis m' (fun _ => False) := by
  obtain ⟨n, _, _, h2, _, hm⟩ := hs.msg
  exact hl.free hw hm (Nat.le_of_lt hs.old) hs.last (fun _ => h2 rfl)

/-- Releasing the lock by a read-modify-write. -/
theorem Lk.sub_ (hl : Lk vis m h) (hs : Modified m w 0 t f a r v m' g) (hw : h w) (hr : vis → r = true) : Lk vis m' (fun _ => False) := by
  obtain ⟨n, _, _, h2, _, hm⟩ := hs.msg
  exact hl.free hw hm (Nat.le_succ_of_le hs.old) hs.last (fun hv y => Nat.le_trans (hs.mono y) (h2 (hr hv) y))

/-- The holder does not read 0. -/
theorem Lk.nonzero (hl : Lk vis m h) (hs : Modified m w 0 t f a r v m' g) (hw : h w) : v ≠ 0 := by
  intro hv
  have h1 := hl.nz w t g hw hs.read (hs.val.symm.trans hv)
  have h2 := hs.old
  omega

theorem Lk.init : Lk vis (Weak.start fun _ => 0) (fun _ => False) := by
  refine ⟨fun _ _ h => h.elim, fun _ _ _ _ h => h, ?_, fun _ _ _ h => h.elim, ?_, fun _ _ _ h => h.elim⟩
  · intro u g u' g' h1 h2 _
    simp only [start] at h2
    split at h2
    · omega
    · cases h2
  · intro _ u g x _ _; exact Nat.zero_le _

end WeakLock

/-! ## Histories -/

theorem lock?_append (tr o : List WlObs) : (tr ++ o).filterMap WlObs.lock? = tr.filterMap WlObs.lock? ++ o.filterMap WlObs.lock? := List.filterMap_append ..

/-- Who holds the lock after a history. -/
def whoHolds (tr : List WlObs) : Option Who := holder (tr.filterMap WlObs.lock?)

theorem whoHolds_append (tr o : List WlObs) : whoHolds (tr ++ o) = (o.filterMap WlObs.lock?).foldl held (whoHolds tr) := by
  rw [whoHolds, lock?_append, holder_append]; rfl

/-- What a step may show, given that `h` held the lock before it. -/
inductive Fits (h : Option Who) : List WlObs → Option Who → Prop
  | quiet : Fits h [] h
  | used (w x : Nat) : Fits h [.used w x] h
  | race (w x : Nat) : Fits h [.race w x] h
  | failed (w : Who) : Fits h [.lock (.failed w)] h
  | locked (w : Who) : h = none → Fits h [.lock (.locked w)] (some w)
  | unlocked (w : Who) : h = some w → Fits h [.lock (.unlocked w)] none

theorem Fits.who {tr o : List WlObs} {h' : Option Who} (hf : Fits (whoHolds tr) o h') : whoHolds (tr ++ o) = h' := by
  rw [whoHolds_append]
  cases hf <;> rfl

theorem Fits.exclusive {tr o : List WlObs} {h' : Option Who} (hf : Fits (whoHolds tr) o h') (he : WExclusive tr) : WExclusive (tr ++ o) := by
  rw [WExclusive, lock?_append]
  refine exclusive_append he ?_ ?_ ?_
  · cases hf <;> exact Nat.le_of_ble_eq_true rfl
  · intro t ht
    cases hf with
    | locked w h => exact h
    | _ => cases ht
  · intro t ht
    cases hf with
    | unlocked w h => cases ht; exact h
    | _ => cases ht

theorem Visible.append {tr o : List WlObs} (h : Visible tr) (ho : ∀ w x, WlObs.race w x ∉ o) : Visible (tr ++ o) := by
  intro w x hm
  rcases List.mem_append.1 hm with h1 | h1
  · exact h w x h1
  · exact ho w x h1

/-! ## Test-and-set spinlocks -/

namespace WeakTtas

open WeakLock Ttas

/-- Has the lock. -/
def Holds (s : State) (w : Nat) : Prop := s.pc w = .inside ∨ ∃ p r, s.pc w = .save p r

structure Inv (s : State) (tr : List WlObs) : Prop where
  lk : Lk True s.mem (Holds s)
  who : ∀ w, whoHolds tr = some w ↔ s.pc w = .inside
  excl : WExclusive tr
  vis : Visible tr

theorem who_none {s : State} {tr : List WlObs} (h : ∀ w, whoHolds tr = some w ↔ s.pc w = .inside) (hn : ∀ u, ¬ Holds s u) : whoHolds tr = none := by
  cases hw : whoHolds tr with
  | none => rfl
  | some w => exact absurd (.inl ((h w).1 hw)) (hn w)

/-- A step that does not touch the holder's state. -/
theorem Inv.quiet {s s' : State} {tr o : List WlObs} {w : Nat} (hi : Inv s tr) (hf : Fits (whoHolds tr) o (whoHolds tr)) (hn : ∀ w x, WlObs.race w x ∉ o)
    {p : Pc} (hpc : s'.pc = upd s.pc w p) (hp0 : s.pc w ≠ .inside) (hp : p ≠ .inside) (hp' : ∀ a b, p ≠ .save a b) (hlk : Lk True s'.mem (Holds s)) :
    Inv s' (tr ++ o) := by
  refine ⟨hlk.sub ?_, ?_, hf.exclusive hi.excl, hi.vis.append hn⟩
  · intro u hu
    by_cases he : u = w
    · subst he
      rcases hu with h | ⟨a, b, h⟩
      · rw [hpc, upd_same] at h; exact absurd h hp
      · rw [hpc, upd_same] at h; exact absurd h (hp' a b)
    · rcases hu with h | ⟨a, b, h⟩
      · rw [hpc, upd_other _ _ he] at h; exact .inl h
      · rw [hpc, upd_other _ _ he] at h; exact .inr ⟨a, b, h⟩
  · intro u
    rw [hf.who, hi.who u, hpc, upd_apply]
    split
    · rename_i he; subst he; exact ⟨fun h => absurd h hp0, fun h => absurd h hp⟩
    · rfl

/-- Thread `w` gets the lock and is inside. -/
theorem Inv.enter {s s' : State} {tr : List WlObs} {w : Nat} (hi : Inv s tr) (hpc : s'.pc = upd s.pc w .inside) (hn : whoHolds tr = none)
    (hlk : Lk True s'.mem (· = w)) (hh : ∀ u, Holds s' u → u = w) : Inv s' (tr ++ [.lock (.locked w)]) := by
  have hf := Fits.locked w hn
  refine ⟨hlk.sub hh, ?_, hf.exclusive hi.excl, hi.vis.append (by simp)⟩
  intro u
  rw [hf.who, hpc, upd_apply]
  constructor
  · intro h; cases h; rw [if_pos rfl]
  · intro h
    split at h
    · rename_i he; rw [he]
    · have := (hi.who u).2 h; rw [hn] at this; cases this

theorem holds_upd {s s' : State} {w : Nat} {p : Pc} (hpc : s'.pc = upd s.pc w p) {u : Nat} (hu : u ≠ w) (h : Holds s' u) : Holds s u := by
  simp only [Holds, hpc, upd_other _ _ hu] at h
  exact h

theorem inv_step {s s' : State} {tr o : List WlObs} {e : Event} (hi : Inv s tr) (hs : step s e = some (s', o)) : Inv s' (tr ++ o) := by
  have hb1 : begin_ s ≠ .inside := by unfold begin_; split <;> simp
  have hb2 : ∀ a b, begin_ s ≠ .save a b := by intro a b; unfold begin_; split <;> simp
  cases e with
  | lock w =>
    simp only [step] at hs
    split at hs
    case isFalse => cases hs
    rename_i hp
    simp only [Option.some.injEq, Prod.mk.injEq] at hs
    obtain ⟨rfl, rfl⟩ := hs
    exact hi.quiet .quiet (by simp) rfl (by rw [hp]; simp) hb1 hb2 hi.lk
  | tryLock w t =>
    simp only [step] at hs
    split at hs
    case isFalse => cases hs
    rename_i hp
    split at hs
    · cases hs
    · rename_i v m hm
      obtain ⟨g, hm⟩ := rmw_spec hm
      split at hs
      · rename_i hv
        simp only [Option.some.injEq, Prod.mk.injEq] at hs
        obtain ⟨rfl, rfl⟩ := hs
        obtain ⟨h1, h2⟩ := hi.lk.take hm hv (by simp)
        refine hi.enter rfl (who_none hi.who h1) h2 ?_
        intro u hu
        refine Classical.byContradiction fun hne => h1 u (holds_upd (w := w) rfl hne hu)
      · rename_i hv
        simp only [Option.some.injEq, Prod.mk.injEq] at hs
        obtain ⟨rfl, rfl⟩ := hs
        have hf := Fits.failed (h := whoHolds tr) w
        refine ⟨hi.lk.bump hm hv (by simp), ?_, hf.exclusive hi.excl, hi.vis.append (by simp)⟩
        intro u; rw [hf.who]; exact hi.who u
  | unlock w t =>
    simp only [step] at hs
    split at hs
    case isFalse => cases hs
    rename_i hp
    split at hs
    · cases hs
    · rename_i m hm
      have hm := store_spec hm
      simp only [Option.some.injEq, Prod.mk.injEq] at hs
      obtain ⟨rfl, rfl⟩ := hs
      have hw : whoHolds tr = some w := (hi.who w).2 hp
      have hf := Fits.unlocked w hw
      refine ⟨(hi.lk.put hm (.inl hp)).sub ?_, ?_, hf.exclusive hi.excl, hi.vis.append (by simp)⟩
      · intro u hu
        by_cases he : u = w
        · subst he; simp [Holds] at hu
        · exact he (hi.lk.one u w (holds_upd (w := w) rfl he hu) (.inl hp))
      · intro u
        rw [hf.who]
        simp only [upd_apply, reduceCtorEq, false_iff]
        split
        · simp
        · rename_i he
          intro h
          exact he (hi.lk.one u w (.inl h) (.inl hp))
  | use w x =>
    simp only [step] at hs
    split at hs
    case isFalse => cases hs
    rename_i hp
    simp only [Option.some.injEq, Prod.mk.injEq, useData] at hs
    obtain ⟨rfl, rfl⟩ := hs
    obtain ⟨h1, h2⟩ := hi.lk.touch (touch_spec (b := (touch s.mem w x).1) (m' := (touch s.mem w x).2) rfl) (.inl hp.1) hp.2
    simp only [h2 trivial]
    have hf := Fits.used (h := whoHolds tr) w x
    refine ⟨h1, ?_, hf.exclusive hi.excl, hi.vis.append (by simp)⟩
    intro u; exact (by rw [hf.who]; exact hi.who u : whoHolds (tr ++ [.used w x]) = some u ↔ s.pc u = .inside)
  | step w t =>
    simp only [step] at hs
    split at hs
    · rename_i hp
      split at hs
      · cases hs
      · rename_i v m hm
        obtain ⟨g, hm⟩ := load_spec hm
        simp only [Option.some.injEq, Prod.mk.injEq] at hs
        obtain ⟨rfl, rfl⟩ := hs
        exact hi.quiet .quiet (by simp) rfl (by rw [hp]; simp) (by simp) (by simp) (hi.lk.load hm)
    · rename_i p r hp
      split at hs
      · cases hs
      · rename_i v m hm
        obtain ⟨g, hm⟩ := load_spec hm
        split at hs
        all_goals
          simp only [Option.some.injEq, Prod.mk.injEq] at hs
          obtain ⟨rfl, rfl⟩ := hs
          exact hi.quiet .quiet (by simp) rfl (by rw [hp]; simp) (by simp) (by simp) (hi.lk.load hm)
    · rename_i p r hp
      split at hs
      · cases hs
      · rename_i v m hm
        obtain ⟨g, hm⟩ := rmw_spec hm
        split at hs
        · rename_i hv
          obtain ⟨h1, h2⟩ := hi.lk.take hm hv (by simp)
          split at hs
          · simp only [Option.some.injEq, Prod.mk.injEq] at hs
            obtain ⟨rfl, rfl⟩ := hs
            have hf := Fits.quiet (h := whoHolds tr)
            refine ⟨h2.sub ?_, ?_, hf.exclusive hi.excl, hi.vis.append (by simp)⟩
            · intro u hu
              exact Classical.byContradiction fun hne => h1 u (holds_upd (w := w) rfl hne hu)
            · intro u
              rw [hf.who, hi.who u]
              simp only [upd_apply]
              split
              · rename_i he; subst he; rw [hp]; simp
              · rfl
          · simp only [Option.some.injEq, Prod.mk.injEq] at hs
            obtain ⟨rfl, rfl⟩ := hs
            refine hi.enter rfl (who_none hi.who h1) h2 ?_
            intro u hu
            exact Classical.byContradiction fun hne => h1 u (holds_upd (w := w) rfl hne hu)
        · rename_i hv
          simp only [Option.some.injEq, Prod.mk.injEq] at hs
          obtain ⟨rfl, rfl⟩ := hs
          exact hi.quiet .quiet (by simp) rfl (by rw [hp]; simp) hb1 hb2 (hi.lk.bump hm hv (by simp))
    · rename_i p r hp
      split at hs
      · cases hs
      · rename_i m hm
        have hm := store_spec hm
        simp only [Option.some.injEq, Prod.mk.injEq] at hs
        obtain ⟨rfl, rfl⟩ := hs
        have hw : Holds s w := .inr ⟨p, r, hp⟩
        have hn : whoHolds tr = none := by
          cases hc : whoHolds tr with
          | none => rfl
          | some u =>
            have h1 := (hi.who u).1 hc
            have h2 := hi.lk.one u w (.inl h1) hw
            rw [h2, hp] at h1; cases h1
        have hall : ∀ u, Holds { s with mem := m, pc := upd s.pc w .inside } u → u = w := by
          intro u hu
          exact Classical.byContradiction fun hne => hne (hi.lk.one u w (holds_upd (w := w) rfl hne hu) hw)
        refine hi.enter rfl hn ((hi.lk.store hm (by simp)).sub ?_) hall
        intro u hu; rw [hu]; exact hw
    · cases hs

theorem reach_inv {ad : Bool} {s : State} {tr : List WlObs} (h : Reach step (init ad) s tr) : Inv s tr := by
  refine h.inv Inv ?_ (fun s tr e s' o _ hi hs => inv_step hi hs)
  refine ⟨Lk.init.sub (by simp [Holds, init]), ?_, exclusive_nil, by simp [Visible]⟩
  intro w; simp [whoHolds, holder, init]

/-- **C73** for `spinlock_ttas` and `spinlock_ttas_adaptive`: under the weak memory model of C++, nobody gets the lock while
somebody holds it. -/
theorem C73_exclusive {ad : Bool} {s : State} {tr : List WlObs} (h : Reach step (init ad) s tr) : WExclusive tr := (reach_inv h).excl

/-- **C73** for `spinlock_ttas` and `spinlock_ttas_adaptive`: data used under the lock only is free of data races; everything a
holder did is visible to the next ones. -/
theorem C73_visible {ad : Bool} {s : State} {tr : List WlObs} (h : Reach step (init ad) s tr) : Visible tr := (reach_inv h).vis

/-- Thread 1 reads a stale 0 while thread 0 holds the lock, collides, spins, and gets the lock after thread 0; both use data 2. -/
def demo : List Event := [.lock 0, .step 0 0, .step 0 0, .use 0 2, .lock 1, .step 1 0, .step 1 1, .step 1 2, .unlock 0 5, .step 1 2, .step 1 5, .step 1 5,
  .use 1 2, .tryLock 0 6, .unlock 1 8]

theorem demo_reach : ∃ s, Reach step (init false) s [.lock (.locked 0), .used 0 2, .lock (.unlocked 0), .lock (.locked 1), .used 1 2, .lock (.failed 0),
    .lock (.unlocked 1)] := ⟨_, reach_of_exec (es := demo) rfl⟩

example := C73_exclusive demo_reach.choose_spec
example := C73_visible demo_reach.choose_spec

end WeakTtas

/-! ## Futex spinlocks -/

namespace WeakFtx

open WeakLock Ftx

/-- Has the lock; in `zero` the call of `unlock` has not yet released it. -/
def Holds (s : State) (w : Nat) : Prop := s.pc w = .inside ∨ (∃ p r, s.pc w = .save p r) ∨ s.pc w = .zero

structure Inv (st : Bool) (s : State) (tr : List WlObs) : Prop where
  str : s.strong = st
  lk : Lk (st = true) s.mem (Holds s)
  who : ∀ w, whoHolds tr = some w ↔ s.pc w = .inside
  excl : WExclusive tr
  vis : st = true → Visible tr

variable {st : Bool} {s s' : State} {tr o : List WlObs} {w : Nat}

theorem who_none (h : ∀ w, whoHolds tr = some w ↔ s.pc w = .inside) (hn : ∀ u, ¬ Holds s u) : whoHolds tr = none := by
  cases hw : whoHolds tr with
  | none => rfl
  | some w => exact absurd (.inl ((h w).1 hw)) (hn w)

theorem holds_upd {p : Pc} (hpc : s'.pc = upd s.pc w p) {u : Nat} (hu : u ≠ w) (h : Holds s' u) : Holds s u := by
  simp only [Holds, hpc, upd_other _ _ hu] at h
  exact h

/-- A step of a thread that does not have the lock before or after it. -/
theorem Inv.quiet (hi : Inv st s tr) (hf : Fits (whoHolds tr) o (whoHolds tr)) (hn : ∀ w x, WlObs.race w x ∉ o) (hst : s'.strong = s.strong)
    {p : Pc} (hpc : s'.pc = upd s.pc w p) (hp0 : s.pc w ≠ .inside) (hp : p ≠ .inside) (hp' : ∀ a b, p ≠ .save a b) (hz : p ≠ .zero)
    (hlk : Lk (st = true) s'.mem (Holds s)) : Inv st s' (tr ++ o) := by
  refine ⟨hst.trans hi.str, hlk.sub ?_, ?_, hf.exclusive hi.excl, fun hv => (hi.vis hv).append hn⟩
  · intro u hu
    by_cases he : u = w
    · subst he
      rcases hu with h | ⟨a, b, h⟩ | h
      · rw [hpc, upd_same] at h; exact absurd h hp
      · rw [hpc, upd_same] at h; exact absurd h (hp' a b)
      · rw [hpc, upd_same] at h; exact absurd h hz
    · exact holds_upd hpc he hu
  · intro u
    rw [hf.who, hi.who u, hpc, upd_apply]
    split
    · rename_i he; subst he; exact ⟨fun h => absurd h hp0, fun h => absurd h hp⟩
    · rfl

/-- Thread `w` gets the lock and is inside. -/
theorem Inv.enter (hi : Inv st s tr) (hpc : s'.pc = upd s.pc w .inside) (hst : s'.strong = s.strong) (hn : whoHolds tr = none)
    (hlk : Lk (st = true) s'.mem (· = w)) (hh : ∀ u, Holds s' u → u = w) : Inv st s' (tr ++ [.lock (.locked w)]) := by
  have hf := Fits.locked w hn
  refine ⟨hst.trans hi.str, hlk.sub hh, ?_, hf.exclusive hi.excl, fun hv => (hi.vis hv).append (by simp)⟩
  intro u
  rw [hf.who, hpc, upd_apply]
  constructor
  · intro h; cases h; rw [if_pos rfl]
  · intro h
    split at h
    · rename_i he; rw [he]
    · have := (hi.who u).2 h; rw [hn] at this; cases this

/-- Thread `w` gets the lock and goes on as in `got`. -/
theorem Inv.got {m : Mem} {p : Int} {r : Nat} (hi : Inv st s tr) (hp0 : s.pc w ≠ .inside) (h1 : ∀ u, ¬ Holds s u) (h2 : Lk (st = true) m (· = w)) :
    Inv st (got { s with mem := m } w p r).1 (tr ++ (got { s with mem := m } w p r).2) := by
  unfold WeakFtx.got
  split
  · have hf := Fits.quiet (h := whoHolds tr)
    refine ⟨hi.str, h2.sub ?_, ?_, hf.exclusive hi.excl, fun hv => (hi.vis hv).append (by simp)⟩
    · intro u hu
      exact Classical.byContradiction fun hne => h1 u (holds_upd (w := w) rfl hne hu)
    · intro u
      rw [hf.who, hi.who u]
      simp only [upd_apply]
      split
      · rename_i he; subst he; simp [hp0]
      · rfl
  · refine hi.enter rfl rfl (who_none hi.who h1) h2 ?_
    intro u hu
    exact Classical.byContradiction fun hne => h1 u (holds_upd (w := w) rfl hne hu)

theorem Inv.exchange {p : Int} {r t : Nat} (hi : Inv st s tr) (hp0 : s.pc w ≠ .inside) (hs : exchange s w t p r = some (s', o)) :
    Inv st s' (tr ++ o) := by
  unfold WeakFtx.exchange at hs
  split at hs
  · cases hs
  · rename_i v m hm
    obtain ⟨g, hm⟩ := rmw_spec hm
    split at hs
    · rename_i hv
      obtain ⟨h1, h2⟩ := hi.lk.take hm hv (by simp)
      have h3 := hi.got (p := p) (r := r) hp0 h1 h2
      rw [Option.some.inj hs] at h3
      exact h3
    · rename_i hv
      simp only [Option.some.injEq, Prod.mk.injEq] at hs
      obtain ⟨rfl, rfl⟩ := hs
      exact hi.quiet .quiet (by simp) rfl rfl hp0 (by simp) (by simp) (by simp) (hi.lk.bump hm hv (by simp))

theorem inv_step {e : Event} (hi : Inv st s tr) (hs : step s e = some (s', o)) : Inv st s' (tr ++ o) := by
  cases e with
  | lock w =>
    simp only [step] at hs
    split at hs
    case isFalse => cases hs
    rename_i hp
    simp only [Option.some.injEq, Prod.mk.injEq] at hs
    obtain ⟨rfl, rfl⟩ := hs
    refine hi.quiet .quiet (by simp) rfl rfl (by rw [hp]; simp) ?_ ?_ ?_ hi.lk
    · split <;> simp
    · intro a b; split <;> simp
    · split <;> simp
  | tryLock w t =>
    simp only [step] at hs
    split at hs
    case isFalse => cases hs
    rename_i hp
    split at hs
    · cases hs
    · rename_i b v m hm
      rcases cas_spec hm with ⟨rfl, hv, g, hm⟩ | ⟨rfl, hv, g, hm⟩
      · simp only [if_true, Option.some.injEq, Prod.mk.injEq] at hs
        obtain ⟨rfl, rfl⟩ := hs
        obtain ⟨h1, h2⟩ := hi.lk.take hm hv (by simp)
        refine hi.enter rfl rfl (who_none hi.who h1) h2 ?_
        intro u hu
        exact Classical.byContradiction fun hne => h1 u (holds_upd (w := w) rfl hne hu)
      · simp only [Bool.false_eq_true, if_false, Option.some.injEq, Prod.mk.injEq] at hs
        obtain ⟨rfl, rfl⟩ := hs
        have hf := Fits.failed (h := whoHolds tr) w
        refine ⟨hi.str, hi.lk.load hm, ?_, hf.exclusive hi.excl, fun hv => (hi.vis hv).append (by simp)⟩
        intro u; rw [hf.who]; exact hi.who u
  | unlock w t =>
    simp only [step] at hs
    split at hs
    case isFalse => cases hs
    rename_i hp
    split at hs
    · cases hs
    · rename_i v m hm
      obtain ⟨g, hm⟩ := rmw_spec hm
      simp only [Option.some.injEq, Prod.mk.injEq] at hs
      obtain ⟨rfl, rfl⟩ := hs
      have hw : whoHolds tr = some w := (hi.who w).2 hp
      have hf := Fits.unlocked w hw
      have hnz := hi.lk.nonzero hm (.inl hp)
      refine ⟨hi.str, ?_, ?_, hf.exclusive hi.excl, fun hv => (hi.vis hv).append (by simp)⟩
      · by_cases hv : v = 1
        · refine (hi.lk.sub_ hm (.inl hp) (fun h => hi.str.trans h)).sub ?_
          intro u hu
          by_cases he : u = w
          · subst he; simp [Holds, hv] at hu
          · exact he (hi.lk.one u w (holds_upd (w := w) rfl he hu) (.inl hp))
        · refine (hi.lk.bump hm hnz (by omega)).sub ?_
          intro u hu
          by_cases he : u = w
          · subst he; exact .inl hp
          · exact holds_upd (w := w) rfl he hu
      · intro u
        rw [hf.who]
        simp only [upd_apply, reduceCtorEq, false_iff]
        split
        · split <;> simp
        · rename_i he
          intro h
          exact he (hi.lk.one u w (.inl h) (.inl hp))
  | use w x =>
    simp only [step] at hs
    split at hs
    case isFalse => cases hs
    rename_i hp
    simp only [Option.some.injEq, Prod.mk.injEq, useData] at hs
    obtain ⟨rfl, rfl⟩ := hs
    obtain ⟨h1, h2⟩ := hi.lk.touch (touch_spec (b := (touch s.mem w x).1) (m' := (touch s.mem w x).2) rfl) (.inl hp.1) hp.2
    have hf : Fits (whoHolds tr) [if (touch s.mem w x).1 = true then WlObs.race w x else .used w x] (whoHolds tr) := by
      split
      · exact .race w x
      · exact .used w x
    refine ⟨hi.str, h1, ?_, hf.exclusive hi.excl, fun hv => (hi.vis hv).append ?_⟩
    · intro u; rw [hf.who]; exact hi.who u
    · simp [h2 hv]
  | step w t =>
    simp only [step] at hs
    split at hs
    · rename_i hp
      split at hs
      · cases hs
      · rename_i v m hm
        obtain ⟨g, hm⟩ := load_spec hm
        simp only [Option.some.injEq, Prod.mk.injEq] at hs
        obtain ⟨rfl, rfl⟩ := hs
        exact hi.quiet .quiet (by simp) rfl rfl (by rw [hp]; simp) (by simp) (by simp) (by simp) (hi.lk.load hm)
    · rename_i p r e hp
      split at hs
      · split at hs
        · cases hs
        · rename_i v m hm
          obtain ⟨g, hm⟩ := load_spec hm
          split at hs
          all_goals
            simp only [Option.some.injEq, Prod.mk.injEq] at hs
            obtain ⟨rfl, rfl⟩ := hs
            exact hi.quiet .quiet (by simp) rfl rfl (by rw [hp]; simp) (by simp) (by simp) (by simp) (hi.lk.load hm)
      · split at hs
        all_goals
          simp only [Option.some.injEq, Prod.mk.injEq] at hs
          obtain ⟨rfl, rfl⟩ := hs
          exact hi.quiet .quiet (by simp) rfl rfl (by rw [hp]; simp) (by simp) (by simp) (by simp) hi.lk
    · rename_i p r hp
      split at hs
      · cases hs
      · rename_i b v m hm
        rcases cas_spec hm with ⟨rfl, hv, g, hm⟩ | ⟨rfl, hv, g, hm⟩
        · simp only [if_true] at hs
          obtain ⟨h1, h2⟩ := hi.lk.take hm hv (by simp)
          have h3 := hi.got (p := p) (r := r) (by rw [hp]; simp) h1 h2
          rw [Option.some.inj hs] at h3
          exact h3
        · simp only [Bool.false_eq_true, if_false, Option.some.injEq, Prod.mk.injEq] at hs
          obtain ⟨rfl, rfl⟩ := hs
          exact hi.quiet .quiet (by simp) rfl rfl (by rw [hp]; simp) (by simp) (by simp) (by simp) (hi.lk.load hm)
    · rename_i p r hp
      exact hi.exchange (by rw [hp]; simp) hs
    · rename_i p r hp
      simp only [Option.some.injEq, Prod.mk.injEq] at hs
      obtain ⟨rfl, rfl⟩ := hs
      exact hi.quiet .quiet (by simp) rfl rfl (by rw [hp]; simp) (by simp) (by simp) (by simp) hi.lk
    · rename_i p r hp
      exact hi.exchange (by rw [hp]; simp) hs
    · rename_i p r hp
      split at hs
      · cases hs
      · rename_i m hm
        have hm := store_spec hm
        simp only [Option.some.injEq, Prod.mk.injEq] at hs
        obtain ⟨rfl, rfl⟩ := hs
        have hw : Holds s w := .inr (.inl ⟨p, r, hp⟩)
        have hn : whoHolds tr = none := by
          cases hc : whoHolds tr with
          | none => rfl
          | some u =>
            have h1 := (hi.who u).1 hc
            have h2 := hi.lk.one u w (.inl h1) hw
            rw [h2, hp] at h1; cases h1
        have hall : ∀ u, Holds { s with mem := m, pc := upd s.pc w .inside } u → u = w := by
          intro u hu
          exact Classical.byContradiction fun hne => hne (hi.lk.one u w (holds_upd (w := w) rfl hne hu) hw)
        refine hi.enter rfl rfl hn ((hi.lk.store hm (by simp)).sub ?_) hall
        intro u hu; rw [hu]; exact hw
    · rename_i hp
      split at hs
      · cases hs
      · rename_i m hm
        have hm := store_spec hm
        simp only [Option.some.injEq, Prod.mk.injEq] at hs
        obtain ⟨rfl, rfl⟩ := hs
        have hw : Holds s w := .inr (.inr hp)
        have hf := Fits.quiet (h := whoHolds tr)
        refine ⟨hi.str, (hi.lk.put hm hw).sub ?_, ?_, hf.exclusive hi.excl, fun hv => (hi.vis hv).append (by simp)⟩
        · intro u hu
          by_cases he : u = w
          · subst he; simp [Holds] at hu
          · exact he (hi.lk.one u w (holds_upd (w := w) rfl he hu) hw)
        · intro u
          rw [hf.who, hi.who u]
          simp only [upd_apply]
          split
          · rename_i he; subst he; simp [hp]
          · rfl
    · cases hs

theorem reach_inv {ad : Bool} {n : Nat} (h : Reach step (init ad st n) s tr) : Inv st s tr := by
  refine h.inv (Inv st) ?_ (fun s tr e s' o _ hi hs => inv_step hi hs)
  refine ⟨rfl, Lk.init.sub (by simp [Holds, init]), ?_, exclusive_nil, fun _ => by simp [Visible]⟩
  intro w; simp [whoHolds, holder, init]

/-- **C73** for the futex spinlocks: nobody gets the lock while somebody holds it. -/
theorem C73_exclusive {ad : Bool} {n : Nat} (h : Reach step (init ad st n) s tr) : WExclusive tr := (reach_inv h).excl

/-- The counterexample to **C73** for the futex spinlocks: thread 0 uses data under the lock and unlocks; thread 1 gets the lock
and uses the data, but nothing orders its use after that of thread 0, because `unlock` of an uncontended lock is
`fetch_sub( 1, memory_order_acquire)`, which releases nothing. -/
theorem C73_unlock_releases_nothing (ad : Bool) (n : Nat) : ∃ s, Reach step (init ad false n) s
    [.lock (.locked 0), .used 0 2, .lock (.unlocked 0), .lock (.locked 1), .race 1 2] :=
  ⟨_, reach_of_exec (es := [.tryLock 0 0, .use 0 2, .unlock 0 1, .tryLock 1 2, .use 1 2]) rfl⟩

theorem C73_refuted : ¬ ∀ ad n s tr, Reach step (init ad false n) s tr → Visible tr := by
  intro h
  obtain ⟨s, hs⟩ := C73_unlock_releases_nothing false 0
  exact h _ _ _ _ hs 1 2 (by simp)

/-- **C73**, partial: what the futex spinlocks give if every read-modify-write is also a release operation, as on x86. -/
theorem C73_visible_partial {ad : Bool} {n : Nat} (h : Reach step (init ad true n) s tr) : Visible tr := (reach_inv h).vis rfl

/-- Contended: thread 1 announces itself with 2 and waits; `unlock` of thread 0 takes both steps. -/
def demo : List Event := [.tryLock 0 0, .use 0 2, .lock 1, .step 1 0, .step 1 1, .unlock 0 2, .step 1 0, .step 0 7, .step 1 7, .use 1 2, .unlock 1 8, .step 1 10]

def demoTrace : List WlObs := [.lock (.locked 0), .used 0 2, .lock (.unlocked 0), .lock (.locked 1), .used 1 2, .lock (.unlocked 1)]

theorem demo_reach : ∃ s, Reach step (init false true 0) s demoTrace := ⟨_, reach_of_exec (es := demo) rfl⟩

example : WExclusive demoTrace ∧ Visible demoTrace := ⟨C73_exclusive demo_reach.choose_spec, C73_visible_partial demo_reach.choose_spec⟩

end WeakFtx

end Verif
