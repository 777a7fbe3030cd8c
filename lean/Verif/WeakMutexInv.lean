import Verif.WeakMutex

/-!
# The mutexes under weak memory: invariants
-/

namespace Verif.WeakMutex

open Weak

/-! ## The spinlock, protecting the locations `P` -/

/-- The lock word is 0 in a message that nobody has taken. -/
def Open (m : Mem) (u : Nat) (g : Msg) : Prop := m.msg 0 u = some g ∧ g.val = 0 ∧ m.msg 0 (u + 1) = none

/-- `h`: who has the spinlock. Whoever gets it next, or has it, knows all accesses to the locations `P`. -/
structure Lk (P : Nat → Prop) (m : Mem) (h : Nat → Prop) : Prop where
  one : ∀ w w', h w → h w' → w = w'
  excl : ∀ u g w, Open m u g → ¬ h w
  top : ∀ u g u' g', Open m u g → m.msg 0 u' = some g' → g'.val = 0 → u' ≤ u
  nz : ∀ w u g, h w → m.msg 0 u = some g → g.val = 0 → u < m.cur w 0
  visO : ∀ u g x, Open m u g → P x → m.last x ≤ g.view x
  visH : ∀ w x, h w → P x → m.last x ≤ m.cur w x

variable {P Q : Nat → Prop} {m m' : Mem} {h h' : Nat → Prop} {w x t v : Nat} {f : Nat → Nat} {a r b : Bool} {g : Msg}

theorem Lk.congr (hl : Lk P m h) (hh : ∀ w, h' w ↔ h w) : Lk P m h' where
  one := fun w w' h1 h2 => hl.one w w' ((hh w).1 h1) ((hh w').1 h2)
  excl := fun u g w ho h1 => hl.excl u g w ho ((hh w).1 h1)
  top := hl.top
  nz := fun w u g h1 => hl.nz w u g ((hh w).1 h1)
  visO := hl.visO
  visH := fun w x h1 => hl.visH w x ((hh w).1 h1)

/-- Less is protected. -/
theorem Lk.less (hl : Lk P m h) (hq : ∀ x, Q x → P x) : Lk Q m h where
  one := hl.one
  excl := hl.excl
  top := hl.top
  nz := hl.nz
  visO := fun u g x h1 h2 => hl.visO u g x h1 (hq x h2)
  visH := fun w x h1 h2 => hl.visH w x h1 (hq x h2)

/-- What the holder knows becomes protected. -/
theorem Lk.more (hl : Lk P m h) (hw : h w) (hq : ∀ x, Q x → P x ∨ m.last x ≤ m.cur w x) : Lk Q m h where
  one := hl.one
  excl := hl.excl
  top := hl.top
  nz := hl.nz
  visO := fun u g _ h1 _ => absurd hw (hl.excl u g w h1)
  visH := fun w' x h1 h2 => by
    have : w' = w := hl.one _ _ h1 hw
    subst this
    rcases hq x h2 with h3 | h3
    · exact hl.visH w' x h1 h3
    · exact h3

theorem mono_all {w : Nat} (ho : ∀ u, u ≠ w → m'.cur u = m.cur u) (hm : ∀ y, m.cur w y ≤ m'.cur w y) (u y : Nat) : m.cur u y ≤ m'.cur u y := by
  by_cases hu : u = w
  · subst hu; exact hm y
  · rw [ho u hu]; exact Nat.le_refl _

/-- An access to a protected location by the holder is no race. -/
theorem Lk.touch (hl : Lk P m h) (hs : Touched m w x b m') (hw : h w) : Lk P m' h ∧ (P x → b = false) := by
  have ho : ∀ u g, Open m' u g ↔ Open m u g := fun u g => by simp only [Open, hs.msg]
  have hc := mono_all hs.others hs.mono
  refine ⟨⟨hl.one, ?_, ?_, ?_, ?_, ?_⟩, ?_⟩
  · exact fun u g w h1 => hl.excl u g w ((ho u g).1 h1)
  · exact fun u g u' g' h1 h2 => hl.top u g u' g' ((ho u g).1 h1) (by rw [← hs.msg]; exact h2)
  · exact fun w u g h1 h2 h3 => Nat.lt_of_lt_of_le (hl.nz w u g h1 (by rw [← hs.msg]; exact h2) h3) (hc w 0)
  · intro u g y h1
    exact absurd hw (hl.excl u g w ((ho u g).1 h1))
  · intro u y h1 h2
    have : u = w := hl.one u w h1 hw
    subst this
    rw [hs.last, upd_apply]
    split
    · rename_i he; subst he; exact hs.new
    · exact Nat.le_trans (hl.visH u y h1 h2) (hc u y)
  · intro hp
    have h1 := hl.visH w x hw hp
    cases hb : b with
    | false => rfl
    | true => have := hs.race.1 hb; omega

/-- An access to a location that is not protected. -/
theorem Lk.touchOther (hl : Lk P m h) (hs : Touched m w x b m') (hx : ¬ P x) : Lk P m' h := by
  have ho : ∀ u g, Open m' u g ↔ Open m u g := fun u g => by simp only [Open, hs.msg]
  have hc := mono_all hs.others hs.mono
  have hla : ∀ y, P y → m'.last y = m.last y := by
    intro y hy; rw [hs.last, upd_apply, if_neg]; rintro rfl; exact hx hy
  refine ⟨hl.one, ?_, ?_, ?_, ?_, ?_⟩
  · exact fun u g w h1 => hl.excl u g w ((ho u g).1 h1)
  · exact fun u g u' g' h1 h2 => hl.top u g u' g' ((ho u g).1 h1) (by rw [← hs.msg]; exact h2)
  · exact fun w u g h1 h2 h3 => Nat.lt_of_lt_of_le (hl.nz w u g h1 (by rw [← hs.msg]; exact h2) h3) (hc w 0)
  · intro u g y h1 h2; rw [hla y h2]; exact hl.visO u g y ((ho u g).1 h1) h2
  · intro u y h1 h2; rw [hla y h2]; exact Nat.le_trans (hl.visH u y h1 h2) (hc u y)

/-- The messages of location 0 after a new one. -/
theorem msg0 {n : Msg} {t : Nat} (hm : m'.msg = upd m.msg 0 (upd (m.msg 0) t (some n))) (u : Nat) :
    m'.msg 0 u = if u = t then some n else m.msg 0 u := by rw [hm, upd_same, upd_apply]

/-- Taking a free lock. -/
theorem Lk.take (hl : Lk P m h) (hs : Modified m w 0 t f true r v m' g) (hv : v = 0) (hf : f v ≠ 0) :
    (∀ u, ¬ h u) ∧ Lk P m' (· = w) := by
  have hgv : g.val = 0 := hs.val.symm.trans hv
  have hop : Open m t g := ⟨hs.read, hgv, hs.free⟩
  obtain ⟨n, hn, _, _, _, hm⟩ := hs.msg
  have hmsg := msg0 hm
  have hz : ∀ u g', m'.msg 0 u = some g' → g'.val = 0 → m.msg 0 u = some g' ∧ u ≤ t := by
    intro u g' h1 h2
    rw [hmsg] at h1
    split at h1
    · cases h1; exact absurd (hn.symm.trans h2) hf
    · exact ⟨h1, hl.top t g u g' hop h1 h2⟩
  have hno : ∀ u g', ¬ Open m' u g' := by
    rintro u g' ⟨h1, h2, h3⟩
    obtain ⟨h4, h5⟩ := hz u g' h1 h2
    rw [hmsg] at h3
    split at h3
    · cases h3
    · rename_i hne
      have := hl.top u g' t g ⟨h4, h2, h3⟩ hs.read hgv
      exact hne (by omega)
  refine ⟨fun u => hl.excl t g u hop, ?_, ?_, ?_, ?_, ?_, ?_⟩
  · intro u u' h1 h2; rw [h1, h2]
  · intro u g' _ h1; exact absurd h1 (hno u g')
  · intro u g' _ _ h1; exact absurd h1 (hno u g')
  · intro u y g' h1 h2 h3
    subst h1
    have := (hz y g' h2 h3).2
    have := hs.new
    omega
  · intro u g' _ h1; exact absurd h1 (hno u g')
  · intro u y h1 h2
    subst h1
    rw [hs.last]
    exact Nat.le_trans (hl.visO t g y hop h2) (hs.gain rfl y)

/-- An attempt to take a lock that is not free. -/
theorem Lk.bump (hl : Lk P m h) (hs : Modified m w 0 t f a r v m' g) (hv : v ≠ 0) (hf : f v ≠ 0) : Lk P m' h := by
  have hgv : g.val ≠ 0 := fun he => hv (hs.val.trans he)
  obtain ⟨n, hn, _, _, _, hm⟩ := hs.msg
  have hmsg := msg0 hm
  have hc := mono_all hs.others hs.mono
  have hz : ∀ u g', m'.msg 0 u = some g' → g'.val = 0 → m.msg 0 u = some g' := by
    intro u g' h1 h2
    rw [hmsg] at h1
    split at h1
    · cases h1; exact absurd (hn.symm.trans h2) hf
    · exact h1
  have ho : ∀ u g', Open m' u g' → Open m u g' := by
    rintro u g' ⟨h1, h2, h3⟩
    refine ⟨hz u g' h1 h2, h2, ?_⟩
    rw [hmsg] at h3
    split at h3
    · cases h3
    · exact h3
  refine ⟨hl.one, ?_, ?_, ?_, ?_, ?_⟩
  · exact fun u g w h1 => hl.excl u g w (ho u g h1)
  · exact fun u g u' g' h1 h2 h3 => hl.top u g u' g' (ho u g h1) (hz u' g' h2 h3) h3
  · exact fun w u g h1 h2 h3 => Nat.lt_of_lt_of_le (hl.nz w u g h1 (hz u g h2 h3) h3) (hc w 0)
  · exact fun u g x h1 h2 => by rw [hs.last]; exact hl.visO u g x (ho u g h1) h2
  · exact fun w x h1 h2 => by rw [hs.last]; exact Nat.le_trans (hl.visH w x h1 h2) (hc w x)

/-- Releasing the lock. -/
theorem Lk.put (hl : Lk P m h) (hs : Stored m w 0 t 0 true m') (hw : h w) : Lk P m' (fun _ => False) := by
  obtain ⟨n, _, _, hnv, _, hm⟩ := hs.msg
  have hmsg := msg0 hm
  have ho : ∀ u' g', Open m' u' g' → u' = t ∧ g' = n := by
    rintro u' g' ⟨h1, h2, h3⟩
    rw [hmsg] at h1
    split at h1
    · rename_i he; exact ⟨he, (Option.some.inj h1).symm⟩
    · rw [hmsg] at h3
      split at h3
      · cases h3
      · exact absurd hw (hl.excl u' g' w ⟨h1, h2, h3⟩)
  refine ⟨fun _ _ h => h.elim, fun _ _ _ _ h => h, ?_, fun _ _ _ h => h.elim, ?_, fun _ _ h => h.elim⟩
  · intro u1 g1 u2 g2 h1 h2 h3
    obtain ⟨rfl, rfl⟩ := ho u1 g1 h1
    rw [hmsg] at h2
    split at h2
    · omega
    · have := hl.nz w u2 g2 hw h2 h3; have := hs.old; omega
  · intro u1 g1 y h1 h2
    obtain ⟨rfl, rfl⟩ := ho u1 g1 h1
    rw [hs.last]
    exact Nat.le_trans (hl.visH w y hw h2) (hnv rfl y)

theorem Lk.init : Lk P (Weak.start fun _ => 0) (fun _ => False) := by
  refine ⟨fun _ _ h => h.elim, fun _ _ _ _ h => h, ?_, fun _ _ _ h => h.elim, ?_, fun _ _ h => h.elim⟩
  · intro u g u' g' h1 h2 _
    simp only [start] at h2
    split at h2
    · omega
    · cases h2
  · intro u g x _ _; exact Nat.zero_le _

/-! ## The mutex -/

/-- What the spinlock protects: the variables of the mutex, unless somebody reads them without it (`q`: nobody does), and the user's
data while nobody has the mutex. -/
def Prot (q : Prop) (owner : Option Fid) (x : Nat) : Prop :=
  (q ∧ (x = OWNER ∨ x = QUEUE ∨ x = COUNT)) ∨ (owner = none ∧ isData x)

/-- What is known of fiber `f` at place `p`, having the mutex `n` times: `o`, whether it is in `owner_`; `c`: `count_`. -/
def Place (recur : Bool) (o : Bool) (c n : Nat) : Pc → Prop
  | .out | .want _ | .dec _ | .push _ | .sleeping _ | .wantErase | .erase
  | .rel .threw | .rel (.slept _) | .rel .gaveUp => (o = decide (0 < n)) ∧ (o = true → if recur then c = n else n = 1)
  | .own _ => o = false ∧ n = 0
  | .cnt _ true => recur = true ∧ o = true ∧ n = 0
  | .cnt _ false => recur = true ∧ o = true ∧ c = n ∧ 0 < n
  | .rel .got => o = true ∧ if recur then c = n + 1 else n = 0
  | .rel .tried | .look => (o = true ∧ if recur then c = n + 1 else n = 0) ∨ (o = false ∧ n = 0)
  | .less => recur = true ∧ o = true ∧ c = n ∧ 0 < n
  | .free => o = true ∧ n = 1
  | .note => o = false ∧ n = 1
  | .rel .unlocked => 0 < n ∧ (o = decide (1 < n)) ∧ (o = true → recur = true ∧ c = n - 1)

/-- The call that a fiber makes is `try_lock()`. -/
def Pc.tries : Pc → Bool
  | .want .tryLock | .dec .tryLock | .own .tryLock | .cnt .tryLock _ | .push .tryLock | .rel .tried | .rel (.slept .tryLock)
  | .sleeping .tryLock | .look => true
  | _ => false

/-- The fiber is in `owner_`. -/
def State.has (s : State) (f : Fid) : Bool := decide (s.owner = some f)

/-- A place of a fiber that has the mutex free (nobody in `owner_`): those at which the owner must be nobody. -/
def Pc.nobody : Pc → Bool
  | .own _ | .note => true
  | _ => false

structure Inv (q : Prop) (s : State) : Prop where
  lk : Lk (Prot q s.owner) s.mem (fun f => (s.pc f).inside = true)
  dat : ∀ f x, s.owner = some f → isData x → s.mem.last x ≤ s.mem.cur f x
  plc : ∀ f, Place s.recur (s.has f) s.count (s.held f) (s.pc f)
  nob : ∀ f, (s.pc f).nobody = true → s.owner = none
  qui : q → ∀ f, (s.pc f).tries = false

end Verif.WeakMutex
