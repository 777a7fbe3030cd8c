import Verif.Weak

/-!
# Weak memory: what threads know and what locks hand on

Facts about the machine of `Verif/Weak.lean`, for programs with any number of locks: a lock is a location that is taken by an
acquire exchange that reads 0 and released by a release store of 0 (`detail/spinlock_ttas.hpp:87,112`). Whoever holds knowledge,
a thread or a lock, keeps it; and a thread can move knowledge between itself and the locks it holds.
-/

namespace Verif.Weak

/-- The lock `l` is free: 0 in a message that nobody has taken. -/
def Open (m : Mem) (l : Nat) (u : Nat) (g : Msg) : Prop := m.msg l u = some g ∧ g.val = 0 ∧ m.msg l (u + 1) = none

/-- The lock `l` is in order; `h`: who has it. -/
structure Lock (m : Mem) (l : Nat) (h : Nat → Prop) : Prop where
  one : ∀ w w', h w → h w' → w = w'
  excl : ∀ u g w, Open m l u g → ¬ h w
  top : ∀ u g u' g', Open m l u g → m.msg l u' = some g' → g'.val = 0 → u' ≤ u
  nz : ∀ w u g, h w → m.msg l u = some g → g.val = 0 → u < m.cur w l

/-- Who can know something. -/
inductive Who
  | thr (w : Nat)
  | lock (l : Nat)
  deriving DecidableEq, Repr

/-- `k` knows the `n`-th message of (or access to) location `x`: a thread has it in its view; a lock hands it to whoever takes it, and whoever
has the lock knows it. -/
def Kn (m : Mem) (h : Nat → Nat → Prop) (k : Who) (x n : Nat) : Prop :=
  match k with
  | .thr w => n ≤ m.cur w x
  | .lock l => (∀ u g, Open m l u g → n ≤ g.view x) ∧ ∀ w, h l w → n ≤ m.cur w x

variable {m m' : Mem} {h h' : Nat → Nat → Prop} {l w x t v n n' : Nat} {f : Nat → Nat} {a r b : Bool} {g : Msg} {k : Who}
variable {hl : Nat → Prop}

theorem Kn.le (hk : Kn m h k x n) (hn : n' ≤ n) : Kn m h k x n' := by
  cases k with
  | thr w => exact Nat.le_trans hn hk
  | lock l => exact ⟨fun u g h1 => Nat.le_trans hn (hk.1 u g h1), fun w h1 => Nat.le_trans hn (hk.2 w h1)⟩

theorem Kn.zero : Kn m h k x 0 := by
  cases k with
  | thr w => exact Nat.zero_le _
  | lock l => exact ⟨fun _ _ _ => Nat.zero_le _, fun _ _ => Nat.zero_le _⟩

/-- A thread knows what the locks know that it has. -/
theorem Kn.get (hk : Kn m h (.lock l) x n) (hw : h l w) : Kn m h (.thr w) x n := hk.2 w hw

/-- The locks that a thread has know what the thread knows. -/
theorem Kn.put (hk : Kn m h (.thr w) x n) (hw : h l w) (ho : Lock m l (h l)) : Kn m h (.lock l) x n := by
  refine ⟨fun u g h1 => absurd hw (ho.excl u g w h1), fun w' h1 => ?_⟩
  have : w' = w := ho.one _ _ h1 hw
  subst this; exact hk

theorem cur_mono (ho : ∀ u, u ≠ w → m'.cur u = m.cur u) (hm : ∀ y, m.cur w y ≤ m'.cur w y) (u y : Nat) : m.cur u y ≤ m'.cur u y := by
  by_cases hu : u = w
  · subst hu; exact hm y
  · rw [ho u hu]; exact Nat.le_refl _

theorem Lock.congr {h1 h2 : Nat → Prop} (hl : Lock m l h1) (hh : ∀ w, h2 w ↔ h1 w) : Lock m l h2 where
  one := fun w w' a b => hl.one w w' ((hh w).1 a) ((hh w').1 b)
  excl := fun u g w ho a => hl.excl u g w ho ((hh w).1 a)
  top := hl.top
  nz := fun w u g a => hl.nz w u g ((hh w).1 a)

/-- The memory changed, but not the messages of lock `l`. -/
theorem Lock.quiet (ho : Lock m l hl) (hm : m'.msg l = m.msg l) (hc : ∀ u y, m.cur u y ≤ m'.cur u y) : Lock m' l hl where
  one := ho.one
  excl := fun u g w h1 => ho.excl u g w (by rw [Open, hm] at h1; exact h1)
  top := fun u g u' g' h1 h2 => ho.top u g u' g' (by rw [Open, hm] at h1; exact h1) (by rw [← hm]; exact h2)
  nz := fun w u g h1 h2 h3 => Nat.lt_of_lt_of_le (ho.nz w u g h1 (by rw [← hm]; exact h2) h3) (hc w l)

/-- Knowledge stays if the locks are not used. -/
theorem Kn.quiet (hk : Kn m h k x n) (hm : ∀ l, k = .lock l → m'.msg l = m.msg l) (hh : ∀ l w, k = .lock l → h' l w → h l w)
    (hc : ∀ u y, m.cur u y ≤ m'.cur u y) : Kn m' h' k x n := by
  cases k with
  | thr w => exact Nat.le_trans hk (hc w x)
  | lock l =>
    refine ⟨fun u g h1 => hk.1 u g ?_, fun w h1 => Nat.le_trans (hk.2 w (hh l w rfl h1)) (hc w x)⟩
    rw [Open, hm l rfl] at h1; exact h1

/-- The messages of location `l` after a new one. -/
theorem msg_new {n : Msg} (hm : m'.msg = upd m.msg l (upd (m.msg l) t (some n))) (u : Nat) :
    m'.msg l u = if u = t then some n else m.msg l u := by rw [hm, upd_same, upd_apply]

theorem msg_other {n : Msg} {l' : Nat} (hm : m'.msg = upd m.msg l (upd (m.msg l) t (some n))) (hne : l' ≠ l) : m'.msg l' = m.msg l' := by
  rw [hm, upd_other _ _ hne]

/-- Taking a free lock. -/
theorem Lock.take (ho : Lock m l hl) (hs : Modified m w l t f true r v m' g) (hv : v = 0) (hf : f v ≠ 0) :
    (∀ u, ¬ hl u) ∧ Open m l t g ∧ Lock m' l (· = w) ∧ ∀ u g', ¬ Open m' l u g' := by
  have hgv : g.val = 0 := hs.val.symm.trans hv
  have hop : Open m l t g := ⟨hs.read, hgv, hs.free⟩
  obtain ⟨n, hn, _, _, _, hm⟩ := hs.msg
  have hmsg := msg_new hm
  have hz : ∀ u g', m'.msg l u = some g' → g'.val = 0 → m.msg l u = some g' ∧ u ≤ t := by
    intro u g' h1 h2
    rw [hmsg] at h1
    split at h1
    · cases h1; exact absurd (hn.symm.trans h2) hf
    · exact ⟨h1, ho.top t g u g' hop h1 h2⟩
  have hno : ∀ u g', ¬ Open m' l u g' := by
    rintro u g' ⟨h1, h2, h3⟩
    obtain ⟨h4, h5⟩ := hz u g' h1 h2
    rw [hmsg] at h3
    split at h3
    · cases h3
    · rename_i hne
      have := ho.top u g' t g ⟨h4, h2, h3⟩ hs.read hgv
      exact hne (by omega)
  refine ⟨fun u => ho.excl t g u hop, hop, ⟨?_, ?_, ?_, ?_⟩, hno⟩
  · intro u u' h1 h2; rw [h1, h2]
  · intro u g' _ h1; exact absurd h1 (hno u g')
  · intro u g' _ _ h1; exact absurd h1 (hno u g')
  · intro u y g' h1 h2 h3
    subst h1
    have := (hz y g' h2 h3).2
    have := hs.new
    omega

/-- An attempt to take a lock that is not free. -/
theorem Lock.bump (ho : Lock m l hl) (hs : Modified m w l t f a r v m' g) (hv : v ≠ 0) (hf : f v ≠ 0) :
    Lock m' l hl ∧ ∀ u g', Open m' l u g' → Open m l u g' := by
  obtain ⟨n, hn, _, _, _, hm⟩ := hs.msg
  have hmsg := msg_new hm
  have hc := cur_mono hs.others hs.mono
  have hz : ∀ u g', m'.msg l u = some g' → g'.val = 0 → m.msg l u = some g' := by
    intro u g' h1 h2
    rw [hmsg] at h1
    split at h1
    · cases h1; exact absurd (hn.symm.trans h2) hf
    · exact h1
  have hop : ∀ u g', Open m' l u g' → Open m l u g' := by
    rintro u g' ⟨h1, h2, h3⟩
    refine ⟨hz u g' h1 h2, h2, ?_⟩
    rw [hmsg] at h3
    split at h3
    · cases h3
    · exact h3
  refine ⟨⟨ho.one, ?_, ?_, ?_⟩, hop⟩
  · exact fun u g w h1 => ho.excl u g w (hop u g h1)
  · exact fun u g u' g' h1 h2 h3 => ho.top u g u' g' (hop u g h1) (hz u' g' h2 h3) h3
  · exact fun w u g h1 h2 h3 => Nat.lt_of_lt_of_le (ho.nz w u g h1 (hz u g h2 h3) h3) (hc w l)

/-- Releasing a lock. -/
theorem Lock.put (ho : Lock m l hl) (hs : Stored m w l t 0 true m') (hw : hl w) :
    Lock m' l (fun _ => False) ∧ ∀ u g', Open m' l u g' → ∀ y, m.cur w y ≤ g'.view y := by
  obtain ⟨n, _, _, hnv, _, hm⟩ := hs.msg
  have hmsg := msg_new hm
  have hop : ∀ u' g', Open m' l u' g' → u' = t ∧ g' = n := by
    rintro u' g' ⟨h1, h2, h3⟩
    rw [hmsg] at h1
    split at h1
    · rename_i he; exact ⟨he, (Option.some.inj h1).symm⟩
    · rw [hmsg] at h3
      split at h3
      · cases h3
      · exact absurd hw (ho.excl u' g' w ⟨h1, h2, h3⟩)
  refine ⟨⟨fun _ _ h => h.elim, fun _ _ _ _ h => h, ?_, fun _ _ _ h => h.elim⟩, ?_⟩
  · intro u1 g1 u2 g2 h1 h2 h3
    obtain ⟨rfl, rfl⟩ := hop u1 g1 h1
    rw [hmsg] at h2
    split at h2
    · omega
    · have := ho.nz w u2 g2 hw h2 h3; have := hs.old; omega
  · intro u1 g1 h1 y
    obtain ⟨rfl, rfl⟩ := hop u1 g1 h1
    exact hnv rfl y

theorem Lock.init {v : Nat → Nat} : Lock (Weak.start v) l (fun _ => False) := by
  refine ⟨fun _ _ h => h.elim, fun _ _ _ _ h => h, ?_, fun _ _ _ h => h.elim⟩
  intro u g u' g' h1 h2 _
  simp only [start] at h2
  split at h2
  · omega
  · cases h2

/-! ## All locks together -/

/-- Every location with `isL` is a lock in order. -/
def Locks (isL : Nat → Prop) (m : Mem) (h : Nat → Nat → Prop) : Prop := ∀ l, isL l → Lock m l (h l)

/-- One step of the memory: the locks stay in order, and who knows something keeps it. -/
structure Next (isL : Nat → Prop) (m : Mem) (h : Nat → Nat → Prop) (m' : Mem) (h' : Nat → Nat → Prop) : Prop where
  locks : Locks isL m' h'
  kn : ∀ k x n, (∀ l, k = .lock l → isL l) → Kn m h k x n → Kn m' h' k x n

variable {isL : Nat → Prop}

/-- No memory operation, or one that does not write to a lock. -/
theorem Next.quiet (ho : Locks isL m h) (hm : ∀ l, isL l → m'.msg l = m.msg l) (hc : ∀ u y, m.cur u y ≤ m'.cur u y)
    (hh : ∀ l u, isL l → (h' l u ↔ h l u)) : Next isL m h m' h' where
  locks := fun l hl => ((ho l hl).quiet (hm l hl) hc).congr (fun w => hh l w hl)
  kn := fun _ _ _ hl hk => hk.quiet (fun l he => hm l (hl l he)) (fun l w he => (hh l w (hl l he)).1) hc

/-- Thread `w` takes the lock `l`. -/
theorem Next.take (ho : Locks isL m h) (hs : Modified m w l t f true r v m' g) (hil : isL l) (hv : v = 0) (hf : f v ≠ 0)
    (hh : ∀ l' u, isL l' → (h' l' u ↔ (h l' u ∨ (l' = l ∧ u = w)))) : (∀ u, ¬ h l u) ∧ Next isL m h m' h' := by
  obtain ⟨h1, h2, h3, h4⟩ := (ho l hil).take hs hv hf
  obtain ⟨n', _, _, _, _, hm⟩ := hs.msg
  have hc := cur_mono hs.others hs.mono
  refine ⟨h1, ?_, ?_⟩
  · intro l' hl'
    by_cases he : l' = l
    · subst he
      refine h3.congr fun u => ?_
      rw [hh l' u hl']
      exact ⟨fun h5 => h5.elim (fun h6 => absurd h6 (h1 u)) (·.2), fun h5 => .inr ⟨rfl, h5⟩⟩
    · refine ((ho l' hl').quiet (msg_other hm he) hc).congr fun u => ?_
      rw [hh l' u hl']
      exact ⟨fun h5 => h5.elim id (fun h6 => absurd h6.1 he), .inl⟩
  · intro k x n hk hn
    cases k with
    | thr u => exact Nat.le_trans hn (hc u x)
    | lock l' =>
      by_cases he : l' = l
      · subst he
        refine ⟨fun u g' h5 => absurd h5 (h4 u g'), fun u h5 => ?_⟩
        rw [hh l' u hil] at h5
        rcases h5 with h5 | h5
        · exact absurd h5 (h1 u)
        · rw [h5.2]; exact Nat.le_trans (hn.1 t g h2) (hs.gain rfl x)
      · refine Kn.quiet hn (fun l'' h5 => ?_) (fun l'' u h5 h6 => ?_) hc
        · cases h5; exact msg_other hm he
        · cases h5
          rw [hh l' u (hk l' rfl)] at h6
          exact h6.elim id (fun h7 => absurd h7.1 he)

/-- Thread `w` tries to take a lock that is not free. -/
theorem Next.bump (ho : Locks isL m h) (hs : Modified m w l t f a r v m' g) (hil : isL l) (hv : v ≠ 0) (hf : f v ≠ 0)
    (hh : ∀ l' u, isL l' → (h' l' u ↔ h l' u)) : Next isL m h m' h' := by
  obtain ⟨h1, h2⟩ := (ho l hil).bump hs hv hf
  obtain ⟨n', _, _, _, _, hm⟩ := hs.msg
  have hc := cur_mono hs.others hs.mono
  refine ⟨?_, ?_⟩
  · intro l' hl'
    by_cases he : l' = l
    · subst he; exact h1.congr fun u => hh l' u hl'
    · exact ((ho l' hl').quiet (msg_other hm he) hc).congr fun u => hh l' u hl'
  · intro k x n hk hn
    cases k with
    | thr u => exact Nat.le_trans hn (hc u x)
    | lock l' =>
      refine ⟨fun u g' h5 => ?_, fun u h5 => Nat.le_trans (hn.2 u ((hh l' u (hk l' rfl)).1 h5)) (hc u x)⟩
      by_cases he : l' = l
      · subst he; exact hn.1 u g' (h2 u g' h5)
      · rw [Open, msg_other hm he] at h5; exact hn.1 u g' h5

/-- Thread `w` releases the lock `l`. -/
theorem Next.put (ho : Locks isL m h) (hs : Stored m w l t 0 true m') (hil : isL l) (hw : h l w)
    (hh : ∀ l' u, isL l' → (h' l' u ↔ (h l' u ∧ l' ≠ l))) : Next isL m h m' h' := by
  obtain ⟨h1, h2⟩ := (ho l hil).put hs hw
  obtain ⟨n', _, _, _, _, hm⟩ := hs.msg
  have hc := cur_mono hs.others hs.mono
  refine ⟨?_, ?_⟩
  · intro l' hl'
    by_cases he : l' = l
    · subst he
      refine h1.congr fun u => ?_
      rw [hh l' u hl']; simp
    · refine ((ho l' hl').quiet (msg_other hm he) hc).congr fun u => ?_
      rw [hh l' u hl']; simp [he]
  · intro k x n hk hn
    cases k with
    | thr u => exact Nat.le_trans hn (hc u x)
    | lock l' =>
      refine ⟨fun u g' h5 => ?_, fun u h5 => Nat.le_trans (hn.2 u ((hh l' u (hk l' rfl)).1 h5).1) (hc u x)⟩
      by_cases he : l' = l
      · subst he; exact Nat.le_trans (hn.2 w hw) (h2 u g' h5 x)
      · rw [Open, msg_other hm he] at h5; exact hn.1 u g' h5

/-! ## Several accesses in a row -/

/-- `w` accesses the non-atomic locations `xs`, one after the other; the result: whether one of the accesses is a data race. -/
def touches (m : Mem) (w : Nat) : List Nat → Bool × Mem
  | [] => (false, m)
  | x :: xs =>
    let p := touch m w x
    let q := touches p.2 w xs
    (p.1 || q.1, q.2)

/-- What it does. -/
structure Used (m : Mem) (w : Nat) (xs : List Nat) (b : Bool) (m' : Mem) : Prop where
  race : (∀ x ∈ xs, m.last x ≤ m.cur w x) → b = false
  msg : m'.msg = m.msg
  last : ∀ y, y ∉ xs → m'.last y = m.last y
  new : ∀ x ∈ xs, m'.last x ≤ m'.cur w x
  mono : ∀ u y, m.cur u y ≤ m'.cur u y
  fresh : ∀ y, m.last y ≤ m'.last y

theorem touches_spec {xs : List Nat} : ∀ {m m' : Mem} {b : Bool}, touches m w xs = (b, m') → Used m w xs b m' := by
  induction xs with
  | nil =>
    intro m m' b h
    simp only [touches, Prod.mk.injEq] at h
    obtain ⟨rfl, rfl⟩ := h
    exact ⟨fun _ => rfl, rfl, fun _ _ => rfl, by simp, fun _ _ => Nat.le_refl _, fun _ => Nat.le_refl _⟩
  | cons x xs ih =>
    intro m m' b h
    simp only [touches, Prod.mk.injEq] at h
    obtain ⟨rfl, rfl⟩ := h
    have h1 := touch_spec (m := m) (w := w) (x := x) (b := (touch m w x).1) (m' := (touch m w x).2) rfl
    have h2 := ih (m := (touch m w x).2) (b := (touches (touch m w x).2 w xs).1) (m' := (touches (touch m w x).2 w xs).2) rfl
    have hc := cur_mono h1.others h1.mono
    have hx : (touch m w x).2.last x ≤ (touch m w x).2.cur w x := by rw [h1.last, upd_same]; exact h1.new
    refine ⟨?_, by rw [h2.msg, h1.msg], ?_, ?_, fun u y => Nat.le_trans (hc u y) (h2.mono u y), ?_⟩
    · intro hk
      have ha : (touch m w x).1 = false := by
        cases hb : (touch m w x).1 with
        | false => rfl
        | true => have := h1.race.1 hb; have := hk x (by simp); omega
      rw [ha, Bool.false_or]
      refine h2.race fun y hy => ?_
      by_cases he : y = x
      · subst he; exact hx
      · rw [h1.last, upd_other _ _ he]; exact Nat.le_trans (hk y (by simp [hy])) (hc w y)
    · intro y hy
      simp only [List.mem_cons, not_or] at hy
      rw [h2.last y hy.2, h1.last, upd_other _ _ hy.1]
    · intro y hy
      by_cases hm : y ∈ xs
      · exact h2.new y hm
      · have he : y = x := by simpa [hm] using hy
        subst he
        rw [h2.last y hm]; exact Nat.le_trans hx (h2.mono w y)
    · intro y
      refine Nat.le_trans ?_ (h2.fresh y)
      rw [h1.last, upd_apply]; split <;> (try subst_vars) <;> omega

end Verif.Weak
