import Verif.Base

/-!
# Weak memory: an operational model of C++ atomics

The machine of views and timestamps for C++11 atomics without out-of-thin-air behaviour (RC11; Kang et al., "A promising
semantics for relaxed-memory concurrency", POPL 2017, without promises; Dang et al., "RustBelt meets relaxed memory", POPL 2020).

* An atomic location is a set of messages, each with a timestamp, a value and the view that a reader acquires with it.
* A thread has a view: for each location the timestamp of the last message it knows. It reads any message that is not older
  than its view, so a relaxed load may read a stale value.
* A store takes any free timestamp above the thread's view; a read-modify-write takes the timestamp directly after that of the
  message it reads (nothing can come between them).
* A release store attaches the thread's view to its message, an acquire load takes over the view of the message. A relaxed
  store attaches the view at the thread's last release fence; a read-modify-write also passes on the view of the message it
  reads (release sequence).
* `memory_order_seq_cst` fences exchange views with one global view. `memory_order_seq_cst` accesses are treated as
  acquire/release, which allows more behaviours.
* An access to a non-atomic location is a data race unless the thread's view contains all former accesses. (Reads are treated
  as writes.)
-/

namespace Verif



namespace Weak

/-- For each location a timestamp. Locations and timestamps are numbers. -/
abbrev View := Nat → Nat

/-- The view that contains both. -/
def join (a b : View) : View := fun x => if a x ≤ b x then b x else a x

/-- Just the message of location `x` with timestamp `t`. -/
def single (x : Nat) (t : Nat) : View := fun y => if y = x then t else 0

structure Msg where
  val : Nat
  view : View

structure Mem where
  msg : Nat → Nat → Option Msg
  cur : Nat → View
  /-- what the thread will know after an acquire fence -/
  acq : Nat → View
  /-- what the thread knew at its last release fence -/
  rel : Nat → View
  /-- the view of the sequentially consistent fences -/
  sc : View
  /-- number of accesses to a non-atomic location -/
  last : Nat → Nat

/-- Every atomic location `x` has its initial value `v x`, known to every thread. -/
def start (v : Nat → Nat) : Mem where
  msg := fun x t => if t = 0 then some ⟨v x, fun _ => 0⟩ else none
  cur := fun _ _ => 0
  acq := fun _ _ => 0
  rel := fun _ _ => 0
  sc := fun _ => 0
  last := fun _ => 0

/-- `x.load( order)`, reading the message with timestamp `t`; `a`: the order is acquire. -/
def load (m : Mem) (w : Nat) (x : Nat) (t : Nat) (a : Bool) : Option (Nat × Mem) :=
  if m.cur w x ≤ t then
    match m.msg x t with
    | none => none
    | some g =>
      some (g.val,
        { m with
          cur := upd m.cur w (join (join (m.cur w) (single x t)) (if a then g.view else fun _ => 0)),
          acq := upd m.acq w (join (join (m.acq w) (single x t)) g.view) })
  else none

/-- `x.store( v, order)` with timestamp `t`; `r`: the order is release. -/
def store (m : Mem) (w : Nat) (x : Nat) (t : Nat) (v : Nat) (r : Bool) : Option Mem :=
  if m.cur w x < t ∧ (m.msg x t).isNone then
    let c := join (m.cur w) (single x t)
    some { m with
      msg := upd m.msg x (upd (m.msg x) t (some ⟨v, join (if r then c else m.rel w) (single x t)⟩)),
      cur := upd m.cur w c,
      acq := upd m.acq w (join (m.acq w) (single x t)) }
  else none

/-- An atomic read-modify-write (`exchange`, `fetch_add`, `fetch_sub`, a successful `compare_exchange_strong`) that reads the
message with timestamp `t`; `a`, `r`: the order includes acquire, release. -/
def rmw (m : Mem) (w : Nat) (x : Nat) (t : Nat) (f : Nat → Nat) (a r : Bool) : Option (Nat × Mem) :=
  if m.cur w x ≤ t ∧ (m.msg x (t + 1)).isNone then
    match m.msg x t with
    | none => none
    | some g =>
      let c := join (join (join (m.cur w) (single x t)) (if a then g.view else fun _ => 0)) (single x (t + 1))
      some (g.val,
        { m with
          msg := upd m.msg x (upd (m.msg x) (t + 1) (some ⟨f g.val, join g.view (join (if r then c else m.rel w) (single x (t + 1)))⟩)),
          cur := upd m.cur w c,
          acq := upd m.acq w (join (join (join (m.acq w) (single x t)) g.view) (single x (t + 1))) })
  else none

/-- `x.compare_exchange_strong( e, v, …)` that reads the message with timestamp `t`; `a`, `r`: the order on success; `fa`: the
order on failure is acquire. The result: whether it succeeded, and the value read. -/
def cas (m : Mem) (w : Nat) (x : Nat) (t : Nat) (e v : Nat) (a r fa : Bool) : Option (Bool × Nat × Mem) :=
  match m.msg x t with
  | none => none
  | some g =>
    if g.val = e then (rmw m w x t (fun _ => v) a r).map fun p => (true, p.1, p.2)
    else (load m w x t fa).map fun p => (false, p.1, p.2)

/-- `std::atomic_thread_fence( std::memory_order_release)`. -/
def fenceRel (m : Mem) (w : Nat) : Mem := { m with rel := upd m.rel w (m.cur w) }

/-- `std::atomic_thread_fence( std::memory_order_acquire)`. -/
def fenceAcq (m : Mem) (w : Nat) : Mem := { m with cur := upd m.cur w (join (m.cur w) (m.acq w)) }

/-- `std::atomic_thread_fence( std::memory_order_seq_cst)`. -/
def fenceSc (m : Mem) (w : Nat) : Mem :=
  let c := join (join (m.cur w) (m.acq w)) m.sc
  { m with cur := upd m.cur w c, acq := upd m.acq w c, rel := upd m.rel w c, sc := c }

/-- An access to the non-atomic location `x` by `w`: whether it is a data race, and the memory after it. -/
def touch (m : Mem) (w : Nat) (x : Nat) : Bool × Mem :=
  let n := m.last x + 1
  (decide (m.cur w x < m.last x),
    { m with
      last := upd m.last x n,
      cur := upd m.cur w (join (m.cur w) (single x n)),
      acq := upd m.acq w (join (m.acq w) (single x n)) })

/-! ## Facts about the machine -/

theorem join_apply (a b : View) (x : Nat) : join a b x = if a x ≤ b x then b x else a x := rfl

theorem single_apply (x : Nat) (t : Nat) (y : Nat) : single x t y = if y = x then t else 0 := rfl

theorem le_join_left (a b : View) (x : Nat) : a x ≤ join a b x := by rw [join_apply]; split <;> omega

theorem le_join_right (a b : View) (x : Nat) : b x ≤ join a b x := by rw [join_apply]; split <;> omega

theorem join_le {a b : View} {x : Nat} {n : Nat} (h1 : a x ≤ n) (h2 : b x ≤ n) : join a b x ≤ n := by rw [join_apply]; split <;> omega

theorem join_zero (a : View) (x : Nat) : join a (fun _ => 0) x = a x := by rw [join_apply]; split <;> omega

/-- What a load does: it changes only the views of the thread, which grow. -/
structure Loaded (m : Mem) (w x t : Nat) (a : Bool) (v : Nat) (m' : Mem) (g : Msg) : Prop where
  read : m.msg x t = some g
  val : v = g.val
  old : m.cur w x ≤ t
  msg : m'.msg = m.msg
  last : m'.last = m.last
  rel : m'.rel = m.rel
  sc : m'.sc = m.sc
  others : ∀ u, u ≠ w → m'.cur u = m.cur u
  othersA : ∀ u, u ≠ w → m'.acq u = m.acq u
  mono : ∀ y, m.cur w y ≤ m'.cur w y
  monoA : ∀ y, m.acq w y ≤ m'.acq w y
  new : t ≤ m'.cur w x
  gain : a = true → ∀ y, g.view y ≤ m'.cur w y
  gainA : ∀ y, g.view y ≤ m'.acq w y

theorem load_spec {m m' : Mem} {w x t v : Nat} {a : Bool} (h : load m w x t a = some (v, m')) : ∃ g, Loaded m w x t a v m' g := by
  unfold load at h
  split at h
  · rename_i hle
    split at h
    · cases h
    · rename_i g hg
      simp only [Option.some.injEq, Prod.mk.injEq] at h
      obtain ⟨rfl, rfl⟩ := h
      refine ⟨g, hg, rfl, hle, rfl, rfl, rfl, rfl, ?_, ?_, ?_, ?_, ?_, ?_, ?_⟩
      · intro u hu; simp only [upd_other _ _ hu]
      · intro u hu; simp only [upd_other _ _ hu]
      · intro y
        simp only [upd_same]
        exact Nat.le_trans (le_join_left _ _ y) (le_join_left _ _ y)
      · intro y
        simp only [upd_same]
        exact Nat.le_trans (le_join_left _ _ y) (le_join_left _ _ y)
      · simp only [upd_same]
        refine Nat.le_trans ?_ (le_join_left _ _ x)
        exact Nat.le_trans (by simp [single]) (le_join_right _ _ x)
      · intro ha y
        simp only [upd_same, ha, if_true]
        exact le_join_right _ _ y
      · intro y
        simp only [upd_same]
        exact le_join_right _ _ y
  · cases h

/-- What a store does. -/
structure Stored (m : Mem) (w x t v : Nat) (r : Bool) (m' : Mem) : Prop where
  free : m.msg x t = none
  old : m.cur w x < t
  msg : ∃ g : Msg, g.val = v ∧ (∀ y, m.rel w y ≤ g.view y ∨ r = true) ∧ (r = true → ∀ y, m.cur w y ≤ g.view y) ∧ t ≤ g.view x ∧
    m'.msg = upd m.msg x (upd (m.msg x) t (some g))
  last : m'.last = m.last
  rel : m'.rel = m.rel
  sc : m'.sc = m.sc
  others : ∀ u, u ≠ w → m'.cur u = m.cur u
  othersA : ∀ u, u ≠ w → m'.acq u = m.acq u
  mono : ∀ y, m.cur w y ≤ m'.cur w y
  monoA : ∀ y, m.acq w y ≤ m'.acq w y
  new : t ≤ m'.cur w x

theorem store_spec {m m' : Mem} {w x t v : Nat} {r : Bool} (h : store m w x t v r = some m') : Stored m w x t v r m' := by
  unfold store at h
  split at h
  · rename_i hc
    obtain ⟨hlt, hn⟩ := hc
    simp only [Option.isNone_iff_eq_none] at hn
    simp only [Option.some.injEq] at h
    subst h
    refine ⟨hn, hlt, ⟨_, rfl, ?_, ?_, ?_, rfl⟩, rfl, rfl, rfl, ?_, ?_, ?_, ?_, ?_⟩
    · intro y
      cases r with
      | true => exact .inr rfl
      | false => exact .inl (le_join_left _ _ y)
    · intro hr y
      simp only [hr, if_true]
      exact Nat.le_trans (le_join_left _ _ y) (le_join_left _ _ y)
    · exact Nat.le_trans (by simp [single]) (le_join_right _ _ x)
    · intro u hu; simp only [upd_other _ _ hu]
    · intro u hu; simp only [upd_other _ _ hu]
    · intro y; simp only [upd_same]; exact le_join_left _ _ y
    · intro y; simp only [upd_same]; exact le_join_left _ _ y
    · simp only [upd_same]
      exact Nat.le_trans (by simp [single]) (le_join_right _ _ x)
  · cases h

/-- What a read-modify-write does. -/
structure Modified (m : Mem) (w x t : Nat) (f : Nat → Nat) (a r : Bool) (v : Nat) (m' : Mem) (g : Msg) : Prop where
  read : m.msg x t = some g
  val : v = g.val
  free : m.msg x (t + 1) = none
  old : m.cur w x ≤ t
  msg : ∃ n : Msg, n.val = f v ∧ (∀ y, g.view y ≤ n.view y) ∧ (r = true → ∀ y, m'.cur w y ≤ n.view y) ∧ (r = false → ∀ y, m.rel w y ≤ n.view y) ∧
    m'.msg = upd m.msg x (upd (m.msg x) (t + 1) (some n))
  last : m'.last = m.last
  rel : m'.rel = m.rel
  sc : m'.sc = m.sc
  others : ∀ u, u ≠ w → m'.cur u = m.cur u
  othersA : ∀ u, u ≠ w → m'.acq u = m.acq u
  mono : ∀ y, m.cur w y ≤ m'.cur w y
  monoA : ∀ y, m.acq w y ≤ m'.acq w y
  new : t + 1 ≤ m'.cur w x
  gain : a = true → ∀ y, g.view y ≤ m'.cur w y
  gainA : ∀ y, g.view y ≤ m'.acq w y

theorem rmw_spec {m m' : Mem} {w x t v : Nat} {f : Nat → Nat} {a r : Bool} (h : rmw m w x t f a r = some (v, m')) :
    ∃ g, Modified m w x t f a r v m' g := by
  unfold rmw at h
  split at h
  · rename_i hc
    obtain ⟨hle, hn⟩ := hc
    simp only [Option.isNone_iff_eq_none] at hn
    split at h
    · cases h
    · rename_i g hg
      simp only [Option.some.injEq, Prod.mk.injEq] at h
      obtain ⟨rfl, rfl⟩ := h
      refine ⟨g, hg, rfl, hn, hle, ⟨_, rfl, ?_, ?_, ?_, rfl⟩, rfl, rfl, rfl, ?_, ?_, ?_, ?_, ?_, ?_, ?_⟩
      · intro y; exact le_join_left _ _ y
      · intro hr y
        simp only [hr, if_true, upd_same]
        exact Nat.le_trans (le_join_left _ _ y) (le_join_right _ _ y)
      · intro hr y
        simp only [hr]
        exact Nat.le_trans (le_join_left _ _ y) (le_join_right _ _ y)
      · intro u hu; simp only [upd_other _ _ hu]
      · intro u hu; simp only [upd_other _ _ hu]
      · intro y
        simp only [upd_same]
        exact Nat.le_trans (Nat.le_trans (le_join_left _ _ y) (le_join_left _ _ y)) (le_join_left _ _ y)
      · intro y
        simp only [upd_same]
        exact Nat.le_trans (Nat.le_trans (le_join_left _ _ y) (le_join_left _ _ y)) (le_join_left _ _ y)
      · simp only [upd_same]
        exact Nat.le_trans (by simp [single]) (le_join_right _ _ x)
      · intro ha y
        simp only [upd_same, ha, if_true]
        exact Nat.le_trans (le_join_right _ _ y) (le_join_left _ _ y)
      · intro y
        simp only [upd_same]
        exact Nat.le_trans (le_join_right _ _ y) (le_join_left _ _ y)
  · cases h

theorem cas_spec {m m' : Mem} {w x t e n v : Nat} {a r fa b : Bool} (h : cas m w x t e n a r fa = some (b, v, m')) :
    (b = true ∧ v = e ∧ ∃ g, Modified m w x t (fun _ => n) a r v m' g) ∨ (b = false ∧ v ≠ e ∧ ∃ g, Loaded m w x t fa v m' g) := by
  unfold cas at h
  split at h
  · cases h
  · rename_i g hg
    split at h
    · rename_i hv
      simp only [Option.map_eq_some_iff, Prod.mk.injEq] at h
      obtain ⟨⟨v1, m1⟩, h1, rfl, rfl, rfl⟩ := h
      obtain ⟨g', h2⟩ := rmw_spec h1
      have : g' = g := Option.some.inj (h2.read.symm.trans hg)
      subst this
      exact .inl ⟨rfl, h2.val.trans hv, g', h2⟩
    · rename_i hv
      simp only [Option.map_eq_some_iff, Prod.mk.injEq] at h
      obtain ⟨⟨v1, m1⟩, h1, rfl, rfl, rfl⟩ := h
      obtain ⟨g', h2⟩ := load_spec h1
      have : g' = g := Option.some.inj (h2.read.symm.trans hg)
      subst this
      exact .inr ⟨rfl, fun h => hv (h2.val.symm.trans h), g', h2⟩

/-- What a non-atomic access does. -/
structure Touched (m : Mem) (w x : Nat) (b : Bool) (m' : Mem) : Prop where
  race : b = true ↔ m.cur w x < m.last x
  msg : m'.msg = m.msg
  last : m'.last = upd m.last x (m.last x + 1)
  rel : m'.rel = m.rel
  sc : m'.sc = m.sc
  others : ∀ u, u ≠ w → m'.cur u = m.cur u
  othersA : ∀ u, u ≠ w → m'.acq u = m.acq u
  mono : ∀ y, m.cur w y ≤ m'.cur w y
  monoA : ∀ y, m.acq w y ≤ m'.acq w y
  new : m.last x + 1 ≤ m'.cur w x

theorem touch_spec {m m' : Mem} {w x : Nat} {b : Bool} (h : touch m w x = (b, m')) : Touched m w x b m' := by
  simp only [touch, Prod.mk.injEq] at h
  obtain ⟨rfl, rfl⟩ := h
  refine ⟨by simp, rfl, rfl, rfl, rfl, ?_, ?_, ?_, ?_, ?_⟩
  · intro u hu; simp only [upd_other _ _ hu]
  · intro u hu; simp only [upd_other _ _ hu]
  · intro y; simp only [upd_same]; exact le_join_left _ _ y
  · intro y; simp only [upd_same]; exact le_join_left _ _ y
  · simp only [upd_same]
    exact Nat.le_trans (by simp [single]) (le_join_right _ _ x)

end Weak

end Verif
