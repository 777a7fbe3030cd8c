import Verif.Base

/-!
# The ring buffer of `buffered_channel`

`include/boost/fiber/buffered_channel.hpp:46-72,119-120,271-272`.
-/

namespace Verif

/-- `slots_`, `pidx_`, `cidx_`, `capacity_` (`buffered_channel.hpp:46-49`). A slot that is default constructed
or moved from is `none`. Indices are naturals: they stay below `capacity_`, so `size_t` does not wrap. -/
structure Ring (V : Type) where
  slots : Nat → Option V
  pidx  : Nat
  cidx  : Nat
  cap   : Nat

namespace Ring

variable {V : Type}

/-- `is_full_` (`buffered_channel.hpp:52-54`). -/
def isFull (r : Ring V) : Bool := r.cidx == (r.pidx + 1) % r.cap

/-- `is_empty_` (`buffered_channel.hpp:56-58`). -/
def isEmpty (r : Ring V) : Bool := r.cidx == r.pidx

/-- The capacity check of the constructor (`buffered_channel.hpp:67-70`). -/
def badCap (c : Nat) : Bool := decide (2 > c) || (0 != (c &&& (c - 1)))

/-- The constructor (`buffered_channel.hpp:65-72`), after the check. -/
def make (c : Nat) : Ring V := { slots := fun _ => none, pidx := 0, cidx := 0, cap := c }

/-- `slots_[pidx_] = value; pidx_ = (pidx_ + 1) % capacity_;` (`buffered_channel.hpp:119-120`). -/
def put (r : Ring V) (v : V) : Ring V :=
  { r with slots := upd r.slots r.pidx (some v), pidx := (r.pidx + 1) % r.cap }

/-- `value = std::move( slots_[cidx_]); cidx_ = (cidx_ + 1) % capacity_;` (`buffered_channel.hpp:271-272`). The
first component is what the caller gets; `none` would be a moved-from or never written object. -/
def take (r : Ring V) : Option V × Ring V :=
  (r.slots r.cidx, { r with slots := upd r.slots r.cidx none, cidx := (r.cidx + 1) % r.cap })

/-- The ring holds the values `l`, oldest first. -/
structure Rep (r : Ring V) (l : List V) : Prop where
  lt   : l.length < r.cap
  cidx : r.cidx < r.cap
  pidx : r.pidx = (r.cidx + l.length) % r.cap
  val  : ∀ i (h : i < l.length), r.slots ((r.cidx + i) % r.cap) = some l[i]

theorem rep_make {c : Nat} (h : 2 ≤ c) : Rep (make c : Ring V) [] := by
  constructor <;> simp [make]
  all_goals omega

/-- Two offsets below the capacity that land on the same slot are equal. -/
theorem off_inj {a i j c : Nat} (hi : i < c) (hj : j < c) (h : (a + i) % c = (a + j) % c) : i = j := by
  have h1 := Nat.div_add_mod (a + i) c
  have h2 := Nat.div_add_mod (a + j) c
  rw [h] at h1
  generalize (a + i) / c = x at h1
  generalize (a + j) / c = y at h2
  rcases Nat.lt_trichotomy x y with hxy | rfl | hxy
  · have : c * (x + 1) ≤ c * y := Nat.mul_le_mul_left _ hxy
    rw [Nat.mul_add] at this; omega
  · omega
  · have : c * (y + 1) ≤ c * x := Nat.mul_le_mul_left _ hxy
    rw [Nat.mul_add] at this; omega

theorem isEmpty_iff {r : Ring V} {l : List V} (h : Rep r l) : r.isEmpty = true ↔ l = [] := by
  obtain ⟨h1, h2, h3, -⟩ := h
  simp only [isEmpty, beq_iff_eq]
  constructor
  · intro he
    have : (r.cidx + 0) % r.cap = (r.cidx + l.length) % r.cap := by
      rw [← h3, ← he, Nat.add_zero, Nat.mod_eq_of_lt h2]
    have := off_inj (by omega) h1 this
    exact List.length_eq_zero_iff.1 this.symm
  · rintro rfl; rw [h3]; simp [Nat.mod_eq_of_lt h2]

theorem isFull_iff {r : Ring V} {l : List V} (h : Rep r l) : r.isFull = true ↔ l.length = r.cap - 1 := by
  obtain ⟨h1, h2, h3, -⟩ := h
  simp only [isFull, beq_iff_eq, h3, Nat.mod_add_mod]
  constructor
  · intro he
    refine Classical.byContradiction fun hne => ?_
    have : (r.cidx + 0) % r.cap = (r.cidx + (l.length + 1)) % r.cap := by
      rw [← Nat.add_assoc, ← he, Nat.add_zero, Nat.mod_eq_of_lt h2]
    have := off_inj (by omega) (by omega) this
    omega
  · intro he
    have : r.cidx + l.length + 1 = r.cidx + r.cap := by omega
    rw [this, Nat.add_mod_right, Nat.mod_eq_of_lt h2]

theorem rep_put {r : Ring V} {l : List V} (h : Rep r l) (hf : r.isFull = false) (v : V) :
    Rep (r.put v) (l ++ [v]) := by
  have hne : l.length ≠ r.cap - 1 := fun he => by have := (isFull_iff h).2 he; simp [hf] at this
  obtain ⟨h1, h2, h3, h4⟩ := h
  refine ⟨by simp [put]; omega, h2, by simp [put, h3, Nat.mod_add_mod, Nat.add_assoc], ?_⟩
  intro i hi
  simp only [List.length_append, List.length_singleton] at hi
  simp only [put, upd_apply]
  split
  · rename_i he
    rw [h3] at he
    have := off_inj (by omega) (by omega) he
    subst this; simp
  · rename_i he
    have hil : i < l.length := by
      refine Nat.lt_of_le_of_ne (by omega) ?_
      rintro rfl; exact he h3.symm
    rw [h4 i hil, List.getElem_append_left hil]

theorem rep_take {r : Ring V} {x : V} {l : List V} (h : Rep r (x :: l)) :
    r.take.1 = some x ∧ Rep r.take.2 l := by
  obtain ⟨h1, h2, h3, h4⟩ := h
  simp only [List.length_cons] at h1 h3 h4
  have h0 := h4 0 (by omega)
  simp only [Nat.add_zero, Nat.mod_eq_of_lt h2, List.getElem_cons_zero] at h0
  refine ⟨h0, ?_, ?_, ?_, ?_⟩
  · simp only [take]; omega
  · simp only [take]; exact Nat.mod_lt _ (by omega)
  · simp only [take, h3, Nat.mod_add_mod]; congr 1; omega
  · intro i hi
    simp only [take, Nat.mod_add_mod, upd_apply]
    have he : r.cidx + 1 + i = r.cidx + (i + 1) := by omega
    rw [he]
    split
    · rename_i hc
      have : (r.cidx + (i + 1)) % r.cap = (r.cidx + 0) % r.cap := by
        rw [hc, Nat.add_zero, Nat.mod_eq_of_lt h2]
      have := off_inj (by omega) (by omega) this
      omega
    · rw [h4 (i + 1) (by omega)]; simp

end Ring
end Verif
