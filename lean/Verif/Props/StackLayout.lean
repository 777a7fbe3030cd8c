import Verif.StackLayout

/-!
# The control block on the fiber's stack: C58
-/

namespace Verif.Layout

/-- Addresses as numbers: `[lo, lo + len)`. -/
structure Region where
  lo : Nat
  len : Nat

def Region.mem (r : Region) (a : Nat) : Prop := r.lo ≤ a ∧ a < r.lo + r.len
def Region.within (r q : Region) : Prop := ∀ a, r.mem a → q.mem a
def Region.disjoint (r q : Region) : Prop := ∀ a, ¬ (r.mem a ∧ q.mem a)

/-- The stack is a region of the address space: it does not wrap around. -/
def Stack.valid (s : Stack) : Prop := s.size.toNat ≤ s.sp.toNat

/-- The memory the allocator returned. -/
def Stack.region (s : Stack) : Region := ⟨s.sp.toNat - s.size.toNat, s.size.toNat⟩

/-- The control block. -/
def block (s : Stack) (n : Addr) : Region := ⟨(storage s n).toNat, n.toNat⟩

/-- What is handed to the fiber. -/
def exec (s : Stack) (n : Addr) : Region := ⟨(bottom s).toNat, (execSize s n).toNat⟩

theorem low_bits : ∀ j : Fin 64, (0xff : Addr).getLsbD j.val = decide (j.val < 8) := by decide

theorem mask_eq (x : Addr) : x &&& ~~~(0xff : Addr) = (x >>> 8) <<< 8 := by
  apply BitVec.eq_of_getLsbD_eq
  intro i hi
  simp only [BitVec.getLsbD_and, BitVec.getLsbD_not, BitVec.getLsbD_shiftLeft, BitVec.getLsbD_ushiftRight, low_bits ⟨i, hi⟩, hi]
  by_cases h : i < 8
  · simp [h]
  · have h3 : 8 + (i - 8) = i := by omega
    simp [h, h3]

theorem mask_toNat (x : Addr) : (x &&& ~~~(0xff : Addr)).toNat = x.toNat / 256 * 256 := by
  rw [mask_eq]
  have := x.isLt
  simp only [BitVec.toNat_shiftLeft, BitVec.toNat_ushiftRight, Nat.shiftRight_eq_div_pow, Nat.shiftLeft_eq]
  omega

theorem storage_toNat {s : Stack} {n : Addr} (h : n.toNat ≤ s.sp.toNat) : (storage s n).toNat = (s.sp.toNat - n.toNat) / 256 * 256 := by
  unfold storage
  rw [mask_toNat, BitVec.toNat_sub_of_le h]

theorem bottom_toNat {s : Stack} (h : s.valid) : (bottom s).toNat = s.sp.toNat - s.size.toNat := BitVec.toNat_sub_of_le h

/-- 256-byte alignment, for every stack whatsoever. -/
theorem C58_aligned (s : Stack) (n : Addr) : (storage s n).toNat % 256 = 0 := by
  unfold storage
  rw [mask_toNat]
  omega

/-- The control block lies inside the stack, if the stack is large enough for it and the alignment. -/
theorem C58_inside {s : Stack} {n : Addr} (hv : s.valid) (hn : n.toNat + 255 ≤ s.size.toNat) : (block s n).within s.region := by
  intro a ⟨h1, h2⟩
  have hv' : s.size.toNat ≤ s.sp.toNat := hv
  have h3 := storage_toNat (s := s) (n := n) (by omega)
  simp only [block, h3] at h1 h2
  constructor <;> simp only [Stack.region] <;> omega

/-- The region for execution lies inside the stack, directly below the control block. -/
theorem C58_exec {s : Stack} {n : Addr} (hv : s.valid) (hn : n.toNat + 255 ≤ s.size.toNat) :
    (exec s n).within s.region ∧ (exec s n).lo = s.region.lo ∧ (exec s n).lo + (exec s n).len = (block s n).lo ∧ (exec s n).disjoint (block s n) := by
  have hv' : s.size.toNat ≤ s.sp.toNat := hv
  have h3 := storage_toNat (s := s) (n := n) (by omega)
  have h4 := bottom_toNat hv
  have h5 : (execSize s n).toNat = (s.sp.toNat - n.toNat) / 256 * 256 - (s.sp.toNat - s.size.toNat) := by
    unfold execSize
    rw [BitVec.toNat_sub_of_le (by rw [BitVec.le_def, h3, h4]; omega), h3, h4]
  refine ⟨?_, h4, ?_, ?_⟩
  · intro a ⟨h1, h2⟩
    simp only [exec, h4, h5] at h1 h2
    constructor <;> simp only [Stack.region] <;> omega
  · simp only [exec, block, h3, h4, h5]; omega
  · intro a ⟨⟨h1, h2⟩, h6, h7⟩
    simp only [exec, block, h3, h4, h5] at h1 h2 h6 h7
    omega

/-- How much is left for execution: at most the alignment is lost. -/
theorem C58_waste {s : Stack} {n : Addr} (hv : s.valid) (hn : n.toNat + 255 ≤ s.size.toNat) :
    s.size.toNat ≤ (exec s n).len + n.toNat + 255 := by
  obtain ⟨_, h1, h2, _⟩ := C58_exec hv hn
  have hv' : s.size.toNat ≤ s.sp.toNat := hv
  have h3 := storage_toNat (s := s) (n := n) (by omega)
  simp only [block, h3] at h2
  rw [h1] at h2
  simp only [Stack.region] at h2
  omega

/-- "Large enough" is needed, and nothing in the code tests for it: on a stack smaller than the control block, the block begins below the stack. -/
theorem C58_too_small {s : Stack} {n : Addr} (hv : s.valid) (hs : s.size.toNat < n.toNat) (hn : n.toNat ≤ s.sp.toNat) : ¬ (block s n).within s.region := by
  intro h
  have hv' : s.size.toNat ≤ s.sp.toNat := hv
  have h3 := storage_toNat (s := s) (n := n) hn
  have := h (storage s n).toNat ⟨Nat.le_refl _, by simp only [block]; omega⟩
  obtain ⟨h1, _⟩ := this
  simp only [Stack.region, h3] at h1
  omega

/-- The exact condition. -/
theorem C58_iff {s : Stack} {n : Addr} (hv : s.valid) (hn : n.toNat ≤ s.sp.toNat) (h0 : 0 < n.toNat) :
    (block s n).within s.region ↔ s.sp.toNat - s.size.toNat ≤ (s.sp.toNat - n.toNat) / 256 * 256 := by
  have hv' : s.size.toNat ≤ s.sp.toNat := hv
  have h3 := storage_toNat (s := s) (n := n) hn
  constructor
  · intro h
    have := (h (storage s n).toNat ⟨Nat.le_refl _, by simp only [block]; omega⟩).1
    simpa only [Stack.region, h3] using this
  · intro h a ⟨h1, h2⟩
    simp only [block, h3] at h1 h2
    constructor <;> simp only [Stack.region] <;> omega

/-- A stack of 128 KiB whose top is not aligned, a control block of 600 bytes. -/
example : (⟨0x7f0000020010, 0x20000⟩ : Stack).valid ∧ (600#64).toNat + 255 ≤ (⟨0x7f0000020010, 0x20000⟩ : Stack).size.toNat ∧
    storage ⟨0x7f0000020010, 0x20000⟩ 600 = 0x7f000001fd00 := by unfold Stack.valid; decide

/-- A stack of 512 bytes. -/
example : (⟨0x7f0000020000, 512⟩ : Stack).valid ∧ storage ⟨0x7f0000020000, 512⟩ 600 = 0x7f000001fd00 ∧ bottom ⟨0x7f0000020000, 512⟩ = 0x7f000001fe00 := by
  unfold Stack.valid; decide

end Verif.Layout
