import Verif.FiberId
import Verif.Props.StackLayout

/-!
# Fiber ids and kinds of fibers: C59
-/

namespace Verif.Ident

open Verif.Layout

/-! ## Order -/

theorem eq_iff {a b : Id} : eq a b = true ↔ a = b := by simp [eq]
theorem ne_iff {a b : Id} : ne a b = true ↔ a ≠ b := by simp [ne]
theorem lt_iff {a b : Id} : lt a b = true ↔ a.toNat < b.toNat := by simp [lt, BitVec.ult]
theorem gt_iff {a b : Id} : gt a b = true ↔ b.toNat < a.toNat := by simp [gt, BitVec.ult]
theorem le_iff {a b : Id} : le a b = true ↔ a.toNat ≤ b.toNat := by simp [le, gt, BitVec.ult]
theorem ge_iff {a b : Id} : ge a b = true ↔ b.toNat ≤ a.toNat := by simp [ge, lt, BitVec.ult]

/-- The six comparisons form a total order consistent with equality; ids that refer to nothing are equal, and less than all others. -/
theorem C59_total_order (a b c : Id) :
    -- equality is an equivalence, `!=` its negation
    eq a a = true ∧ (eq a b = eq b a) ∧ (eq a b = true → eq b c = true → eq a c = true) ∧ (ne a b = ! eq a b) ∧
    -- exactly one of `<`, `==`, `>`
    ((lt a b = true ∧ eq a b = false ∧ gt a b = false) ∨ (lt a b = false ∧ eq a b = true ∧ gt a b = false) ∨ (lt a b = false ∧ eq a b = false ∧ gt a b = true)) ∧
    -- transitivity
    (lt a b = true → lt b c = true → lt a c = true) ∧
    -- the other operators
    (gt a b = lt b a) ∧ (le a b = (lt a b || eq a b)) ∧ (ge a b = (gt a b || eq a b)) ∧
    -- ids of no fiber
    (toBool a = ! not a) ∧ (not a = eq a none_) ∧ (ne a none_ = true → lt none_ a = true) := by
  have e : a = b ↔ a.toNat = b.toNat := BitVec.toNat_inj.symm
  refine ⟨by simp [eq], ?_, ?_, rfl, ?_, ?_, rfl, ?_, ?_, rfl, rfl, ?_⟩
  · rw [Bool.eq_iff_iff, eq_iff, eq_iff]; exact eq_comm
  · rw [eq_iff, eq_iff, eq_iff]; exact Eq.trans
  · simp only [← Bool.not_eq_true, lt_iff, gt_iff, eq_iff, e]; omega
  · rw [lt_iff, lt_iff, lt_iff]; exact Nat.lt_trans
  · rw [Bool.eq_iff_iff, Bool.or_eq_true, le_iff, lt_iff, eq_iff, e]; omega
  · rw [Bool.eq_iff_iff, Bool.or_eq_true, ge_iff, gt_iff, eq_iff, e]; omega
  · rw [ne_iff, lt_iff]
    intro h
    have : a.toNat ≠ (0 : Id).toNat := fun h' => h (BitVec.toNat_inj.1 h')
    have h0 : (none_).toNat = 0 := rfl
    have h1 : (0 : Id).toNat = 0 := rfl
    omega

/-! ## Kinds -/

/-- Every kind of fiber can be told from the others, and pinned fibers are those of the library and of the thread. -/
theorem C59_kinds (k : Kind) :
    (isContext k.ty tyMain = true ↔ k = .main) ∧ (isContext k.ty tyDispatcher = true ↔ k = .dispatcher) ∧ (isContext k.ty tyWorker = true ↔ k = .worker) ∧
    (isContext k.ty tyPinned = true ↔ k = .main ∨ k = .dispatcher) ∧ isContext k.ty tyNone = false := by
  cases k <;> decide

/-! ## Identity -/

structure Inv (s : State) : Prop where
  /-- every control block is in the memory allocated for the fiber, not empty -/
  inn : ∀ r ∈ s.live, r.lo ≤ r.this.toNat ∧ r.this.toNat < r.lo + r.len ∧ 0 < r.lo
  disj : s.live.Pairwise fun r q => r.fiber ≠ q.fiber ∧ (r.lo + r.len ≤ q.lo ∨ q.lo + q.len ≤ r.lo)
  used : ∀ r ∈ s.live, r.fiber ∈ s.used

theorem unused_iff {s : State} {lo len : Nat} (h : unused s lo len = true) : 0 < lo ∧ ∀ r ∈ s.live, lo + len ≤ r.lo ∨ r.lo + r.len ≤ lo := by
  simp only [unused, Bool.and_eq_true, decide_eq_true_eq, List.all_eq_true, Bool.or_eq_true] at h
  exact h

theorem inv_step {s s' : State} {e : Event} {o : List Obs} (h : Inv s) (hs : step s e = some (s', o)) : Inv s' := by
  cases e with
  | main f a n =>
    simp only [step] at hs
    split at hs
    case isFalse => cases hs
    rename_i hg
    obtain ⟨h1, h2, h3⟩ := hg
    obtain ⟨h4, h5⟩ := unused_iff h3
    cases hs
    refine ⟨?_, List.pairwise_cons.2 ⟨?_, h.disj⟩, ?_⟩
    · intro r hr
      rcases List.mem_cons.1 hr with rfl | hr
      · exact ⟨Nat.le_refl _, by dsimp only; omega, h4⟩
      · exact h.inn r hr
    · intro q hq
      exact ⟨fun e => h1 (by have := h.used q hq; rw [← e] at this; exact this), h5 q hq⟩
    · intro r hr
      rcases List.mem_cons.1 hr with rfl | hr
      · simp
      · exact List.mem_cons_of_mem _ (h.used r hr)
  | onStack f k st n =>
    simp only [step] at hs
    split at hs
    case isFalse => cases hs
    rename_i hg
    obtain ⟨h1, _, h2, hn, hv, h3⟩ := hg
    obtain ⟨h4, h5⟩ := unused_iff h3
    cases hs
    have hin := C58_inside (s := st) (n := n) hv hn (storage st n).toNat ⟨Nat.le_refl _, by simp only [block]; omega⟩
    refine ⟨?_, List.pairwise_cons.2 ⟨?_, h.disj⟩, ?_⟩
    · intro r hr
      rcases List.mem_cons.1 hr with rfl | hr
      · exact ⟨hin.1, hin.2, h4⟩
      · exact h.inn r hr
    · intro q hq
      exact ⟨fun e => h1 (by have := h.used q hq; rw [← e] at this; exact this), h5 q hq⟩
    · intro r hr
      rcases List.mem_cons.1 hr with rfl | hr
      · simp
      · exact List.mem_cons_of_mem _ (h.used r hr)
  | free f =>
    simp only [step] at hs
    split at hs
    case isFalse => cases hs
    cases hs
    refine ⟨?_, List.Pairwise.sublist List.filter_sublist h.disj, ?_⟩
    · intro r hr; exact h.inn r (List.mem_filter.1 hr |>.1)
    · intro r hr; exact h.used r (List.mem_filter.1 hr |>.1)

theorem reach_inv {s : State} {tr : List Obs} (h : Reach step init s tr) : Inv s :=
  h.inv (fun s _ => Inv s) ⟨by simp [init], by simp [init], by simp [init]⟩ fun _ _ _ _ _ _ hi hs => inv_step hi hs

/-- The ids of fibers that exist are equal iff the fibers are the same, and are not the id of no fiber. Not covered: ids kept beyond the
end of the fiber. -/
theorem C59_identity_partial {s : State} {tr : List Obs} (h : Reach step init s tr) {r q : Rec} (hr : r ∈ s.live) (hq : q ∈ s.live) :
    (eq r.this q.this = true ↔ r.fiber = q.fiber) ∧ eq r.this none_ = false := by
  have hi := reach_inv h
  obtain ⟨a1, a2, a3⟩ := hi.inn r hr
  obtain ⟨b1, b2, b3⟩ := hi.inn q hq
  have key : ∀ {l : List Rec}, l.Pairwise (fun r q => r.fiber ≠ q.fiber ∧ (r.lo + r.len ≤ q.lo ∨ q.lo + q.len ≤ r.lo)) → ∀ r ∈ l, ∀ q ∈ l,
      r = q ∨ (r.fiber ≠ q.fiber ∧ (r.lo + r.len ≤ q.lo ∨ q.lo + q.len ≤ r.lo)) := by
    intro l hl
    induction l with
    | nil => intro r hr; cases hr
    | cons x l ih =>
      obtain ⟨h1, h2⟩ := List.pairwise_cons.1 hl
      intro r hr q hq
      rcases List.mem_cons.1 hr with hr' | hr' <;> rcases List.mem_cons.1 hq with hq' | hq'
      · exact Or.inl (hr'.trans hq'.symm)
      · rw [hr']; exact Or.inr (h1 q hq')
      · rw [hq']; obtain ⟨h3, h4⟩ := h1 r hr'; exact Or.inr ⟨h3.symm, h4.symm⟩
      · exact ih h2 r hr' q hq'
  constructor
  · rw [eq_iff]
    rcases key hi.disj r hr q hq with rfl | ⟨h1, h2⟩
    · simp
    · constructor
      · intro e
        rw [e] at a1 a2
        omega
      · intro e; exact absurd e h1
  · rw [Bool.eq_false_iff]
    intro e
    have e := eq_iff.1 e
    rw [e] at a1
    have h0 : (none_).toNat = 0 := rfl
    omega

/-- What `get_id()` returned when the fiber was created is its id as long as it exists. -/
theorem C59_stable {s : State} {tr : List Obs} (h : Reach step init s tr) {r : Rec} (hr : r ∈ s.live) : Obs.id r.fiber r.this ∈ tr := by
  revert r
  refine h.inv (fun s tr => ∀ {r : Rec}, r ∈ s.live → Obs.id r.fiber r.this ∈ tr) (by simp [init]) ?_
  intro s tr e s' o _ hi hs r hr
  cases e with
  | main f a n =>
    simp only [step] at hs
    split at hs
    case isFalse => cases hs
    cases hs
    rcases List.mem_cons.1 hr with rfl | hr
    · simp
    · exact List.mem_append_left _ (hi hr)
  | onStack f k st n =>
    simp only [step] at hs
    split at hs
    case isFalse => cases hs
    cases hs
    rcases List.mem_cons.1 hr with rfl | hr
    · simp
    · exact List.mem_append_left _ (hi hr)
  | free f =>
    simp only [step] at hs
    split at hs
    case isFalse => cases hs
    cases hs
    exact List.mem_append_left _ (hi (List.mem_filter.1 hr |>.1))

/-- A main fiber, its dispatcher and two workers, all with memory side by side. -/
example : ∃ s tr, Reach step init s tr ∧ s.live.map (·.fiber) = [3, 2, 1, 0] ∧ s.live.map (·.this) = [0x23d00, 0x22d00, 0x21d00, 0x1000] :=
  ⟨_, _, reach_of_exec (es := [.main 0 0x1000 600, .onStack 1 .dispatcher ⟨0x22000, 0x1000⟩ 600, .onStack 2 .worker ⟨0x23000, 0x1000⟩ 600,
    .onStack 3 .worker ⟨0x24000, 0x1000⟩ 600]) rfl, by decide, by decide⟩

/-- An id kept beyond the end of the fiber may equal that of a later fiber, which got the same memory. -/
theorem C59_stale_alias : ∃ s, Reach step init s [.id 0 0x22d00, .gone 0, .id 1 0x22d00] :=
  ⟨_, reach_of_exec (es := [.onStack 0 .worker ⟨0x23000, 0x1000⟩ 600, .free 0, .onStack 1 .worker ⟨0x23000, 0x1000⟩ 600]) rfl⟩

end Verif.Ident
