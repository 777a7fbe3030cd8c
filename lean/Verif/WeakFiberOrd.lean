import Verif.WeakFiber

/-!
# Fibers under weak memory: the order of events in numbers
-/

namespace Verif.WeakFiber

open Weak

variable {tr : List Obs} {i j x : Nat} {f g : Fib}

/-- The order of the first `n` events. -/
def ord (tr : List Obs) (n : Nat) : Order := order (tr.take n)

theorem ord_succ {b : Obs} (h : tr[i]? = some b) : ord tr (i + 1) = (ord tr i).next b := by
  unfold ord order
  rw [List.take_add_one, h, Option.toList, List.foldl_append]; rfl

theorem ord_end (h : tr[i]? = none) : ord tr (i + 1) = ord tr i := by
  unfold ord order
  rw [List.take_add_one, h, Option.toList, List.append_nil]

theorem next_know (o : Order) (hc : ∀ f x, o.know f x ≤ o.count x) (b : Obs) (f : Fib) (x : Nat) : o.know f x ≤ (o.next b).know f x := by
  have := hc f x
  unfold Order.next
  split
  · dsimp only
    rw [upd_apply]; split
    · rename_i h; subst h; rw [upd_apply]; split
      · rename_i h; subst h; omega
      · exact Nat.le_refl _
    · exact Nat.le_refl _
  · dsimp only
    rw [upd_apply]; split
    · rename_i h; subst h; exact Nat.le_max_left _ _
    · exact Nat.le_refl _
  · dsimp only
    rw [upd_apply]; split
    · rename_i h; subst h; exact Nat.le_max_left _ _
    · exact Nat.le_refl _
  · exact Nat.le_refl _

theorem next_count (o : Order) (hc : ∀ f x, o.know f x ≤ o.count x) (b : Obs) (f : Fib) (x : Nat) : (o.next b).know f x ≤ (o.next b).count x := by
  have := hc f x
  unfold Order.next
  split
  · dsimp only
    simp only [upd_apply]
    split
    · rename_i h; subst h; simp only [upd_apply]; split
      · exact Nat.le_refl _
      · exact hc _ x
    · split
      · rename_i h; subst h; omega
      · exact this
  · dsimp only
    rw [upd_apply]; split
    · exact Nat.max_le.2 ⟨hc _ x, hc _ x⟩
    · exact this
  · dsimp only
    rw [upd_apply]; split
    · exact Nat.max_le.2 ⟨hc _ x, hc _ x⟩
    · exact this
  · exact this

theorem ord_bound (n : Nat) : ∀ f x, (ord tr n).know f x ≤ (ord tr n).count x := by
  induction n with
  | zero => intro f x; simp [ord, order]
  | succ n ih =>
    cases h : tr[n]? with
    | none => rw [ord_end h]; exact ih
    | some b => rw [ord_succ h]; exact next_count _ ih b

/-- Nothing is forgotten. -/
theorem ord_mono {m n : Nat} (h : m ≤ n) : (ord tr m).know f x ≤ (ord tr n).know f x := by
  induction n with
  | zero => have : m = 0 := by omega
            subst this; exact Nat.le_refl _
  | succ n ih =>
    by_cases he : m = n + 1
    · subst he; exact Nat.le_refl _
    · refine Nat.le_trans (ih (by omega)) ?_
      cases hb : tr[n]? with
      | none => rw [ord_end hb]; exact Nat.le_refl _
      | some b => rw [ord_succ hb]; exact next_know _ (ord_bound n) b f x

theorem HB.lt (h : HB tr i j) : i < j := by
  induction h with
  | prog _ h => exact h
  | launch _ _ h => exact h
  | join _ _ h => exact h
  | trans _ _ h1 h2 => exact Nat.lt_trans h1 h2

/-- What was known at the first event is known at the second. -/
theorem HB.know (h : HB tr i j) : ∃ a b f g, tr[i]? = some a ∧ tr[j]? = some b ∧ a.actor = some f ∧ b.actor = some g ∧
    ∀ x, (ord tr (i + 1)).know f x ≤ (ord tr (j + 1)).know g x := by
  induction h with
  | prog f h1 h2 h3 h4 h5 => exact ⟨_, _, f, f, h2, h3, h4, h5, fun x => ord_mono (by omega)⟩
  | launch f g h1 h2 h3 h4 =>
    refine ⟨_, _, f, g, h2, h3, rfl, h4, fun x => Nat.le_trans ?_ (ord_mono (f := g) (Nat.succ_le_succ (Nat.le_of_lt h1)))⟩
    rw [ord_succ h2]
    simp only [Order.next, upd_apply]
    split
    · exact Nat.max_le.2 ⟨by rename_i he; subst he; simp <;> omega, by simp <;> omega⟩
    · simp <;> omega
  | @join f g i j a h1 h2 h3 h4 =>
    refine ⟨_, _, g, f, h2, h4, h3, rfl, fun x => ?_⟩
    have h5 : (ord tr (i + 1)).know g x ≤ (ord tr j).know g x := ord_mono (by omega)
    rw [ord_succ h4]
    simp only [Order.next, upd_same]
    exact Nat.le_trans h5 (Nat.le_max_right _ _)
  | trans _ _ ih1 ih2 =>
    obtain ⟨a, b, f, g, h1, h2, h3, h4, h5⟩ := ih1
    obtain ⟨b', c, g', k, h6, h7, h8, h9, h10⟩ := ih2
    rw [h2] at h6; cases h6
    rw [h4] at h8; cases h8
    exact ⟨a, c, f, k, h1, h7, h3, h9, fun x => Nat.le_trans (h5 x) (h10 x)⟩

/-- … for uses of data: before the use. -/
theorem HB.before (h : HB tr i j) {r : Bool} (hj : tr[j]? = some (.acc g x r)) : ∃ a f, tr[i]? = some a ∧ a.actor = some f ∧
    ∀ x, (ord tr (i + 1)).know f x ≤ (ord tr j).know g x := by
  induction h with
  | prog f h1 h2 h3 h4 h5 =>
    rw [hj] at h3; cases h3; cases h5
    exact ⟨_, _, h2, h4, fun x => ord_mono (by omega)⟩
  | launch f g' h1 h2 h3 h4 =>
    rw [hj] at h3; cases h3; cases h4
    refine ⟨_, f, h2, rfl, fun x => Nat.le_trans ?_ (ord_mono (f := g) h1)⟩
    rw [ord_succ h2]
    simp only [Order.next, upd_apply]
    split
    · exact Nat.max_le.2 ⟨by rename_i he; subst he; simp <;> omega, by simp <;> omega⟩
    · simp <;> omega
  | join f g' h1 h2 h3 h4 => rw [hj] at h4; cases h4
  | trans h0 _ _ ih2 =>
    obtain ⟨b, g', h1, h2, h3⟩ := ih2 hj
    obtain ⟨a, b', f, g'', h4, h5, h6, h7, h8⟩ := h0.know
    rw [h1] at h5; cases h5
    rw [h2] at h7; cases h7
    exact ⟨a, f, h4, h6, fun x => Nat.le_trans (h8 x) (h3 x)⟩

/-- The last use of the data among the first `n` events. -/
theorem last_use (n : Nat) : (ord tr n).count x = 0 ∨ ∃ i f r, i < n ∧ tr[i]? = some (.acc f x r) ∧ (ord tr (i + 1)).know f x = (ord tr n).count x := by
  induction n with
  | zero => left; rfl
  | succ n ih =>
    cases hb : tr[n]? with
    | none =>
      rw [ord_end hb]
      rcases ih with h | ⟨i, f, r, h1, h2, h3⟩
      · exact .inl h
      · exact .inr ⟨i, f, r, by omega, h2, h3⟩
    | some b =>
      by_cases hx : ∃ f r, b = .acc f x r
      · obtain ⟨f, r, rfl⟩ := hx
        right
        refine ⟨n, f, r, by omega, hb, ?_⟩
        rw [ord_succ hb]
        simp only [Order.next, upd_same]
      · have hc : (ord tr (n + 1)).count x = (ord tr n).count x := by
          rw [ord_succ hb]
          unfold Order.next
          split
          · dsimp only
            rw [upd_apply, if_neg]
            rintro rfl
            exact hx ⟨_, _, rfl⟩
          · rfl
          · rfl
          · rfl
        rw [hc]
        rcases ih with h | ⟨i, f, r, h1, h2, h3⟩
        · exact .inl h
        · exact .inr ⟨i, f, r, by omega, h2, h3⟩

end Verif.WeakFiber
