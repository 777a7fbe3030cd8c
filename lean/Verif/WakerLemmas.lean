import Verif.Waker

/-! Helper lemmas about wakers and wait queues. -/

namespace Verif

/-- A queued waker that can still wake its fiber. -/
def Live (c : Ctxs) (w : Waker) : Prop := c.epoch w.ctx = w.ep

instance (c : Ctxs) (w : Waker) : Decidable (Live c w) := inferInstanceAs (Decidable (_ = _))

theorem wake_live {c : Ctxs} {w : Waker} (h : Live c w) :
    wake c w = ({ epoch := upd c.epoch w.ctx (w.ep + 1), ready := upd c.ready w.ctx true }, true) := by
  unfold Live at h; simp [wake, h]

theorem wake_dead {c : Ctxs} {w : Waker} (h : ¬ Live c w) : wake c w = (c, false) := by
  unfold Live at h; simp [wake, h]

/-- `notify_one` finds the first live waker, if any. -/
theorem notifyOne_cases (c : Ctxs) (q : List Waker) :
    ((∀ w ∈ q, ¬ Live c w) ∧ notifyOne c q = (c, [], none)) ∨
    (∃ pre w post, q = pre ++ w :: post ∧ (∀ x ∈ pre, ¬ Live c x) ∧ Live c w ∧
      notifyOne c q = ((wake c w).1, post, some w.ctx)) := by
  induction q with
  | nil => left; simp [notifyOne]
  | cons w ws ih =>
    by_cases h : Live c w
    · right
      refine ⟨[], w, ws, rfl, by simp, h, ?_⟩
      simp [notifyOne, wake_live h]
    · rcases ih with ⟨h1, h2⟩ | ⟨pre, x, post, h1, h2, h3, h4⟩
      · left
        refine ⟨by simpa [h] using h1, ?_⟩
        simp [notifyOne, wake_dead h, h2]
      · right
        refine ⟨w :: pre, x, post, by simp [h1], by simpa [h] using h2, h3, ?_⟩
        simp [notifyOne, wake_dead h, h4]

/-- Waking one waker does not change whether wakers of other contexts are live. -/
theorem live_wake_other {c : Ctxs} {w x : Waker} (h : x.ctx ≠ w.ctx) :
    Live (wake c w).1 x ↔ Live c x := by
  by_cases hw : Live c w
  · rw [wake_live hw]; simp [Live, h]
  · rw [wake_dead hw]

/-- The contexts after waking all wakers of a queue in which every fiber occurs at most once. -/
theorem notifyAll_spec (q : List Waker) : ∀ (c : Ctxs), (q.map (·.ctx)).Nodup →
    (∀ f, (notifyAll c q).1.epoch f =
        if ∃ w ∈ q, w.ctx = f ∧ Live c w then c.epoch f + 1 else c.epoch f) ∧
    (∀ f, (notifyAll c q).1.ready f =
        if ∃ w ∈ q, w.ctx = f ∧ Live c w then true else c.ready f) ∧
    (notifyAll c q).2 = (q.filter (fun w => Live c w)).map (·.ctx) := by
  induction q with
  | nil => intro c _; simp [notifyAll]
  | cons w ws ih =>
    intro c hn
    rw [List.map_cons, List.nodup_cons] at hn
    have hne : ∀ x ∈ ws, x.ctx ≠ w.ctx := by
      intro x hx he; exact hn.1 (he ▸ List.mem_map_of_mem hx)
    have hl : ∀ x ∈ ws, (Live (wake c w).1 x ↔ Live c x) := fun x hx => live_wake_other (hne x hx)
    obtain ⟨h1, h2, h3⟩ := ih (wake c w).1 hn.2
    have hex : ∀ f, (∃ x ∈ ws, x.ctx = f ∧ Live (wake c w).1 x) ↔ (∃ x ∈ ws, x.ctx = f ∧ Live c x) := by
      intro f
      constructor
      · rintro ⟨x, hx, hf, hlx⟩; exact ⟨x, hx, hf, (hl x hx).1 hlx⟩
      · rintro ⟨x, hx, hf, hlx⟩; exact ⟨x, hx, hf, (hl x hx).2 hlx⟩
    have hfil : ws.filter (fun x => decide (Live (wake c w).1 x)) = ws.filter (fun x => decide (Live c x)) := by
      apply List.filter_congr; intro x hx; simp [hl x hx]
    rw [hfil] at h3
    refine ⟨?_, ?_, ?_⟩
    · intro f
      have : (notifyAll c (w :: ws)).1 = (notifyAll (wake c w).1 ws).1 := rfl
      rw [this, h1 f]
      simp only [hex]
      by_cases hw : Live c w
      · have hw' := hw; unfold Live at hw'
        by_cases hf : w.ctx = f
        · subst hf
          have : ¬ ∃ x ∈ ws, x.ctx = w.ctx ∧ Live c x := by rintro ⟨x, hx, h, _⟩; exact hne x hx h
          simp [this, hw, wake_live hw]; omega
        · have : (wake c w).1.epoch f = c.epoch f := by
            rw [wake_live hw]; simp [Ne.symm hf]
          simp [this, hf]
      · simp [wake_dead hw, hw]
    · intro f
      have : (notifyAll c (w :: ws)).1 = (notifyAll (wake c w).1 ws).1 := rfl
      rw [this, h2 f]
      simp only [hex]
      by_cases hw : Live c w
      · by_cases hf : w.ctx = f
        · subst hf
          simp [hw, wake_live hw]
        · have : (wake c w).1.ready f = c.ready f := by
            rw [wake_live hw]; simp [Ne.symm hf]
          simp [this, hf]
      · simp [wake_dead hw, hw]
    · have : (notifyAll c (w :: ws)).2 =
        if (wake c w).2 then w.ctx :: (notifyAll (wake c w).1 ws).2 else (notifyAll (wake c w).1 ws).2 := rfl
      rw [this, h3]
      by_cases hw : Live c w
      · simp [wake_live hw, hw]
      · simp [wake_dead hw, hw]

end Verif
