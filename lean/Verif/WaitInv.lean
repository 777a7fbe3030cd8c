import Verif.QueueInv

/-!
# The invariant of a component with any number of wait queues

Generalises `QInv`: queues are indexed by `ι`, and a registration also says in which queue it is and
whether the fiber has already been resumed too late and is about to unlink itself
(`src/waker.cpp:33-44`).
-/

namespace Verif

structure WReg (ι : Type) where
  q    : ι
  ep   : Nat
  dl   : Option Nat
  late : Bool
  deriving DecidableEq, Repr

variable {ι : Type} [DecidableEq ι]

/-- The registrations of one queue. -/
def sel (i : ι) : Option (WReg ι) → Option Reg
  | some r => if r.q = i then some ⟨r.ep, r.dl⟩ else none
  | none => none

theorem sel_some {i : ι} {o : Option (WReg ι)} {x : Reg} :
    sel i o = some x ↔ ∃ r, o = some r ∧ r.q = i ∧ x = ⟨r.ep, r.dl⟩ := by
  unfold sel; split
  · rename_i r
    simp only [Option.some.injEq, Option.ite_none_right_eq_some]
    constructor
    · rintro ⟨h1, h2⟩; exact ⟨r, rfl, h1, h2.symm⟩
    · rintro ⟨r', rfl, h1, h2⟩; exact ⟨h1, h2.symm⟩
  · simp

theorem sel_self (r : WReg ι) : sel r.q (some r) = some ⟨r.ep, r.dl⟩ := by simp [sel]

theorem sel_ne {r : WReg ι} {i : ι} (h : r.q ≠ i) : sel i (some r) = none := by simp [sel, h]

structure WInv (c : Ctxs) (q : ι → List Waker) (now : Nat) (reg : Fid → Option (WReg ι)) : Prop where
  qi   : ∀ i, QInv c (q i) now (fun f => sel i (reg f))
  off  : ∀ f, reg f = none → c.ready f = false
  rdy  : ∀ f r, reg f = some r → r.late = false → c.epoch f = r.ep + 1 → c.ready f = true
  late : ∀ f r, reg f = some r → r.late = true →
    c.epoch f = r.ep + 1 ∧ c.ready f = false ∧ ∃ d, r.dl = some d ∧ d ≤ now

namespace WInv

theorem init : WInv Ctxs.init (fun _ : ι => []) 0 (fun _ => none) := by
  refine ⟨fun i => QInv.init.congr (fun _ => rfl), ?_, ?_, ?_⟩ <;> simp [Ctxs.init]

variable {c : Ctxs} {q q' : ι → List Waker} {now : Nat} {reg reg' : Fid → Option (WReg ι)} {f : Fid} {i : ι}

theorem congr (h : WInv c q now reg) (hq : ∀ i, q' i = q i) (hr : ∀ f, reg' f = reg f) : WInv c q' now reg' := by
  have h1 : q' = q := funext hq
  have h2 : reg' = reg := funext hr
  subst h1 h2; exact h

/-- A fiber is blocked (suspended and not yet scheduled) iff its waker is still good. -/
theorem ready_iff (h : WInv c q now reg) {r : WReg ι} (hf : reg f = some r) (hl : r.late = false) :
    c.ready f = true ↔ c.epoch f = r.ep + 1 := by
  constructor
  · intro hr
    rcases (h.qi r.q).bound f ⟨r.ep, r.dl⟩ (by simp [hf, sel]) with hb | hb
    · have := ((h.qi r.q).live f ⟨r.ep, r.dl⟩ (by simp [hf, sel]) hb).2; simp_all
    · exact hb
  · exact h.rdy f r hf hl

theorem bound (h : WInv c q now reg) {r : WReg ι} (hf : reg f = some r) :
    c.epoch f = r.ep ∨ c.epoch f = r.ep + 1 :=
  (h.qi r.q).bound f ⟨r.ep, r.dl⟩ (by simp [hf, sel])

theorem not_ready_iff (h : WInv c q now reg) {r : WReg ι} (hf : reg f = some r) (hl : r.late = false) :
    c.ready f = false ↔ c.epoch f = r.ep := by
  have h1 := h.ready_iff hf hl
  have h2 := h.bound hf
  cases hr : c.ready f <;> simp [hr] at h1 ⊢ <;> omega

/-- Who can still be notified through queue `i`. -/
theorem mem_live (h : WInv c q now reg) :
    f ∈ liveList c (q i) ↔ ∃ r, reg f = some r ∧ r.q = i ∧ c.epoch f = r.ep := by
  rw [mem_liveList (h.qi i)]
  simp only [sel_some]
  constructor
  · rintro ⟨x, ⟨r, h1, h2, rfl⟩, h3⟩; exact ⟨r, h1, h2, h3⟩
  · rintro ⟨r, h1, h2, h3⟩; exact ⟨_, ⟨r, h1, h2, rfl⟩, h3⟩

theorem mem_live_iff (h : WInv c q now reg) :
    f ∈ liveList c (q i) ↔ ∃ r, reg f = some r ∧ r.q = i ∧ r.late = false ∧ c.ready f = false := by
  rw [h.mem_live]
  constructor
  · rintro ⟨r, h1, h2, h3⟩
    have hl : r.late = false := by
      cases hl : r.late
      · rfl
      · have := (h.late f r h1 hl).1; omega
    exact ⟨r, h1, h2, hl, (h.not_ready_iff h1 hl).2 h3⟩
  · rintro ⟨r, h1, h2, h3, h4⟩; exact ⟨r, h1, h2, (h.not_ready_iff h1 h3).1 h4⟩

theorem not_queued (h : WInv c q now reg) (hf : ∀ r, reg f = some r → r.q ≠ i) : ∀ w ∈ q i, w.ctx ≠ f := by
  apply (h.qi i).not_mem_of_none
  cases hr : reg f with
  | none => rfl
  | some r => exact sel_ne (hf r hr)

theorem nodup_live (h : WInv c q now reg) (i : ι) : (liveList c (q i)).Nodup := nodup_liveList (h.qi i)

/-- `suspend_and_wait`/`suspend_and_wait_until` up to the switch. -/
theorem enqueue (h : WInv c q now reg) {dl : Option Nat} (hf : reg f = none)
    (hq : ∀ j, q' j = if j = i then (enqueue c (q i) f).2 else q j)
    (hreg : ∀ g, reg' g = if g = f then some ⟨i, c.epoch f + 1, dl, false⟩ else reg g) :
    WInv (Verif.enqueue c (q i) f).1 q' now reg' := by
  have hep : ∀ g, (Verif.enqueue c (q i) f).1.epoch g = if g = f then c.epoch f + 1 else c.epoch g := fun g => rfl
  have hrd : ∀ g, (Verif.enqueue c (q i) f).1.ready g = c.ready g := fun g => rfl
  obtain ⟨qi, h1, h2, h3⟩ := h
  have hoff := h1 f hf
  refine ⟨?_, ?_, ?_, ?_⟩
  · intro j
    by_cases hj : j = i
    · subst hj; rw [hq]; simp only [if_true]
      refine (qi j).enqueue (f := f) (dl := dl) (by simp [hf, sel]) hoff ?_
      intro g; simp only [hreg]; split <;> simp [sel]
    · rw [hq, if_neg hj]
      refine QInv.congr (reg := fun g => sel j (reg g)) ?_ ?_
      · refine (qi j).frame (Nat.le_refl _) ?_ ?_
        · intro g hg; rw [hep]; split
          · subst_vars; simp [hf, sel] at hg
          · rfl
        · intro g r _ _ hr; rw [hrd]; exact hr
      · intro g; simp only [hreg]; split
        · subst_vars; simp [hf, sel, Ne.symm hj]
        · rfl
  all_goals simp only [hep, hrd, hreg]
  all_goals grind

/-- Resuming from an untimed wait, or from a timed one before its deadline. -/
theorem resume (h : WInv c q now reg) {r : WReg ι} (hf : reg f = some r) (hr : c.ready f = true)
    (hd : ∀ d, r.dl = some d → now < d)
    (hreg : ∀ g, reg' g = if g = f then none else reg g) :
    WInv (consumeReady c f) q now reg' := by
  have hep : ∀ g, (consumeReady c f).epoch g = c.epoch g := fun g => rfl
  have hrd : ∀ g, (consumeReady c f).ready g = if g = f then false else c.ready g := fun g => rfl
  obtain ⟨qi, h1, h2, h3⟩ := h
  refine ⟨?_, ?_, ?_, ?_⟩
  · intro j
    by_cases hj : r.q = j
    · subst hj
      have hs : sel r.q (reg f) = some ⟨r.ep, r.dl⟩ := by simp [hf, sel]
      have hu := (qi r.q).unlinked (f := f) hs hr hd
      have := (qi r.q).leave (f := f) (reg' := fun g => sel r.q (reg' g)) hs
        (by intro g; simp only [hreg]; split <;> simp [sel])
      rwa [filter_ne_of_not_mem hu] at this
    · refine QInv.congr (reg := fun g => sel j (reg g)) ?_ ?_
      · refine (qi j).frame (Nat.le_refl _) (by simp [hep]) ?_
        intro g r _ _ hx; rw [hrd]; split <;> simp [hx]
      · intro g; simp only [hreg]; split
        · subst_vars; simp [hf, sel, hj]
        · rfl
  all_goals simp only [hep, hrd, hreg]
  all_goals grind

/-- Resuming from a timed wait at or after its deadline: about to unlink. -/
theorem resumeLate (h : WInv c q now reg) {r : WReg ι} {d : Nat} (hf : reg f = some r) (hr : c.ready f = true)
    (hd : r.dl = some d) (hle : d ≤ now)
    (hreg : ∀ g, reg' g = if g = f then some { r with late := true } else reg g) :
    WInv (consumeReady c f) q now reg' := by
  have hep : ∀ g, (consumeReady c f).epoch g = c.epoch g := fun g => rfl
  have hrd : ∀ g, (consumeReady c f).ready g = if g = f then false else c.ready g := fun g => rfl
  have hb := h.bound hf
  have hnl := (h.qi r.q).live f ⟨r.ep, r.dl⟩ (by simp [hf, sel])
  obtain ⟨qi, h1, h2, h3⟩ := h
  refine ⟨?_, ?_, ?_, ?_⟩
  · intro j
    refine QInv.congr (reg := fun g => sel j (reg g)) ?_ ?_
    · refine (qi j).frame (Nat.le_refl _) (by simp [hep]) ?_
      intro g r _ _ hx; rw [hrd]; split <;> simp [hx]
    · intro g; simp only [hreg]; split
      · subst_vars; simp [hf, sel]
      · rfl
  all_goals simp only [hep, hrd, hreg]
  all_goals grind

/-- The late waiter takes the spinlock and unlinks its entry. -/
theorem unlink (h : WInv c q now reg) {r : WReg ι} (hf : reg f = some r) (hl : r.late = true)
    (hq : ∀ j, q' j = if j = r.q then (q r.q).filter (· ≠ ⟨f, r.ep⟩) else q j)
    (hreg : ∀ g, reg' g = if g = f then none else reg g) : WInv c q' now reg' := by
  obtain ⟨qi, h1, h2, h3⟩ := h
  have hlt := h3 f r hf hl
  refine ⟨?_, ?_, ?_, ?_⟩
  · intro j
    by_cases hj : j = r.q
    · subst hj; rw [hq]; simp only [if_true]
      have := (qi r.q).leave (f := f) (reg' := fun g => sel r.q (reg' g)) (r := ⟨r.ep, r.dl⟩) (by simp [hf, sel])
        (by intro g; simp only [hreg]; split <;> simp [sel])
      rwa [consumeReady_of_not hlt.2.1] at this
    · rw [hq, if_neg hj]
      refine QInv.congr (reg := fun g => sel j (reg g)) (qi j) ?_
      intro g; simp only [hreg]; split
      · subst_vars; simp [hf, sel, Ne.symm hj]
      · rfl
  all_goals simp only [hreg]
  all_goals grind

/-- `notify_one` on queue `i`. -/
theorem notifyOne (h : WInv c q now reg) (i : ι)
    (hq : ∀ j, q' j = if j = i then (notifyOne c (q i)).2.1 else q j) :
    WInv (Verif.notifyOne c (q i)).1 q' now reg := by
  have hch := notifyOne_changed c (q i)
  have hfr : ∀ g, (∀ r, reg g = some r → r.q ≠ i) → _ := fun g hg =>
    notifyOne_frame (c := c) (q := q i) (f := g) (h.not_queued hg)
  have hbd := fun g => (h.qi i).notifyOne.bound g
  obtain ⟨qi, h1, h2, h3⟩ := h
  refine ⟨?_, ?_, ?_, ?_⟩
  · intro j
    by_cases hj : j = i
    · subst hj; rw [hq]; simp only [if_true]; exact (qi j).notifyOne
    · rw [hq, if_neg hj]
      have key : ∀ g, sel j (reg g) ≠ none → ∀ r, reg g = some r → r.q ≠ i := by
        intro g hg r hr he; simp [hr, sel, he, Ne.symm hj] at hg
      refine (qi j).frame (Nat.le_refl _) ?_ ?_
      · intro g hg; exact (hfr g (key g hg)).1
      · intro g r hg _ hx; rw [(hfr g (key g (by simp [hg]))).2]; exact hx
  · intro g hg; rw [(hfr g (by simp [hg])).2]; exact h1 g hg
  · intro g r hg hl he
    rcases hch g with ⟨ha, hb⟩ | ⟨ha, hb⟩
    · rw [hb]; rw [ha] at he; exact h2 g r hg hl he
    · exact hb
  · intro g r hg hl
    have hlt := h3 g r hg hl
    have hge : (Verif.notifyOne c (q i)).1.epoch g = c.epoch g := by
      rcases hch g with ⟨ha, hb⟩ | ⟨ha, hb⟩
      · exact ha
      · by_cases hri : r.q = i
        · have := hbd g ⟨r.ep, r.dl⟩ (by simp [hg, sel, hri]); simp only at this; omega
        · have := (hfr g (by intro r' hr'; rw [hg] at hr'; cases hr'; exact hri)).1; omega
    rcases hch g with ⟨ha, hb⟩ | ⟨ha, hb⟩
    · rw [ha, hb]; exact hlt
    · omega

/-- `notify_all` on queue `i`. -/
theorem notifyAll (h : WInv c q now reg) (i : ι)
    (hq : ∀ j, q' j = if j = i then [] else q j) :
    WInv (Verif.notifyAll c (q i)).1 q' now reg := by
  have hch := notifyAll_changed (c := c) (h.qi i).nodup
  have hfr : ∀ g, (∀ r, reg g = some r → r.q ≠ i) → _ := fun g hg =>
    notifyAll_frame (c := c) (q := q i) (f := g) (h.not_queued hg)
  have hbd := fun g => (h.qi i).notifyAll.bound g
  obtain ⟨qi, h1, h2, h3⟩ := h
  refine ⟨?_, ?_, ?_, ?_⟩
  · intro j
    by_cases hj : j = i
    · subst hj; rw [hq]; simp only [if_true]; exact (qi j).notifyAll
    · rw [hq, if_neg hj]
      have key : ∀ g, sel j (reg g) ≠ none → ∀ r, reg g = some r → r.q ≠ i := by
        intro g hg r hr he; simp [hr, sel, he, Ne.symm hj] at hg
      refine (qi j).frame (Nat.le_refl _) ?_ ?_
      · intro g hg; exact (hfr g (key g hg)).1
      · intro g r hg _ hx; rw [(hfr g (key g (by simp [hg]))).2]; exact hx
  · intro g hg; rw [(hfr g (by simp [hg])).2]; exact h1 g hg
  · intro g r hg hl he
    rcases hch g with ⟨ha, hb⟩ | ⟨ha, hb⟩
    · rw [hb]; rw [ha] at he; exact h2 g r hg hl he
    · exact hb
  · intro g r hg hl
    have hlt := h3 g r hg hl
    have hge : (Verif.notifyAll c (q i)).1.epoch g = c.epoch g := by
      rcases hch g with ⟨ha, hb⟩ | ⟨ha, hb⟩
      · exact ha
      · by_cases hri : r.q = i
        · have := hbd g ⟨r.ep, r.dl⟩ (by simp [hg, sel, hri]); simp only at this; omega
        · have := (hfr g (by intro r' hr'; rw [hg] at hr'; cases hr'; exact hri)).1; omega
    rcases hch g with ⟨ha, hb⟩ | ⟨ha, hb⟩
    · rw [ha, hb]; exact hlt
    · omega

/-- The sleep queue wakes a fiber whose deadline has been reached. -/
theorem timer (h : WInv c q now reg) {r : WReg ι} {d : Nat} (hf : reg f = some r) (hl : r.late = false)
    (hd : r.dl = some d) (hle : d ≤ now) : WInv (wake c ⟨f, r.ep⟩).1 q now reg := by
  have hw := wake_changed c ⟨f, r.ep⟩
  have hn : ∀ g, g ≠ f → _ := fun g (hg : g ≠ f) => wake_epoch_ne c ⟨f, r.ep⟩ (f := g) hg
  have hb := h.bound hf
  obtain ⟨qi, h1, h2, h3⟩ := h
  refine ⟨?_, ?_, ?_, ?_⟩
  · intro j
    by_cases hj : r.q = j
    · subst hj; exact (qi r.q).timer (f := f) (r := ⟨r.ep, r.dl⟩) (by simp [hf, sel]) hd hle
    · have hnf : ∀ g, sel j (reg g) ≠ none → g ≠ f := by
        intro g hg he; simp [he, hf, sel, hj] at hg
      refine (qi j).frame (Nat.le_refl _) ?_ ?_
      · intro g hg; exact (hn g (hnf g hg)).1
      · intro g r hg _ hx; rw [(hn g (hnf g (by simp [hg]))).2]; exact hx
  all_goals intro g; have := hw g; have := hn g; grind

/-- A party that holds the waker directly (not through the queue) uses it; `q` is then only a ghost. -/
theorem wakeOut (h : WInv c q now reg) {r : WReg ι} (hf : reg f = some r) (hl : r.late = false)
    (hq : ∀ j, q' j = if j = r.q then (q r.q).filter (· ≠ ⟨f, r.ep⟩) else q j) :
    WInv (wake c ⟨f, r.ep⟩).1 q' now reg := by
  have hw := wake_changed c ⟨f, r.ep⟩
  have hn : ∀ g, g ≠ f → _ := fun g (hg : g ≠ f) => wake_epoch_ne c ⟨f, r.ep⟩ (f := g) hg
  have hb := h.bound hf
  have hlive : (wake c ⟨f, r.ep⟩).1.epoch f = r.ep + 1 := by
    simp only [wake]; split
    · simp
    · rename_i hne; simp only at hne ⊢; omega
  obtain ⟨qi, h1, h2, h3⟩ := h
  refine ⟨?_, ?_, ?_, ?_⟩
  · intro j
    by_cases hj : j = r.q
    · subst hj; rw [hq, if_pos rfl]
      obtain ⟨a1, a2, a3, a4, a5⟩ := qi r.q
      constructor
      · exact a1.sublist (List.filter_sublist.map _)
      · intro w hw'; exact a2 w (List.mem_filter.1 hw').1
      · intro g x hg
        by_cases hgf : g = f
        · subst hgf; simp [hf, sel] at hg; subst hg; exact Or.inr hlive
        · rw [(hn g hgf).1]; exact a3 g x hg
      · intro g x hg he
        by_cases hgf : g = f
        · subst hgf; simp [hf, sel] at hg; subst hg; simp only at he; omega
        · rw [(hn g hgf).1] at he
          rw [(hn g hgf).2]
          obtain ⟨b1, b2⟩ := a4 g x hg he
          refine ⟨List.mem_filter.2 ⟨b1, ?_⟩, b2⟩
          simp [hgf]
      · intro g x hg he hm
        by_cases hgf : g = f
        · subst hgf; simp [hf, sel] at hg; subst hg
          simp at hm
        · rw [(hn g hgf).1] at he
          exact a5 g x hg he (List.mem_filter.1 hm).1
    · rw [hq, if_neg hj]
      have hnf : ∀ g, sel j (reg g) ≠ none → g ≠ f := by
        intro g hg he; simp [he, hf, sel, Ne.symm hj] at hg
      refine (qi j).frame (Nat.le_refl _) ?_ ?_
      · intro g hg; exact (hn g (hnf g hg)).1
      · intro g r hg _ hx; rw [(hn g (hnf g (by simp [hg]))).2]; exact hx
  all_goals intro g; have := hw g; have := hn g; grind

theorem tick (h : WInv c q now reg) (n : Nat) : WInv c q (now + n) reg := by
  obtain ⟨qi, h1, h2, h3⟩ := h
  refine ⟨fun j => (qi j).frame (by simp) (by simp) (by simp), h1, h2, ?_⟩
  intro f r hf hl
  obtain ⟨a, b, d, e, g⟩ := h3 f r hf hl
  exact ⟨a, b, d, e, by omega⟩

theorem elsewhere (h : WInv c q now reg) (hf : reg f = none) (n : Nat) :
    WInv { c with epoch := upd c.epoch f (c.epoch f + n) } q now reg := by
  obtain ⟨qi, h1, h2, h3⟩ := h
  refine ⟨?_, h1, ?_, ?_⟩
  · intro j
    refine (qi j).frame (Nat.le_refl _) ?_ (by simp)
    intro g hgg; simp only [upd_apply]; split
    · subst_vars; simp [hf, sel] at hgg
    · rfl
  all_goals simp only [upd_apply]; grind

/-! ## The live lists along the same operations -/

theorem live_congr {c' : Ctxs} (h : WInv c q now reg)
    (he : ∀ g r, reg g = some r → r.q = i → c'.epoch g = c.epoch g) : liveList c' (q i) = liveList c (q i) := by
  apply liveList_congr
  intro w hw
  obtain ⟨dl, hm⟩ := (h.qi i).mem w hw
  obtain ⟨r, h1, h2, -⟩ := sel_some.1 hm
  exact he _ r h1 h2

theorem live_enqueue (h : WInv c q now reg) (hf : reg f = none)
    (hq : ∀ j, q' j = if j = i then (Verif.enqueue c (q i) f).2 else q j) (j : ι) :
    liveList (Verif.enqueue c (q i) f).1 (q' j) =
      if j = i then liveList c (q i) ++ [f] else liveList c (q j) := by
  rw [hq]
  split
  · exact liveList_enqueue (h.not_queued (by simp [hf]))
  · apply h.live_congr
    intro g r hg _; simp only [Verif.enqueue, createWaker, upd_apply]; grind

theorem notifyOne_eq (h : WInv c q now reg) (i : ι) :
    (Verif.notifyOne c (q i)).2.2 = (liveList c (q i)).head? := (liveList_notifyOne (h.qi i)).1

theorem live_notifyOne (h : WInv c q now reg)
    (hq : ∀ j, q' j = if j = i then (Verif.notifyOne c (q i)).2.1 else q j) (j : ι) :
    liveList (Verif.notifyOne c (q i)).1 (q' j) =
      if j = i then (liveList c (q i)).tail else liveList c (q j) := by
  rw [hq]
  split
  · exact (liveList_notifyOne (h.qi i)).2
  · rename_i hj
    apply h.live_congr
    intro g r hg hr
    exact (notifyOne_frame (h.not_queued (by
      intro r' hr' he; rw [hg] at hr'; cases hr'; exact hj (hr.symm.trans he)))).1

theorem notifyAll_eq (h : WInv c q now reg) (i : ι) :
    (Verif.notifyAll c (q i)).2 = liveList c (q i) := liveList_notifyAll (h.qi i)

theorem live_notifyAll (h : WInv c q now reg)
    (hq : ∀ j, q' j = if j = i then [] else q j) (j : ι) :
    liveList (Verif.notifyAll c (q i)).1 (q' j) = if j = i then [] else liveList c (q j) := by
  rw [hq]
  split
  · rfl
  · rename_i hj
    apply h.live_congr
    intro g r hg hr
    exact (notifyAll_frame (h.not_queued (by
      intro r' hr' he; rw [hg] at hr'; cases hr'; exact hj (hr.symm.trans he)))).1

/-- The timer of a fiber that has already been notified does nothing. -/
theorem wake_ok (r : WReg ι) : (wake c ⟨f, r.ep⟩).2 = decide (c.epoch f = r.ep) := by
  simp only [wake]; split <;> simp_all

theorem live_timer (h : WInv c q now reg) {r : WReg ι} (hf : reg f = some r) (j : ι) :
    liveList (wake c ⟨f, r.ep⟩).1 (q j) = (liveList c (q j)).filter (· ≠ f) := by
  by_cases hl : c.epoch f = r.ep
  · by_cases hj : r.q = j
    · subst hj; exact liveList_timer (h.qi r.q) (r := ⟨r.ep, r.dl⟩) (by simp [hf, sel]) hl
    · rw [h.live_congr]
      · symm; rw [List.filter_eq_self]
        intro g hg; simp only [ne_eq, decide_eq_true_eq]; rintro rfl
        obtain ⟨r', h1, h2, -⟩ := h.mem_live.1 hg
        rw [hf] at h1; cases h1; exact hj h2
      · intro g r' hg hr'
        exact (wake_epoch_ne c ⟨f, r.ep⟩ (by rintro rfl; rw [hf] at hg; cases hg; exact hj hr')).1
  · have hd : ¬ Live c ⟨f, r.ep⟩ := hl
    rw [wake_dead hd]
    symm; rw [List.filter_eq_self]
    intro g hg; simp only [ne_eq, decide_eq_true_eq]; rintro rfl
    obtain ⟨r', h1, h2, h3⟩ := h.mem_live.1 hg
    rw [hf] at h1; cases h1; exact hl h3

theorem live_consume (q : List Waker) : liveList (consumeReady c f) q = liveList c q :=
  liveList_congr (fun _ _ => rfl)

theorem live_unlink (h : WInv c q now reg) {r : WReg ι} (hf : reg f = some r) (hl : r.late = true)
    (hq : ∀ j, q' j = if j = r.q then (q r.q).filter (· ≠ ⟨f, r.ep⟩) else q j) (j : ι) :
    liveList c (q' j) = liveList c (q j) := by
  rw [hq]; split
  · subst_vars; exact liveList_unlink (by have := (h.late f r hf hl).1; omega)
  · rfl

theorem live_elsewhere (h : WInv c q now reg) (hf : reg f = none) (n : Nat) (j : ι) :
    liveList { c with epoch := upd c.epoch f (c.epoch f + n) } (q j) = liveList c (q j) := by
  apply h.live_congr; intro g r hg _; simp only [upd_apply]; grind

/-- Readiness after a notification: exactly the notified fiber becomes ready. -/
theorem ready_notifyOne (h : WInv c q now reg) (i : ι) (g : Fid) :
    (Verif.notifyOne c (q i)).1.ready g =
      (c.ready g || decide ((liveList c (q i)).head? = some g)) := by
  have h1 := (liveList_notifyOne (h.qi i)).1
  rcases notifyOne_cases c (q i) with ⟨ha, hb⟩ | ⟨pre, w, post, ha, hb, hc, hd⟩
  · rw [hb] at h1 ⊢; rw [← h1]; simp
  · rw [hd] at h1 ⊢; rw [← h1]
    have := wake_ready c w g
    simp only [Option.some.injEq]
    cases hg : (wake c w).1.ready g <;> cases hcg : c.ready g <;> simp [hg, hcg] at this ⊢ <;> grind

theorem ready_notifyAll (h : WInv c q now reg) (i : ι) (g : Fid) :
    (Verif.notifyAll c (q i)).1.ready g = (c.ready g || decide (g ∈ liveList c (q i))) := by
  rw [(notifyAll_spec (q i) c (h.qi i).nodup).2.1 g]
  have : (∃ w ∈ q i, w.ctx = g ∧ Live c w) ↔ g ∈ liveList c (q i) := by
    simp only [liveList, List.mem_map, List.mem_filter, decide_eq_true_eq]; grind
  simp only [this]
  split <;> simp_all

end WInv

end Verif
