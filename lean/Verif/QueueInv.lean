import Verif.WakerLemmas

/-!
# The invariant of a wait queue

Shared by every component that owns a `wait_queue`: the component says, for each fiber, whether it is
registered (between `suspend_and_wait*` and the return from it), with which waker epoch and with which
deadline, and gets back that the queue holds exactly the registrations that can still be notified.
-/

namespace Verif

/-- A registration: the epoch of the waker and, for `suspend_and_wait_until`, the deadline. -/
structure Reg where
  ep : Nat
  dl : Option Nat
  deriving DecidableEq, Repr

structure QInv (c : Ctxs) (q : List Waker) (now : Nat) (reg : Fid → Option Reg) : Prop where
  nodup : (q.map (·.ctx)).Nodup
  mem : ∀ w ∈ q, ∃ dl, reg w.ctx = some ⟨w.ep, dl⟩
  bound : ∀ f r, reg f = some r → c.epoch f = r.ep ∨ c.epoch f = r.ep + 1
  live : ∀ f r, reg f = some r → c.epoch f = r.ep → ⟨f, r.ep⟩ ∈ q ∧ c.ready f = false
  gone : ∀ f r, reg f = some r → c.epoch f = r.ep + 1 → ⟨f, r.ep⟩ ∈ q →
    ∃ d, r.dl = some d ∧ d ≤ now

theorem QInv.init : QInv Ctxs.init [] 0 (fun _ => none) := by
  constructor <;> simp

/-- Only the contexts of registered fibers matter. -/
theorem QInv.frame {c c' : Ctxs} {q : List Waker} {now now' : Nat} {reg : Fid → Option Reg}
    (h : QInv c q now reg) (hn : now ≤ now')
    (he : ∀ f, reg f ≠ none → c'.epoch f = c.epoch f)
    (hr : ∀ f r, reg f = some r → c.epoch f = r.ep → c.ready f = false → c'.ready f = false) :
    QInv c' q now' reg := by
  constructor
  · exact h.nodup
  · exact h.mem
  · intro f r hf; rw [he f (by simp [hf])]; exact h.bound f r hf
  · intro f r hf h1; rw [he f (by simp [hf])] at h1
    have := h.live f r hf h1
    exact ⟨this.1, hr f r hf h1 this.2⟩
  · intro f r hf h1 h2; rw [he f (by simp [hf])] at h1
    obtain ⟨d, h3, h4⟩ := h.gone f r hf h1 h2
    exact ⟨d, h3, by omega⟩

theorem QInv.congr {c : Ctxs} {q : List Waker} {now : Nat} {reg reg' : Fid → Option Reg}
    (h : QInv c q now reg) (e : ∀ f, reg' f = reg f) : QInv c q now reg' := by
  have : reg' = reg := funext e
  exact this ▸ h

theorem QInv.not_mem_of_none {c : Ctxs} {q : List Waker} {now : Nat} {reg : Fid → Option Reg}
    (h : QInv c q now reg) {f : Fid} (hf : reg f = none) : ∀ w ∈ q, w.ctx ≠ f := by
  intro w hw he
  obtain ⟨dl, h1⟩ := h.mem w hw
  rw [he, hf] at h1; cases h1

/-- `suspend_and_wait*`: an unregistered fiber appends a fresh waker. -/
theorem QInv.enqueue {c : Ctxs} {q : List Waker} {now : Nat} {reg reg' : Fid → Option Reg} {f : Fid}
    {dl : Option Nat}
    (h : QInv c q now reg) (hf : reg f = none) (hr : c.ready f = false)
    (hreg : ∀ g, reg' g = if g = f then some ⟨c.epoch f + 1, dl⟩ else reg g) :
    QInv (enqueue c q f).1 (enqueue c q f).2 now reg' := by
  have hnm := h.not_mem_of_none hf
  obtain ⟨h1, h2, h3, h4, h5⟩ := h
  simp only [Verif.enqueue, createWaker]
  constructor
  · rw [List.map_append, List.nodup_append]
    refine ⟨h1, by simp, ?_⟩
    simp; intro w hw; exact hnm w hw
  · intro w hw
    simp only [List.mem_append, List.mem_singleton] at hw
    rcases hw with hw | rfl
    · have := hnm w hw; simp [hreg, this]; exact h2 w hw
    · simp [hreg]
  · intro g r hg
    by_cases hgf : g = f
    · simp [hreg, hgf] at hg; subst hg; left; simp [hgf]
    · simp [hreg, hgf] at hg ⊢; exact h3 g r hg
  · intro g r hg
    by_cases hgf : g = f
    · simp [hreg, hgf] at hg; subst hg; simp [hgf, hr]
    · simp [hreg, hgf] at hg ⊢; exact h4 g r hg
  · intro g r hg
    by_cases hgf : g = f
    · simp [hreg, hgf] at hg; subst hg; simp [hgf]
    · simp [hreg, hgf] at hg ⊢; exact h5 g r hg

/-- Waking a registered fiber through the waker at the head of a queue suffix, or by its timer. -/
theorem QInv.timer {c : Ctxs} {q : List Waker} {now : Nat} {reg : Fid → Option Reg} {f : Fid} {r : Reg}
    {d : Nat} (h : QInv c q now reg) (hf : reg f = some r) (hd : r.dl = some d) (hle : d ≤ now) :
    QInv (wake c ⟨f, r.ep⟩).1 q now reg := by
  by_cases hl : Live c ⟨f, r.ep⟩
  · rw [wake_live hl]
    obtain ⟨h1, h2, h3, h4, h5⟩ := h
    constructor
    · exact h1
    · exact h2
    · intro g x hg
      by_cases hgf : g = f
      · subst hgf; rw [hf] at hg; cases hg; right; simp
      · simp [hgf]; exact h3 g x hg
    · intro g x hg
      by_cases hgf : g = f
      · subst hgf; rw [hf] at hg; cases hg; simp
      · simp [hgf]; exact h4 g x hg
    · intro g x hg
      by_cases hgf : g = f
      · subst hgf; rw [hf] at hg; cases hg; intro _ _; exact ⟨d, hd, hle⟩
      · simp [hgf]; exact h5 g x hg
  · rw [wake_dead hl]; exact h

theorem QInv.suffix {c : Ctxs} {pre post : List Waker} {now : Nat} {reg : Fid → Option Reg}
    (h : QInv c (pre ++ post) now reg) (hp : ∀ w ∈ pre, ¬ Live c w) : QInv c post now reg := by
  obtain ⟨h1, h2, h3, h4, h5⟩ := h
  constructor
  · rw [List.map_append, List.nodup_append] at h1; exact h1.2.1
  · intro w hw; exact h2 w (by simp [hw])
  · exact h3
  · intro f r hf he
    have := h4 f r hf he
    refine ⟨?_, this.2⟩
    rcases List.mem_append.1 this.1 with hm | hm
    · exact absurd he (hp _ hm)
    · exact hm
  · intro f r hf he hm; exact h5 f r hf he (by simp [hm])

theorem QInv.wakeHead {c : Ctxs} {w : Waker} {q : List Waker} {now : Nat} {reg : Fid → Option Reg}
    (h : QInv c (w :: q) now reg) : QInv (wake c w).1 q now reg := by
  by_cases hl : Live c w
  · rw [wake_live hl]
    obtain ⟨h1, h2, h3, h4, h5⟩ := h
    obtain ⟨dl, hreg⟩ := h2 w (by simp)
    simp only [List.map_cons, List.nodup_cons] at h1
    constructor
    · exact h1.2
    · intro x hx; exact h2 x (by simp [hx])
    · intro g x hg
      by_cases hgf : g = w.ctx
      · subst hgf; rw [hreg] at hg; cases hg; right; simp
      · simp [hgf]; exact h3 g x hg
    · intro g x hg
      by_cases hgf : g = w.ctx
      · subst hgf; rw [hreg] at hg; cases hg; simp
      · simp [hgf]; intro he
        have := h4 g x hg he
        refine ⟨?_, this.2⟩
        rcases List.mem_cons.1 this.1 with hm | hm
        · exact absurd (by rw [← hm]) hgf
        · exact hm
    · intro g x hg
      by_cases hgf : g = w.ctx
      · subst hgf; rw [hreg] at hg; cases hg; intro _ hm
        exact absurd (List.mem_map_of_mem (f := (·.ctx)) hm) h1.1
      · simp [hgf]; intro he hm; exact h5 g x hg he (by simp [hm])
  · rw [wake_dead hl]
    exact QInv.suffix (pre := [w]) h (by simp [hl])

theorem QInv.notifyOne {c : Ctxs} {q : List Waker} {now : Nat} {reg : Fid → Option Reg}
    (h : QInv c q now reg) :
    QInv (notifyOne c q).1 (notifyOne c q).2.1 now reg := by
  rcases notifyOne_cases c q with ⟨h1, h2⟩ | ⟨pre, w, post, h1, h2, h3, h4⟩
  · rw [h2]; exact QInv.suffix (pre := q) (by simpa using h) h1
  · rw [h4]; subst h1
    exact (QInv.suffix h h2).wakeHead

theorem QInv.notifyAll {c : Ctxs} {q : List Waker} {now : Nat} {reg : Fid → Option Reg}
    (h : QInv c q now reg) : QInv (notifyAll c q).1 [] now reg := by
  induction q generalizing c with
  | nil => exact h
  | cons w ws ih => exact ih h.wakeHead

/-- The fiber leaves the wait (its entry, if still there, is unlinked). -/
theorem QInv.leave {c : Ctxs} {q : List Waker} {now : Nat} {reg reg' : Fid → Option Reg} {f : Fid} {r : Reg}
    (h : QInv c q now reg) (hf : reg f = some r)
    (hreg : ∀ g, reg' g = if g = f then none else reg g) :
    QInv (consumeReady c f) (q.filter (· ≠ ⟨f, r.ep⟩)) now reg' := by
  obtain ⟨h1, h2, h3, h4, h5⟩ := h
  constructor
  · exact List.Nodup.sublist (List.Sublist.map _ List.filter_sublist) h1
  · intro w hw
    simp only [ne_eq, List.mem_filter, decide_eq_true_eq] at hw
    have hne : w.ctx ≠ f := by
      intro he
      obtain ⟨dl, h6⟩ := h2 w hw.1
      rw [he, hf] at h6
      cases h6
      apply hw.2; cases w; simp_all
    simp [hreg, hne]; exact h2 w hw.1
  · intro g x hg
    by_cases hgf : g = f
    · simp [hreg, hgf] at hg
    · simp [hreg, hgf] at hg; exact h3 g x hg
  · intro g x hg
    by_cases hgf : g = f
    · simp [hreg, hgf] at hg
    · simp [hreg, hgf] at hg
      intro he
      have := h4 g x hg he
      simp [consumeReady, hgf, this]
  · intro g x hg
    by_cases hgf : g = f
    · simp [hreg, hgf] at hg
    · simp [hreg, hgf] at hg
      intro he hm; exact h5 g x hg he (List.mem_filter.1 hm).1

/-- If the entry is gone from the queue, unlinking does nothing. -/
theorem filter_ne_of_not_mem {q : List Waker} {w : Waker} (h : w ∉ q) : q.filter (· ≠ w) = q := by
  rw [List.filter_eq_self]; intro x hx; simp; intro he; exact h (he ▸ hx)

/-- A fiber resumed from an untimed wait, or before its deadline, was unlinked by whoever woke it
(the assertion `!w.is_linked()` of `src/waker.cpp:22`). -/
theorem QInv.unlinked {c : Ctxs} {q : List Waker} {now : Nat} {reg : Fid → Option Reg} {f : Fid} {r : Reg}
    (h : QInv c q now reg) (hf : reg f = some r) (hr : c.ready f = true)
    (hd : ∀ d, r.dl = some d → now < d) : ⟨f, r.ep⟩ ∉ q := by
  intro hm
  rcases h.bound f r hf with hb | hb
  · have := (h.live f r hf hb).2; simp_all
  · obtain ⟨d, h1, h2⟩ := h.gone f r hf hb hm
    have := hd d h1; omega

theorem consumeReady_of_not {c : Ctxs} {f : Fid} (h : c.ready f = false) : consumeReady c f = c := by
  cases c; simp only [consumeReady, Ctxs.mk.injEq, true_and]
  funext g; simp only [upd_apply]; split <;> simp_all

/-! ## Effect of notifications on single fibers -/

theorem wake_ready (c : Ctxs) (w : Waker) (f : Fid) :
    (wake c w).1.ready f = true ↔ (c.ready f = true ∨ (f = w.ctx ∧ Live c w)) := by
  by_cases hl : Live c w
  · rw [wake_live hl]; simp only [upd_apply]; split <;> simp_all
  · rw [wake_dead hl]; simp_all

theorem wake_epoch_ne (c : Ctxs) (w : Waker) {f : Fid} (h : f ≠ w.ctx) :
    (wake c w).1.epoch f = c.epoch f ∧ (wake c w).1.ready f = c.ready f := by
  by_cases hl : Live c w
  · rw [wake_live hl]; simp [h]
  · rw [wake_dead hl]; simp

/-- Notifications touch only registered fibers. -/
theorem notifyOne_frame {c : Ctxs} {q : List Waker} {f : Fid} (h : ∀ w ∈ q, w.ctx ≠ f) :
    (notifyOne c q).1.epoch f = c.epoch f ∧ (notifyOne c q).1.ready f = c.ready f := by
  rcases notifyOne_cases c q with ⟨h1, h2⟩ | ⟨pre, w, post, h1, h2, h3, h4⟩
  · rw [h2]; simp
  · rw [h4]; exact wake_epoch_ne c w (Ne.symm (h w (by simp [h1])))

theorem notifyAll_frame {q : List Waker} {f : Fid} : ∀ {c : Ctxs}, (∀ w ∈ q, w.ctx ≠ f) →
    (notifyAll c q).1.epoch f = c.epoch f ∧ (notifyAll c q).1.ready f = c.ready f := by
  induction q with
  | nil => intro c _; simp [notifyAll]
  | cons w ws ih =>
    intro c h
    have h1 := ih (c := (wake c w).1) (fun x hx => h x (by simp [hx]))
    have h2 := wake_epoch_ne c w (Ne.symm (h w (by simp)))
    exact ⟨h1.1.trans h2.1, h1.2.trans h2.2⟩

theorem notifyOne_ready_mono {c : Ctxs} {q : List Waker} {f : Fid} (h : c.ready f = true) :
    (notifyOne c q).1.ready f = true := by
  rcases notifyOne_cases c q with ⟨h1, h2⟩ | ⟨pre, w, post, h1, h2, h3, h4⟩
  · rw [h2]; exact h
  · rw [h4]; exact (wake_ready c w f).2 (Or.inl h)

theorem notifyAll_ready_mono {q : List Waker} {f : Fid} : ∀ {c : Ctxs}, c.ready f = true →
    (notifyAll c q).1.ready f = true := by
  induction q with
  | nil => intro c h; exact h
  | cons w ws ih => intro c h; exact ih ((wake_ready c w f).2 (Or.inl h))

/-- Epochs only grow, and a grown epoch means a wake-up. -/
theorem wake_changed (c : Ctxs) (w : Waker) (f : Fid) :
    ((wake c w).1.epoch f = c.epoch f ∧ (wake c w).1.ready f = c.ready f) ∨
    ((wake c w).1.epoch f = c.epoch f + 1 ∧ (wake c w).1.ready f = true) := by
  by_cases hl : Live c w
  · rw [wake_live hl]; have hl' : c.epoch w.ctx = w.ep := hl
    simp only [upd_apply]; split <;> simp_all
  · rw [wake_dead hl]; simp

theorem notifyOne_changed (c : Ctxs) (q : List Waker) (f : Fid) :
    ((notifyOne c q).1.epoch f = c.epoch f ∧ (notifyOne c q).1.ready f = c.ready f) ∨
    ((notifyOne c q).1.epoch f = c.epoch f + 1 ∧ (notifyOne c q).1.ready f = true) := by
  rcases notifyOne_cases c q with ⟨h1, h2⟩ | ⟨pre, w, post, h1, h2, h3, h4⟩
  · rw [h2]; simp
  · rw [h4]; exact wake_changed c w f

theorem notifyAll_changed {c : Ctxs} {q : List Waker} (hn : (q.map (·.ctx)).Nodup) (f : Fid) :
    ((notifyAll c q).1.epoch f = c.epoch f ∧ (notifyAll c q).1.ready f = c.ready f) ∨
    ((notifyAll c q).1.epoch f = c.epoch f + 1 ∧ (notifyAll c q).1.ready f = true) := by
  obtain ⟨h1, h2, _⟩ := notifyAll_spec q c hn
  rw [h1 f, h2 f]
  split <;> simp

/-! ## The fibers that can still be notified, in queue order -/

def liveList (c : Ctxs) (q : List Waker) : List Fid := (q.filter (fun w => Live c w)).map (·.ctx)

theorem liveList_congr {q : List Waker} {c c' : Ctxs} (h : ∀ w ∈ q, c'.epoch w.ctx = c.epoch w.ctx) :
    liveList c' q = liveList c q := by
  unfold liveList; congr 1
  apply List.filter_congr; intro w hw; exact decide_eq_decide.2 (by rw [Live, Live, h w hw])

theorem mem_liveList {c : Ctxs} {q : List Waker} {now : Nat} {reg : Fid → Option Reg} (h : QInv c q now reg)
    (f : Fid) : f ∈ liveList c q ↔ ∃ r, reg f = some r ∧ c.epoch f = r.ep := by
  unfold liveList
  simp only [List.mem_map, List.mem_filter, decide_eq_true_eq]
  constructor
  · rintro ⟨w, ⟨hw, hl⟩, rfl⟩
    obtain ⟨dl, h⟩ := h.mem w hw
    exact ⟨_, h, hl⟩
  · rintro ⟨r, h1, h2⟩
    exact ⟨⟨f, r.ep⟩, ⟨(h.live f r h1 h2).1, h2⟩, rfl⟩

theorem liveList_enqueue {c : Ctxs} {q : List Waker} {f : Fid} (h : ∀ w ∈ q, w.ctx ≠ f) :
    liveList (enqueue c q f).1 (enqueue c q f).2 = liveList c q ++ [f] := by
  have : liveList (enqueue c q f).1 q = liveList c q := by
    apply liveList_congr; intro w hw; simp [enqueue, createWaker, h w hw]
  rw [← this]
  simp [liveList, enqueue, createWaker, Live]

theorem liveList_timer {c : Ctxs} {q : List Waker} {now : Nat} {reg : Fid → Option Reg} {f : Fid} {r : Reg}
    (h : QInv c q now reg) (hf : reg f = some r) (hl : c.epoch f = r.ep) :
    liveList (wake c ⟨f, r.ep⟩).1 q = (liveList c q).filter (· ≠ f) := by
  have hl' : Live c ⟨f, r.ep⟩ := hl
  rw [wake_live hl']
  simp only [liveList, List.filter_map, List.filter_filter]
  congr 1
  apply List.filter_congr
  intro w hw
  by_cases hwf : w.ctx = f
  · obtain ⟨dl, hm⟩ := h.mem w hw
    rw [hwf, hf] at hm
    cases hm
    simp [Live, hwf]
  · have : Live { epoch := upd c.epoch f (r.ep + 1), ready := upd c.ready f true } w ↔ Live c w := by
      simp only [Live, upd_other _ _ hwf]
    simp [this, hwf]

theorem liveList_notifyOne {c : Ctxs} {q : List Waker} {now : Nat} {reg : Fid → Option Reg}
    (h : QInv c q now reg) :
    (notifyOne c q).2.2 = (liveList c q).head? ∧
    liveList (notifyOne c q).1 (notifyOne c q).2.1 = (liveList c q).tail := by
  rcases notifyOne_cases c q with ⟨ha, hb⟩ | ⟨pre, w, post, ha, hb, hc, hd⟩
  · have hnil : liveList c q = [] := by
      unfold liveList
      have : q.filter (fun w => decide (Live c w)) = [] := by
        rw [List.filter_eq_nil_iff]; simpa using ha
      simp [this]
    rw [hb, hnil]; simp [liveList]
  · have hpre : pre.filter (fun w => decide (Live c w)) = [] := by
      rw [List.filter_eq_nil_iff]; simpa using hb
    have hq : liveList c q = w.ctx :: liveList c post := by
      unfold liveList; rw [ha]; simp [hpre, hc]
    rw [hd, hq]
    have hnd := h.nodup
    rw [ha, List.map_append, List.nodup_append, List.map_cons, List.nodup_cons] at hnd
    refine ⟨rfl, ?_⟩
    simp only [List.tail_cons]
    apply liveList_congr
    intro x hx
    have hne : x.ctx ≠ w.ctx := by intro he; exact hnd.2.1.1 (he ▸ List.mem_map_of_mem hx)
    exact (wake_epoch_ne c w hne).1

theorem liveList_notifyAll {c : Ctxs} {q : List Waker} {now : Nat} {reg : Fid → Option Reg}
    (h : QInv c q now reg) : (notifyAll c q).2 = liveList c q :=
  (notifyAll_spec q c h.nodup).2.2

theorem liveList_unlink {c : Ctxs} {q : List Waker} {f : Fid} {ep : Nat} (h : c.epoch f ≠ ep) :
    liveList c (q.filter (· ≠ ⟨f, ep⟩)) = liveList c q := by
  unfold liveList
  congr 1
  rw [List.filter_filter]
  apply List.filter_congr
  intro w _
  by_cases hwf : w = ⟨f, ep⟩
  · subst hwf; simp [Live, h]
  · simp [hwf]

theorem nodup_liveList {c : Ctxs} {q : List Waker} {now : Nat} {reg : Fid → Option Reg}
    (h : QInv c q now reg) : (liveList c q).Nodup := by
  unfold liveList
  exact List.Nodup.sublist (List.Sublist.map _ List.filter_sublist) h.nodup

end Verif
