import Verif.SchedA

/-! # Invariants of the scheduler: queues -/

namespace Verif.Sch

variable {s : State} {t : Tid} {x y : Cx}

/-! ### Queues -/

/-- The active context changes its program point. -/
theorem IB.relabel (h : IA s) (hb : IB s) (ha : s.active t = some x) {p : Pc} (hp : p.busy ∨ p = .user ∨ p = .top)
    (hps : ∀ y, p ≠ .push y) (hps' : ∀ y, s.pc x ≠ .push y) {fl sg : Tid → Bool} {nw : Nat} {sl wq tq : Tid → List Cx} {tp sep epoch : Cx → Nat}
    {sd : Tid → Bool} {pub : Cx → List Nat} :
    IB { s with pc := set s.pc x p, flag := fl, sig := sg, now := nw, sl := sl, tp := tp, sep := sep, epoch := epoch, pub := pub,
                wq := wq, tq := tq, sd := sd } := by
  have hh := h.actHome _ _ ha
  have h1 := h.actPc _ _ ha
  obtain ⟨b1, b2, b3, b4, b5, b6, b7, b8⟩ := hb
  simp only [State.home] at *
  constructor
  all_goals try assumption
  all_goals simp only [set_apply]
  · grind
  · grind
  · grind
  · grind
  · grind
  · grind

theorem IB.same (hb : IB s) {fl sg : Tid → Bool} {nw : Nat} {sl wq tq : Tid → List Cx} {tp sep epoch : Cx → Nat}
    {sd : Tid → Bool} {pub : Cx → List Nat} :
    IB { s with flag := fl, sig := sg, now := nw, sl := sl, tp := tp, sep := sep, epoch := epoch, pub := pub,
                wq := wq, tq := tq, sd := sd } := by
  obtain ⟨b1, b2, b3, b4, b5, b6, b7, b8⟩ := hb
  constructor <;> assumption

/-- A context that is nowhere becomes ready. -/
theorem IB.wake (h : IA s) (hb : IB s) {ep : Nat} (hy : s.pc y = .blocked ep) (ht : s.home y = t) {sl : Tid → List Cx} {epoch : Cx → Nat} :
    IB { s with pc := set s.pc y .user, rq := upd s.rq t (s.rq t ++ [y]), sl := sl, epoch := epoch } := by
  have h1 := h.actPc t y
  have h2 := h.kDisp
  obtain ⟨b1, b2, b3, b4, b5, b6, b7, b8⟩ := hb
  simp only [State.home] at *
  constructor
  all_goals try assumption
  all_goals simp only [set_apply, upd_apply]
  · grind
  · grind
  · grind
  · grind
  · grind
  · grind
  · grind

/-- A context is woken from another thread, which is going to push it. -/
theorem IB.wakeRemote (h : IA s) (hb : IB s) {ep : Nat} (hy : s.pc y = .blocked ep) (ha : s.active t = some x) (hu : s.pc x = .user)
    {epoch : Cx → Nat} :
    IB { s with pc := set (set s.pc y .user) x (.push y), epoch := epoch } := by
  have hh := h.actHome _ _ ha
  have h1 := h.actPc (s.home y) y
  have h2 := h.kDisp
  have hn : ∀ z, s.pc z ≠ .push y := fun z hz => by have := hb.ps z y hz; simp_all
  obtain ⟨b1, b2, b3, b4, b5, b6, b7, b8⟩ := hb
  simp only [State.home] at *
  constructor
  all_goals try assumption
  all_goals simp only [set_apply]
  · grind
  · grind
  · grind
  · intro z z' w h1 h2
    by_cases hz : z = x <;> by_cases hz' : z' = x
    · rw [hz, hz']
    · have := hn z'; clear b1 b3 b7 b8; grind
    · have := hn z; clear b1 b3 b7 b8; grind
    · clear b1 b3 b7 b8; grind
  · intro w hw
    by_cases hwx : w = x
    · grind
    · by_cases hwy : w = y
      · exact .inr (.inr (.inr ⟨x, by simp [hwy]⟩))
      · have h3 := b7 w (by simpa [hwx, hwy] using hw)
        refine h3.imp_right (Or.imp_right (Or.imp_right ?_))
        rintro ⟨z, hz⟩
        exact ⟨z, by grind⟩
  · grind

/-- The push to the remote queue. -/
theorem IB.push (h : IA s) (hb : IB s) (ha : s.active t = some x) (hp : s.pc x = .push y) :
    IB { s with pc := set s.pc x (.notify (s.home y)), rr := upd s.rr (s.home y) (s.rr (s.home y) ++ [y]) } := by
  have hh := h.actHome _ _ ha
  have h2 := h.kDisp
  obtain ⟨b1, b2, b3, b4, b5, b6, b7, b8⟩ := hb
  simp only [State.home] at *
  constructor
  all_goals try assumption
  all_goals simp only [set_apply, upd_apply]
  · grind
  · grind
  · grind
  · grind
  · clear h2 b1 b3 b5 b7 b8; grind
  · grind
  · grind

/-- One context moves from the remote queue to the ready queue. -/
theorem IB.collect (hb : IB s) {l : List Cx} (hr : s.rr t = y :: l) {sl : Tid → List Cx} :
    IB { s with rr := upd s.rr t l, rq := upd s.rq t (s.rq t ++ [y]), sl := sl } := by
  obtain ⟨b1, b2, b3, b4, b5, b6, b7, b8⟩ := hb
  have hN := b4 t
  simp only [State.home] at *
  constructor
  all_goals try assumption
  all_goals simp only [upd_apply]
  · grind
  · grind
  · grind
  · grind
  · grind
  · grind
  · grind

theorem IB.thread (h : IA s) (hb : IB s) (hm : s.pc (.main t) = .unborn) {saved : Cx → Bool} :
    IB { s with pc := set (set s.pc (.main t) .user) (.disp t) .top, active := upd s.active t (some (.main t)),
                saved := saved, rq := upd s.rq t [.disp t] } := by
  have h1 := h.born t
  have h2 := h.none t
  have h3 := h.busyAct
  have h4 : s.rq t = [] := by
    have := hb.rq t; have := h.kWork; have := h.wBorn; have := h.kMain
    rcases hq : s.rq t with _ | ⟨z, l⟩
    · rfl
    · have := hb.rq t z (by simp [hq])
      cases z <;> grind
  have h5 : s.rr t = [] := by
    have := h.kWork; have := h.wBorn; have := h.kMain
    rcases hq : s.rr t with _ | ⟨z, l⟩
    · rfl
    · have := hb.rr t z (by simp [hq])
      cases z <;> grind
  obtain ⟨b1, b2, b3, b4, b5, b6, b7, b8⟩ := hb
  simp only [State.home] at *
  constructor
  all_goals try assumption
  all_goals simp only [set_apply, upd_apply]
  · grind
  · grind
  · grind
  · grind
  · grind
  · grind
  · grind

/-- An unborn worker gets its thread. -/
theorem IB.rehome (hb : IB s) {n : Nat} (hy : s.pc (.work n) = .unborn) {wq : Tid → List Cx} {saved : Cx → Bool} :
    IB { s with hm := upd s.hm n t, wq := wq, saved := saved } := by
  have key : ∀ x, s.pc x ≠ .unborn → homeOf (upd s.hm n t) x = homeOf s.hm x := by
    intro x hx; rw [homeOf_upd]; split
    · simp_all
    · rfl
  obtain ⟨b1, b2, b3, b4, b5, b6, b7, b8⟩ := hb
  simp only [State.home] at *
  constructor
  all_goals try assumption
  · intro u w hw; have := b1 u w hw; have := key w; grind
  · intro u w hw; have := b3 u w hw; have := key w; grind
  · intro z w hw
    have h1 := b5 z w hw
    simp only [State.home]; rw [key w (by simp [h1.1])]; exact h1
  · intro w hw
    simp only at hw
    simp only [State.home]; rw [key w (by simp [hw])]; exact b7 w hw

/-- … and becomes ready. -/
theorem IB.attach (hb : IB s) {n : Nat} (hy : s.pc (.work n) = .unborn) (ht : s.home (.work n) = t) (h1 : s.active t ≠ some (.work n))
    {sl : Tid → List Cx} :
    IB { s with pc := set s.pc (.work n) .user, rq := upd s.rq t (s.rq t ++ [.work n]), sl := sl } := by
  obtain ⟨b1, b2, b3, b4, b5, b6, b7, b8⟩ := hb
  simp only [State.home] at *
  constructor
  all_goals try assumption
  all_goals simp only [set_apply, upd_apply]
  · grind
  · grind
  · grind
  · grind
  · grind
  · grind
  · grind

/-- … or runs at once, and the launcher becomes ready. -/
theorem IB.launch (hb : IB s) (h1 : ∀ u, x ≠ .disp u) {n : Nat} (ha : s.active t = some x) (hu : s.pc x = .user) (hy : s.pc (.work n) = .unborn)
    (ht : s.home (.work n) = t) (hx : s.home x = t) {sl : Tid → List Cx} {saved : Cx → Bool} :
    IB { s with pc := set s.pc (.work n) .user, active := upd s.active t (some (.work n)),
                saved := saved, rq := upd s.rq t (s.rq t ++ [x]), sl := sl } := by
  obtain ⟨b1, b2, b3, b4, b5, b6, b7, b8⟩ := hb
  simp only [State.home] at *
  constructor
  all_goals try assumption
  all_goals simp only [set_apply, upd_apply]
  · grind
  · grind
  · grind
  · grind
  · grind
  · grind
  · grind

/-- A switch from `x`, which is left in `p` and is not queued. -/
theorem IB.leave (h : IA s) (hb : IB s) (ha : s.active t = some x) {l : List Cx} (hr : s.rq t = y :: l)
    {p : Pc} (hp : (∃ ep, s.pc x = .parking ep ∧ p = .blocked ep) ∨ s.pc x = .leaving ∧ p = .dead ∨ s.pc x = .closing ∧ p = .closed)
    {saved : Cx → Bool} :
    IB { s with pc := set s.pc x p, active := upd s.active t (some y), saved := saved, rq := upd s.rq t l } := by
  have hh := h.actHome
  have h1 := h.actPc
  obtain ⟨b1, b2, b3, b4, b5, b6, b7, b8⟩ := hb
  have hN := b2 t
  simp only [State.home] at *
  constructor
  all_goals try assumption
  all_goals simp only [set_apply, upd_apply]
  · grind
  · grind
  · grind
  · grind
  · grind
  · grind
  · grind

/-- A switch from `x`, which is queued. -/
theorem IB.requeue (h : IA s) (hb : IB s) (ha : s.active t = some x) {l : List Cx} (hr : s.rq t = y :: l)
    {p : Pc} (hp : s.pc x = .yielding ∧ p = .user ∨ s.pc x = .pick ∧ p = .top)
    {saved : Cx → Bool} {sl : Tid → List Cx} :
    IB { s with pc := set s.pc x p, active := upd s.active t (some y), saved := saved, rq := upd s.rq t (l ++ [x]), sl := sl } := by
  have hh := h.actHome
  have h1 := h.actPc
  have h2 := h.kDisp
  obtain ⟨b1, b2, b3, b4, b5, b6, b7, b8⟩ := hb
  have hN := b2 t
  simp only [State.home] at *
  constructor
  all_goals try assumption
  all_goals simp only [set_apply, upd_apply]
  · grind
  · grind
  · grind
  · grind
  · grind
  · grind
  · grind

theorem IB.last (h : IA s) (hb : IB s) (ha : s.active t = some (.disp t)) (hp : s.pc (.disp t) = .last) {saved : Cx → Bool}
    {tq : Tid → List Cx} :
    IB { s with pc := set (set s.pc (.disp t) .dead) (.main t) .ending, active := upd s.active t (some (.main t)),
                saved := saved, tq := tq } := by
  have hh := h.last t
  have h1 := h.sd t
  have h2 := h.dispD t
  have h4 := h.busyAct (.main t)
  have h3 : s.pc (.main t) = .closed := by grind
  obtain ⟨b1, b2, b3, b4, b5, b6, b7, b8⟩ := hb
  simp only [State.home] at *
  constructor
  all_goals try assumption
  all_goals simp only [set_apply, upd_apply]
  · grind
  · grind
  · grind
  · grind
  · grind
  · grind

theorem IB.ending (hb : IB s) (ha : s.active t = some (.main t)) (hp : s.pc (.main t) = .ending) :
    IB { s with active := upd s.active t none, gone := upd s.gone t true, pc := set s.pc (.main t) .dead } := by
  obtain ⟨b1, b2, b3, b4, b5, b6, b7, b8⟩ := hb
  simp only [State.home] at *
  constructor
  all_goals try assumption
  all_goals simp only [set_apply, upd_apply]
  · grind
  · grind
  · grind
  · grind
  · grind
  · grind

end Verif.Sch
