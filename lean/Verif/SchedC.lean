import Verif.SchedB

/-! # Invariants of the scheduler: wakers and sleepers -/

namespace Verif.Sch

variable {s : State} {t : Tid} {x y : Cx}

theorem mem_insertBy {tp : Cx → Nat} {l : List Cx} : y ∈ insertBy tp x l ↔ y = x ∨ y ∈ l := by
  induction l with
  | nil => simp [insertBy]
  | cons z l ih => unfold insertBy; split <;> grind

theorem nodup_insertBy {tp : Cx → Nat} {l : List Cx} (h : l.Nodup) (hx : x ∉ l) : (insertBy tp x l).Nodup := by
  induction l with
  | nil => simp [insertBy]
  | cons z l ih => unfold insertBy; split <;> grind [mem_insertBy]

/-- The active context, not suspending itself, changes its program point. -/
theorem IC.relabel (h : IA s) (hc : IC s) (ha : s.active t = some x) {p : Pc}
    (hp : ∀ ep, p ≠ .parking ep ∧ p ≠ .blocked ep) (hp' : ∀ ep, s.pc x ≠ .parking ep)
    (hps' : ∀ y, s.pc x ≠ .push y) (hpu : p ≠ .unborn) {fl sg sd : Tid → Bool} {nw : Nat} {rq wq tq : Tid → List Cx} :
    IC { s with pc := set s.pc x p, flag := fl, sig := sg, now := nw, rq := rq, wq := wq, tq := tq, sd := sd } := by
  have h1 := h.actPc _ _ ha
  obtain ⟨c1, c2, c3, c4, c5, c6, c7, c8⟩ := hc
  constructor
  all_goals try assumption
  all_goals simp only [set_apply]
  · grind
  · grind
  · grind
  · grind
  · grind

theorem IC.same (hc : IC s) {fl sg sd : Tid → Bool} {nw : Nat} {rq wq tq : Tid → List Cx} {saved : Cx → Bool} :
    IC { s with flag := fl, sig := sg, now := nw, rq := rq, wq := wq, tq := tq, sd := sd, saved := saved } := by
  obtain ⟨c1, c2, c3, c4, c5, c6, c7, c8⟩ := hc
  constructor <;> assumption

/-- A running fiber does not sleep. -/
theorem IC.notSl (h : IA s) (hb : IB s) (hc : IC s) (ha : s.active t = some x) (hu : ∀ ep, s.pc x ≠ .parking ep) (u : Tid) : x ∉ s.sl u := by
  intro hx
  have h1 := h.actPc _ _ ha
  have h2 := h.actHome _ _ ha
  have h3 := hc.slH u x hx
  by_cases he : s.sep x = s.epoch x
  · have := hc.slE u x hx he
    grind
  · rcases hc.slO u x hx he with h4 | ⟨z, h4⟩
    · have := hb.rr u x h4; simp_all
    · have := hb.ps z x h4; simp_all

/-- The running fiber makes a waker to suspend itself, with or without a deadline. -/
theorem IC.park (h : IA s) (hb : IB s) (hc : IC s) (ha : s.active t = some x) (hu : s.pc x = .user) (b : Bool) :
    IC { s with epoch := set s.epoch x (s.epoch x + 1), pc := set s.pc x (.parking (s.epoch x + 1)),
                pub := if b then set s.pub x ((s.epoch x + 1) :: s.pub x) else s.pub } := by
  have hs := hc.notSl h hb ha (by simp [hu])
  have hd := h.kDisp
  obtain ⟨c1, c2, c3, c4, c5, c6, c7, c8⟩ := hc
  constructor
  all_goals try assumption
  all_goals simp only [set_apply]
  · intro w ep; have := c1 w ep; have := c1 x (s.epoch x + 1); cases b <;> grind [set_apply]
  · intro w; have := c1 w; have := c2 w; cases b <;> grind [set_apply]
  · grind
  · grind
  · grind
  · grind
  · intro w ep; have := c8 w ep; have := c8 x ep; cases b <;> grind [set_apply]

theorem IC.parkT (h : IA s) (hb : IB s) (hc : IC s) (ha : s.active t = some x) (hu : s.pc x = .user) (b : Bool) (tp tp' : Cx → Nat) :
    IC { s with epoch := set s.epoch x (s.epoch x + 1), pc := set s.pc x (.parking (s.epoch x + 1)),
                tp := tp, sep := set s.sep x (s.epoch x + 1), sl := upd s.sl t (insertBy tp' x (s.sl t)),
                pub := if b then set s.pub x ((s.epoch x + 1) :: s.pub x) else s.pub } := by
  have hs := hc.notSl h hb ha (by simp [hu])
  have hh := h.actHome _ _ ha
  have hd := h.kDisp
  obtain ⟨c1, c2, c3, c4, c5, c6, c7, c8⟩ := hc
  have hN := nodup_insertBy (tp := tp') (c7 t) (hs t)
  constructor
  all_goals try assumption
  all_goals simp only [set_apply, upd_apply]
  · intro w ep; have := c1 w ep; have := c1 x (s.epoch x + 1); cases b <;> grind [set_apply]
  · intro w; have := c1 w; have := c2 w; cases b <;> grind [set_apply]
  · grind
  · grind [mem_insertBy]
  · grind [mem_insertBy]
  · grind [mem_insertBy]
  · grind
  · intro w ep; have := c8 w ep; have := c8 x ep; cases b <;> grind [set_apply]

/-- A blocked context is woken by its own thread. -/
theorem IC.wake (hc : IC s) {ep : Nat} (hy : s.pc y = .blocked ep) (ht : s.home y = t) (he : s.epoch y = ep) {rq : Tid → List Cx} :
    IC { s with pc := set s.pc y .user, epoch := set s.epoch y (ep + 1), rq := rq, sl := upd s.sl t ((s.sl t).erase y) } := by
  obtain ⟨c1, c2, c3, c4, c5, c6, c7, c8⟩ := hc
  have hN := c7 t
  have hm : ∀ z, z ∈ (s.sl t).erase y ↔ z ≠ y ∧ z ∈ s.sl t := fun z => hN.mem_erase_iff
  have hN' := hN.erase y
  constructor
  all_goals try assumption
  all_goals simp only [set_apply, upd_apply]
  · grind
  · intro w; have := c1 w; have := c2 w; grind
  · grind
  · grind
  · grind
  · grind
  · grind
  · grind

theorem IC.wakeRemote (h : IA s) (hc : IC s) {ep : Nat} (hy : s.pc y = .blocked ep) (he : s.epoch y = ep)
    (ha : s.active t = some x) (hu : s.pc x = .user) :
    IC { s with pc := set (set s.pc y .user) x (.push y), epoch := set s.epoch y (ep + 1) } := by
  have h1 := h.actPc _ _ ha
  obtain ⟨c1, c2, c3, c4, c5, c6, c7, c8⟩ := hc
  constructor
  all_goals try assumption
  all_goals simp only [set_apply]
  · grind
  · intro w; have := c1 w; have := c2 w; grind
  · grind
  · grind
  · grind
  · intro u w hw hne
    by_cases hwy : w = y
    · exact .inr ⟨x, by simp [hwy]⟩
    · rcases c6 u w hw (by simpa [hwy] using hne) with h3 | ⟨z, h3⟩
      · exact .inl h3
      · exact .inr ⟨z, by grind⟩
  · grind

theorem IC.push (hc : IC s) (hb : IB s) (hp : s.pc x = .push y) :
    IC { s with pc := set s.pc x (.notify (s.home y)), rr := upd s.rr (s.home y) (s.rr (s.home y) ++ [y]) } := by
  have hN := hb.psN x
  obtain ⟨c1, c2, c3, c4, c5, c6, c7, c8⟩ := hc
  constructor
  all_goals try assumption
  all_goals simp only [set_apply, upd_apply]
  · grind
  · grind
  · grind
  · intro u w hw hne
    have := c4 u w hw
    rcases c6 u w hw hne with h3 | ⟨z, h3⟩
    · left; grind
    · by_cases hz : z = x
      · subst hz; rw [hp] at h3; cases h3; left; simp [this.1]
      · exact .inr ⟨z, by simp [hz, h3]⟩
  · grind

/-- One context moves from the remote queue to the ready queue. -/
theorem IC.collect (hc : IC s) {l : List Cx} (hr : s.rr t = y :: l) {rq : Tid → List Cx} :
    IC { s with rr := upd s.rr t l, rq := rq, sl := upd s.sl t ((s.sl t).erase y) } := by
  obtain ⟨c1, c2, c3, c4, c5, c6, c7, c8⟩ := hc
  have hN := c7 t
  have hm : ∀ z, z ∈ (s.sl t).erase y ↔ z ≠ y ∧ z ∈ s.sl t := fun z => hN.mem_erase_iff
  have hN' := hN.erase y
  constructor
  all_goals try assumption
  all_goals simp only [upd_apply]
  · grind
  · grind
  · grind
  · grind

/-- The earliest sleeper leaves the sleep queue although its waker has been used already. -/
theorem IC.drop (hc : IC s) {l : List Cx} (hr : s.sl t = y :: l) : IC { s with sl := upd s.sl t l } := by
  obtain ⟨c1, c2, c3, c4, c5, c6, c7, c8⟩ := hc
  have hN := c7 t
  constructor
  all_goals try assumption
  all_goals simp only [upd_apply]
  · grind
  · grind
  · grind
  · grind

theorem IC.thread (h : IA s) (hc : IC s) (hm : s.pc (.main t) = .unborn) {saved : Cx → Bool} {active : Tid → Option Cx} {rq : Tid → List Cx} :
    IC { s with pc := set (set s.pc (.main t) .user) (.disp t) .top, active := active, saved := saved, rq := rq } := by
  have h1 := h.born t
  obtain ⟨c1, c2, c3, c4, c5, c6, c7, c8⟩ := hc
  constructor
  all_goals try assumption
  all_goals simp only [set_apply]
  · grind
  · grind
  · grind
  · grind
  · grind

theorem IC.notSlUnborn (hb : IB s) (hc : IC s) (hy : s.pc y = .unborn) (u : Tid) : y ∉ s.sl u := by
  intro hu
  by_cases he : s.sep y = s.epoch y
  · have := hc.slE u _ hu he; simp_all
  · rcases hc.slO u _ hu he with h4 | ⟨z, h4⟩
    · have := hb.rr u _ h4; simp_all
    · have := hb.ps z _ h4; simp_all

/-- A new worker. -/
theorem IC.rehome (hb : IB s) (hc : IC s) {n : Nat} (hy : s.pc (.work n) = .unborn)
    {wq rq : Tid → List Cx} {saved : Cx → Bool} {active : Tid → Option Cx} :
    IC { s with pc := set s.pc (.work n) .user, hm := upd s.hm n t, wq := wq, saved := saved, rq := rq, active := active } := by
  have key := hc.notSlUnborn hb hy
  obtain ⟨c1, c2, c3, c4, c5, c6, c7, c8⟩ := hc
  constructor
  all_goals try assumption
  all_goals simp only [set_apply, State.home, homeOf_upd]
  · grind
  · grind
  · intro u w hw
    have := key u
    have h3 := c4 u w hw
    have : w ≠ .work n := by intro e; subst e; contradiction
    simpa [this] using h3
  · grind
  · grind
  · grind

/-- A switch away from `x`. -/
theorem IC.leave (h : IA s) (hc : IC s) (ha : s.active t = some x) {p : Pc}
    (hp : s.pc x = p ∧ p = .user ∨ s.pc x = .yielding ∧ p = .user ∨ (∃ ep, s.pc x = .parking ep ∧ p = .blocked ep) ∨
      s.pc x = .leaving ∧ p = .dead ∨ s.pc x = .closing ∧ p = .closed ∨ s.pc x = .pick ∧ p = .top)
    {saved : Cx → Bool} {active : Tid → Option Cx} {rq : Tid → List Cx} :
    IC { s with pc := set s.pc x p, active := active, saved := saved, rq := rq } := by
  have h1 := h.actPc _ _ ha
  obtain ⟨c1, c2, c3, c4, c5, c6, c7, c8⟩ := hc
  constructor
  all_goals try assumption
  all_goals simp only [set_apply]
  · grind
  · grind
  · grind
  · grind
  · grind

theorem IC.final (h : IA s) (hc : IC s) (ha : s.active t = some (.disp t)) (hp : s.pc (.disp t) = .last) {saved : Cx → Bool}
    {tq : Tid → List Cx} {active : Tid → Option Cx} :
    IC { s with pc := set (set s.pc (.disp t) .dead) (.main t) .ending, active := active, saved := saved, tq := tq } := by
  have hh := h.last t
  have h1 := h.sd t
  have h2 := h.dispD t
  have h4 := h.busyAct (.main t)
  have h3 : s.pc (.main t) = .closed := by grind
  obtain ⟨c1, c2, c3, c4, c5, c6, c7, c8⟩ := hc
  constructor
  all_goals try assumption
  all_goals simp only [set_apply]
  · grind
  · grind
  · grind
  · grind
  · grind

theorem IC.ending (hc : IC s) (hp : s.pc (.main t) = .ending) {active : Tid → Option Cx} {gone : Tid → Bool} :
    IC { s with active := active, gone := gone, pc := set s.pc (.main t) .dead } := by
  obtain ⟨c1, c2, c3, c4, c5, c6, c7, c8⟩ := hc
  constructor
  all_goals try assumption
  all_goals simp only [set_apply]
  · grind
  · grind
  · grind
  · grind
  · grind

end Verif.Sch
