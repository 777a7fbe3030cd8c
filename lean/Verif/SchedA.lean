import Verif.Sched

/-! # Invariants of the scheduler -/

namespace Verif.Sch

@[simp, grind =] theorem homeOf_main (hm : Nat → Tid) (t : Tid) : homeOf hm (.main t) = t := rfl
@[simp, grind =] theorem homeOf_disp (hm : Nat → Tid) (t : Tid) : homeOf hm (.disp t) = t := rfl
@[simp, grind =] theorem homeOf_work (hm : Nat → Tid) (n : Nat) : homeOf hm (.work n) = hm n := rfl

theorem homeOf_upd (hm : Nat → Tid) (n : Nat) (t : Tid) (x : Cx) :
    homeOf (upd hm n t) x = if x = .work n then t else homeOf hm x := by
  cases x with
  | main u => simp
  | disp u => simp
  | work m => by_cases h : m = n <;> simp [upd, h]

/-- Program points a thread is at only while running the context. -/
@[grind] def Pc.busy : Pc → Bool
  | .unborn | .user | .blocked _ | .closed | .top | .dead => false
  | _ => true

/-- Program points of the dispatcher. -/
@[grind] def Pc.disp : Pc → Bool
  | .top | .collect | .clock | .timers _ | .pick | .idle _ | .cnd _ | .last => true
  | _ => false

/-- Program points of `~scheduler`, hence of main. -/
@[grind] def Pc.shut : Pc → Bool
  | .closing | .closed | .ending => true
  | _ => false

/-- Threads, contexts and who is active. -/
structure IA (s : State) : Prop where
  actHome : ∀ t x, s.active t = some x → s.home x = t
  actSav  : ∀ t x, s.active t = some x → s.saved x = false
  actPc   : ∀ t x, s.active t = some x → (s.pc x).busy ∨ s.pc x = .user ∨ s.pc x = .top
  busyAct : ∀ x, (s.pc x).busy → s.active (s.home x) = some x
  sav     : ∀ x, s.pc x ≠ .unborn → s.pc x ≠ .dead → s.active (s.home x) = some x ∨ s.saved x
  kDisp   : ∀ t, s.pc (.disp t) = .unborn ∨ s.pc (.disp t) = .dead ∨ (s.pc (.disp t)).disp
  kMain   : ∀ t, ¬ (s.pc (.main t)).disp ∧ s.pc (.main t) ≠ .leaving
  kWork   : ∀ n, ¬ (s.pc (.work n)).disp ∧ ¬ (s.pc (.work n)).shut
  born    : ∀ t, s.pc (.disp t) = .unborn ↔ s.pc (.main t) = .unborn
  dispD   : ∀ t, s.pc (.disp t) = .dead ↔ s.pc (.main t) = .ending ∨ s.pc (.main t) = .dead
  gone    : ∀ t, s.gone t ↔ s.pc (.main t) = .dead
  sd      : ∀ t, s.sd t ↔ (s.pc (.main t)).shut ∨ s.pc (.main t) = .dead
  none    : ∀ t, s.active t = .none ↔ s.pc (.main t) = .unborn ∨ s.pc (.main t) = .dead
  wBorn   : ∀ n, s.pc (.work n) ≠ .unborn → s.pc (.main (s.hm n)) ≠ .unborn
  wq      : ∀ t x, x ∈ s.wq t ↔ (∃ n, x = .work n) ∧ s.home x = t ∧ s.pc x ≠ .unborn ∧ s.pc x ≠ .leaving ∧ s.pc x ≠ .dead
  wqN     : ∀ t, (s.wq t).Nodup
  last    : ∀ t, s.pc (.disp t) = .last ∨ s.pc (.disp t) = .dead → s.wq t = [] ∧ s.sd t
  tq      : ∀ t x, x ∈ s.tq t → (∃ n, x = .work n) ∧ s.home x = t ∧ (s.pc x = .leaving ∨ s.pc x = .dead ∧ s.saved x)
  tqN     : ∀ t, (s.tq t).Nodup
  leav    : ∀ x, s.pc x = .leaving → x ∈ s.tq (s.home x)

/-- Ready queues. -/
structure IB (s : State) : Prop where
  rq   : ∀ t x, x ∈ s.rq t → s.home x = t ∧ s.active t ≠ some x ∧ (s.pc x = .user ∨ s.pc x = .top)
  rqN  : ∀ t, (s.rq t).Nodup
  rr   : ∀ t x, x ∈ s.rr t → s.home x = t ∧ s.active t ≠ some x ∧ s.pc x = .user ∧ x ∉ s.rq t
  rrN  : ∀ t, (s.rr t).Nodup
  ps   : ∀ z y, s.pc z = .push y → s.pc y = .user ∧ s.active (s.home y) ≠ some y ∧ y ∉ s.rq (s.home y) ∧ y ∉ s.rr (s.home y)
  psN  : ∀ z z' y, s.pc z = .push y → s.pc z' = .push y → z = z'
  usr  : ∀ x, s.pc x = .user →
    s.active (s.home x) = some x ∨ x ∈ s.rq (s.home x) ∨ x ∈ s.rr (s.home x) ∨ ∃ z, s.pc z = .push x
  top  : ∀ t, s.pc (.disp t) = .top → s.active t = some (.disp t) ∨ .disp t ∈ s.rq t

/-- Wakers and sleepers. -/
structure IC (s : State) : Prop where
  pub  : ∀ x ep, ep ∈ s.pub x → ep ≤ s.epoch x
  pubE : ∀ x, s.epoch x ∈ s.pub x → s.pc x = .parking (s.epoch x) ∨ s.pc x = .blocked (s.epoch x)
  ep   : ∀ x ep, s.pc x = .parking ep ∨ s.pc x = .blocked ep → ep = s.epoch x
  slH  : ∀ t x, x ∈ s.sl t → s.home x = t ∧ s.sep x ≤ s.epoch x
  slE  : ∀ t x, x ∈ s.sl t → s.sep x = s.epoch x → s.pc x = .parking (s.epoch x) ∨ s.pc x = .blocked (s.epoch x)
  slO  : ∀ t x, x ∈ s.sl t → s.sep x ≠ s.epoch x → x ∈ s.rr t ∨ ∃ z, s.pc z = .push x
  slN  : ∀ t, (s.sl t).Nodup
  pubB : ∀ x ep, ep ∈ s.pub x → s.pc x ≠ .unborn ∧ ∀ t, x ≠ .disp t

structure Inv (s : State) : Prop where
  a : IA s
  b : IB s
  c : IC s

/-! ## The transformers -/

variable {s : State} {t : Tid} {x y : Cx}

/-- The active context changes its program point. -/
theorem IA.relabel (h : IA s) (ha : s.active t = some x) {p : Pc} (hp : p.busy ∨ p = .user ∨ p = .top)
    (hd : (s.pc x).disp = p.disp) (hl : p ≠ .leaving) (hl' : s.pc x ≠ .leaving)
    (hsh : (s.pc x).shut = p.shut) (he : s.pc x ≠ .ending) (he' : p ≠ .ending)
    (hla : p = .last → s.wq t = [] ∧ s.sd t) {fl sg : Tid → Bool} {nw : Nat} {rq rr sl : Tid → List Cx} {tp sep epoch : Cx → Nat}
    {pub : Cx → List Nat} :
    IA { s with pc := set s.pc x p, flag := fl, sig := sg, now := nw, rr := rr, rq := rq, sl := sl, tp := tp, sep := sep, epoch := epoch, pub := pub } := by
  have hh := h.actHome _ _ ha
  have h1 := h.actPc _ _ ha
  obtain ⟨a1, a2, a3, a4, a5, a6, a7, a8, a9, a10, a11, a12, a13, a14, a15, a16, a17, a18, a19, a20⟩ := h
  constructor
  all_goals try assumption
  all_goals simp only [set_apply]
  all_goals grind

theorem IA.same (h : IA s) {fl sg : Tid → Bool} {nw : Nat} {rq rr sl : Tid → List Cx} {tp sep epoch : Cx → Nat}
    {pub : Cx → List Nat} :
    IA { s with flag := fl, sig := sg, now := nw, rr := rr, rq := rq, sl := sl, tp := tp, sep := sep, epoch := epoch, pub := pub } := by
  obtain ⟨a1, a2, a3, a4, a5, a6, a7, a8, a9, a10, a11, a12, a13, a14, a15, a16, a17, a18, a19, a20⟩ := h
  constructor <;> assumption

/-- A blocked context is woken. -/
theorem IA.wake (h : IA s) {ep : Nat} (hy : s.pc y = .blocked ep) {rq rr sl : Tid → List Cx} {epoch : Cx → Nat} :
    IA { s with pc := set s.pc y .user, rr := rr, rq := rq, sl := sl, epoch := epoch } := by
  obtain ⟨a1, a2, a3, a4, a5, a6, a7, a8, a9, a10, a11, a12, a13, a14, a15, a16, a17, a18, a19, a20⟩ := h
  constructor
  all_goals try assumption
  all_goals simp only [set_apply]
  all_goals grind

theorem IA.thread (h : IA s) (hm : s.pc (.main t) = .unborn) {rq : Tid → List Cx} :
    IA { s with pc := set (set s.pc (.main t) .user) (.disp t) .top, active := upd s.active t (some (.main t)),
                saved := set (set s.saved (.main t) false) (.disp t) true, rq := rq } := by
  obtain ⟨a1, a2, a3, a4, a5, a6, a7, a8, a9, a10, a11, a12, a13, a14, a15, a16, a17, a18, a19, a20⟩ := h
  constructor
  all_goals try assumption
  all_goals simp only [set_apply, upd_apply]
  all_goals grind

theorem IA.attach (h : IA s) {n : Nat} (ha : s.active t = some x) (hu : s.pc x = .user) (hy : s.pc (.work n) = .unborn) {rq sl : Tid → List Cx} :
    IA { s with pc := set s.pc (.work n) .user, hm := upd s.hm n t, wq := upd s.wq t (s.wq t ++ [.work n]),
                saved := set s.saved (.work n) true, rq := rq, sl := sl } := by
  have hh := h.actHome _ _ ha
  obtain ⟨a1, a2, a3, a4, a5, a6, a7, a8, a9, a10, a11, a12, a13, a14, a15, a16, a17, a18, a19, a20⟩ := h
  constructor
  all_goals try assumption
  all_goals simp only [State.home, set_apply, upd_apply, homeOf_upd]
  all_goals grind

/-- The thread switches from `x`, which goes to `p`, to `y`. -/
theorem IA.switch (h : IA s) (ha : s.active t = some x) (hxy : y ≠ x) (hy : s.home y = t) (hyp : s.pc y = .user ∨ s.pc y = .top)
    {p : Pc} (hp : s.pc x = p ∧ p = .user ∨ s.pc x = .yielding ∧ p = .user ∨ (∃ ep, s.pc x = .parking ep ∧ p = .blocked ep) ∨
      s.pc x = .leaving ∧ p = .dead ∨ s.pc x = .closing ∧ p = .closed ∨ s.pc x = .pick ∧ p = .top)
    {rq sl : Tid → List Cx} :
    IA { s with pc := set s.pc x p, active := upd s.active t (some y), saved := set (set s.saved x true) y false, rq := rq, sl := sl } := by
  have hh := h.actHome _ _ ha
  obtain ⟨a1, a2, a3, a4, a5, a6, a7, a8, a9, a10, a11, a12, a13, a14, a15, a16, a17, a18, a19, a20⟩ := h
  constructor
  all_goals try assumption
  all_goals simp only [set_apply, upd_apply]
  all_goals grind

theorem IA.finish (h : IA s) {n : Nat} (ha : s.active t = some (.work n)) (hu : s.pc (.work n) = .user) :
    IA { s with pc := set s.pc (.work n) .leaving, tq := upd s.tq t (s.tq t ++ [.work n]), wq := upd s.wq t ((s.wq t).erase (.work n)) } := by
  have hh := h.actHome _ _ ha
  have hN := h.wqN t
  have hm : ∀ y, y ∈ (s.wq t).erase (.work n) ↔ y ≠ .work n ∧ y ∈ s.wq t := fun y => hN.mem_erase_iff
  have hN' := hN.erase (.work n)
  obtain ⟨a1, a2, a3, a4, a5, a6, a7, a8, a9, a10, a11, a12, a13, a14, a15, a16, a17, a18, a19, a20⟩ := h
  constructor
  all_goals try assumption
  all_goals simp only [set_apply, upd_apply]
  all_goals grind

theorem IA.exit (h : IA s) (ha : s.active t = some (.main t)) (hu : s.pc (.main t) = .user) :
    IA { s with sd := upd s.sd t true, pc := set s.pc (.main t) .closing } := by
  have hh := h.actHome _ _ ha
  obtain ⟨a1, a2, a3, a4, a5, a6, a7, a8, a9, a10, a11, a12, a13, a14, a15, a16, a17, a18, a19, a20⟩ := h
  constructor
  all_goals try assumption
  all_goals simp only [set_apply, upd_apply]
  all_goals grind

theorem IA.release (h : IA s) (ha : s.active t = some (.disp t)) : IA { s with tq := upd s.tq t [] } := by
  obtain ⟨a1, a2, a3, a4, a5, a6, a7, a8, a9, a10, a11, a12, a13, a14, a15, a16, a17, a18, a19, a20⟩ := h
  constructor
  all_goals try assumption
  all_goals simp only [set_apply, upd_apply]
  all_goals grind

theorem IA.final (h : IA s) (ha : s.active t = some (.disp t)) (hp : s.pc (.disp t) = .last) :
    IA { s with pc := set (set s.pc (.disp t) .dead) (.main t) .ending, active := upd s.active t (some (.main t)),
                saved := set (set s.saved (.disp t) true) (.main t) false } := by
  obtain ⟨a1, a2, a3, a4, a5, a6, a7, a8, a9, a10, a11, a12, a13, a14, a15, a16, a17, a18, a19, a20⟩ := h
  constructor
  all_goals try assumption
  all_goals simp only [set_apply, upd_apply]
  all_goals grind

theorem IA.ending (h : IA s) (ha : s.active t = some (.main t)) (hp : s.pc (.main t) = .ending) :
    IA { s with active := upd s.active t .none, gone := upd s.gone t true, pc := set s.pc (.main t) .dead } := by
  obtain ⟨a1, a2, a3, a4, a5, a6, a7, a8, a9, a10, a11, a12, a13, a14, a15, a16, a17, a18, a19, a20⟩ := h
  constructor
  all_goals try assumption
  all_goals simp only [set_apply, upd_apply]
  all_goals grind

end Verif.Sch
