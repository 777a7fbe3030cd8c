import Verif.UnbufferedChannel

/-!
# Invariants of the unbuffered channel
-/

namespace Verif.Unbuf

variable {V : Type}

/-- The registration of a fiber: in a wait queue, or (queue `none`) through the waker in its slot. -/
def regOf : Pc V → Option (WReg (Option Side))
  | .pushNotify _ dl ep | .slotWait _ dl ep => some ⟨none, ep, dl, false⟩
  | .waitPush _ dl ep => some ⟨some .prod, ep, dl, false⟩
  | .unlinkPush _ dl ep => some ⟨some .prod, ep, dl, true⟩
  | .waitPop p ep => some ⟨some .cons, ep, p.dl, false⟩
  | .unlinkPop p ep => some ⟨some .cons, ep, p.dl, true⟩
  | _ => none

/-- The two queues and the (ghost) collection of wakers in slots. -/
def qq (q : Side → List Waker) (g : List Waker) : Option Side → List Waker
  | none => g
  | some i => q i

theorem qq_setQ (q : Side → List Waker) (g : List Waker) (i : Side) (l : List Waker) (j : Option Side) :
    qq (setQ q i l) g j = if j = some i then l else qq q g j := by
  cases j <;> simp [qq, setQ]

theorem qq_ghost (q : Side → List Waker) (g g' : List Waker) (j : Option Side) :
    qq q g' j = if j = none then g' else qq q g j := by
  cases j <;> simp [qq]

/-- Wakers and queues are consistent. -/
def WI (s : State V) : Prop := ∃ g, WInv s.c (qq s.q g) s.now (fun f => regOf (s.pc f))

theorem wi_init : WI (init : State V) := ⟨[], WInv.init.congr (fun j => by cases j <;> rfl) (fun _ => rfl)⟩

/-- Steps that do not touch queues or contexts. -/
theorem WI.quiet {s s' : State V} (h : WI s) (hc : s'.c = s.c) (hq : s'.q = s.q) (hn : s'.now = s.now)
    (hp : ∀ g, regOf (s'.pc g) = regOf (s.pc g)) : WI s' := by
  obtain ⟨g, h⟩ := h
  refine ⟨g, ?_⟩
  rw [hc, hq, hn]
  exact h.congr (fun _ => rfl) hp

theorem reg_upd {s : State V} {f : Fid} {p : Pc V} (h : regOf p = regOf (s.pc f)) (g : Fid) :
    regOf (upd s.pc f p g) = regOf (s.pc g) := by
  simp only [upd_apply]; split
  · subst_vars; exact h
  · rfl

theorem WI.goto {s : State V} (h : WI s) {f : Fid} {p : Pc V} (hr : regOf p = regOf (s.pc f)) : WI (s.goto f p) :=
  h.quiet rfl rfl rfl (reg_upd hr)

/-- A fiber registered through its slot is woken by somebody who holds the slot. -/
theorem WI.wakeSlot {s : State V} (h : WI s) {f : Fid} {dl : Option Nat} {ep : Nat}
    (hr : regOf (s.pc f) = some ⟨none, ep, dl, false⟩) : WI { s with c := (wake s.c ⟨f, ep⟩).1 } := by
  obtain ⟨g, h⟩ := h
  refine ⟨g.filter (· ≠ ⟨f, ep⟩), ?_⟩
  exact h.wakeOut (f := f) (r := ⟨none, ep, dl, false⟩) hr rfl (fun j => qq_ghost _ _ _ j)

/-- A waker whose suspension has ended has no effect. -/
theorem wake_stale {c : Ctxs} {f : Fid} {ep : Nat} (h : c.epoch f ≠ ep) : (wake c ⟨f, ep⟩).1 = c := by
  simp [wake, h]

theorem WI.block {s : State V} (h : WI s) {f : Fid} {i : Side} {p : Nat → Pc V} {dl : Option Nat}
    (hr : regOf (s.pc f) = none) (hp : ∀ ep, regOf (p ep) = some ⟨some i, ep, dl, false⟩) : WI (s.block f i p) := by
  obtain ⟨g, h⟩ := h
  refine ⟨g, ?_⟩
  refine h.enqueue (f := f) (i := some i) (dl := dl) hr (fun j => qq_setQ _ _ _ _ j) ?_
  intro k; simp only [State.block, upd_apply]; split
  · exact hp _
  · rfl

theorem WI.create {s : State V} (h : WI s) {f : Fid} {p : Pc V} {v : V} {dl : Option Nat} {sl : Option Ref}
    (hr : regOf (s.pc f) = none) (hp : p = .pushNotify v dl (s.c.epoch f + 1) ∨ regOf p = none) :
    WI { s with slot := sl, c := (createWaker s.c f).2, pc := upd s.pc f p } := by
  obtain ⟨g, h⟩ := h
  rcases hp with rfl | hp
  · refine ⟨g ++ [⟨f, s.c.epoch f + 1⟩], ?_⟩
    refine h.enqueue (f := f) (i := none) (dl := dl) hr (fun j => qq_ghost _ g _ j) ?_
    intro k; simp only [upd_apply]; split <;> rfl
  · refine ⟨g, ?_⟩
    refine (h.elsewhere hr 1).congr (fun _ => rfl) ?_
    intro k; simp only [upd_apply]; split
    · subst_vars; rw [hr, hp]
    · rfl

theorem WI.notifyOne {s : State V} (h : WI s) (i : Side) :
    WI { s with c := (Verif.notifyOne s.c (s.q i)).1, q := setQ s.q i (Verif.notifyOne s.c (s.q i)).2.1 } := by
  obtain ⟨g, h⟩ := h
  exact ⟨g, h.notifyOne (some i) (fun j => qq_setQ _ _ _ _ j)⟩

theorem WI.notifyAll {s : State V} (h : WI s) (i : Side) :
    WI { s with c := (Verif.notifyAll s.c (s.q i)).1, q := setQ s.q i [] } := by
  obtain ⟨g, h⟩ := h
  exact ⟨g, h.notifyAll (some i) (fun j => qq_setQ _ _ _ _ j)⟩

theorem WI.resume {s : State V} (h : WI s) {f : Fid} {r : WReg (Option Side)} {p : Pc V}
    (hr : regOf (s.pc f) = some r) (hrd : s.c.ready f = true) (hd : ∀ d, r.dl = some d → s.now < d)
    (hp : regOf p = none) : WI { s with c := consumeReady s.c f, pc := upd s.pc f p } := by
  obtain ⟨g, h⟩ := h
  refine ⟨g, h.resume (f := f) hr hrd hd ?_⟩
  intro k; simp only [upd_apply]; split
  · exact hp
  · rfl

theorem WI.resumeLate {s : State V} (h : WI s) {f : Fid} {r : WReg (Option Side)} {d : Nat} {p : Pc V}
    (hr : regOf (s.pc f) = some r) (hrd : s.c.ready f = true) (hd : r.dl = some d) (hle : d ≤ s.now)
    (hp : regOf p = some { r with late := true }) :
    WI { s with c := consumeReady s.c f, pc := upd s.pc f p } := by
  obtain ⟨g, h⟩ := h
  refine ⟨g, h.resumeLate (f := f) hr hrd hd hle ?_⟩
  intro k; simp only [upd_apply]; split
  · exact hp
  · rfl

/-- A producer that resumes too late from its slot: its registration simply ends. -/
theorem WI.slotLate {s : State V} (h : WI s) {f : Fid} {v : V} {dl : Option Nat} {ep d : Nat} {p : Pc V}
    (hr : s.pc f = .slotWait v dl ep) (hrd : s.c.ready f = true) (hd : dl = some d) (hle : d ≤ s.now)
    (hp : regOf p = none) : WI { s with c := consumeReady s.c f, pc := upd s.pc f p } := by
  obtain ⟨g, h⟩ := h
  have h1 := h.resumeLate (f := f) (r := ⟨none, ep, dl, false⟩) (d := d)
    (reg' := fun k => if k = f then some ⟨none, ep, dl, true⟩ else regOf (s.pc k)) (by simp [hr, regOf]) hrd hd hle
    (fun k => rfl)
  refine ⟨g.filter (· ≠ ⟨f, ep⟩), h1.unlink (f := f) (r := ⟨none, ep, dl, true⟩) (by simp) rfl
    (fun j => qq_ghost _ _ _ j) ?_⟩
  intro k; simp only [upd_apply]; split <;> simp [hp]

theorem WI.unlink {s : State V} (h : WI s) {f : Fid} {i : Side} {ep : Nat} {dl : Option Nat}
    (hr : regOf (s.pc f) = some ⟨some i, ep, dl, true⟩) :
    WI { s with q := setQ s.q i ((s.q i).filter (· ≠ Waker.mk f ep)), pc := upd s.pc f .idle } := by
  obtain ⟨g, h⟩ := h
  refine ⟨g, h.unlink (f := f) hr rfl (fun j => qq_setQ _ _ _ _ j) ?_⟩
  intro k; simp only [upd_apply]; split
  · rfl
  · rfl

theorem WI.timer {s : State V} (h : WI s) {f : Fid} {ep d : Nat} (hr : sleepOf (s.pc f) = some (ep, d)) (hle : d ≤ s.now) :
    WI { s with c := (wake s.c ⟨f, ep⟩).1 } := by
  obtain ⟨g, h⟩ := h
  have : ∃ r, regOf (s.pc f) = some r ∧ r.late = false ∧ r.dl = some d ∧ r.ep = ep := by
    cases hp : s.pc f <;> simp only [hp, sleepOf, Option.map_eq_some_iff, Prod.mk.injEq, reduceCtorEq] at hr <;>
      simp [regOf] <;> grind
  obtain ⟨r, h1, h2, h3, rfl⟩ := this
  exact ⟨g, h.timer h1 h2 h3 hle⟩

/-- A fiber whose waker sits in its slot is either still suspended on it or has been resumed. -/
theorem deref_wake {s : State V} (h : WI s) {r : Ref} {v : V} {ep : Nat} (hd : s.deref r = some (v, some ep))
    (hs : ∀ w dl e, s.pc r.f = .slotAfter w dl e ∨ s.pc r.f = .slotLate w dl e → s.c.epoch r.f = e + 1) :
    WI { s with c := (wake s.c ⟨r.f, ep⟩).1 } := by
  simp only [State.deref] at hd
  split at hd
  case isFalse => cases hd
  cases hp : s.pc r.f <;> simp only [hp, frameOf, Option.some.injEq, Prod.mk.injEq, reduceCtorEq, and_false] at hd
  case pushNotify v dl e => obtain ⟨-, rfl⟩ := hd; exact h.wakeSlot (dl := dl) (by simp [hp, regOf])
  case slotWait v dl e => obtain ⟨-, rfl⟩ := hd; exact h.wakeSlot (dl := dl) (by simp [hp, regOf])
  case slotAfter v dl e =>
    obtain ⟨-, rfl⟩ := hd
    have := hs v dl e (Or.inl hp)
    rw [wake_stale (by omega)]; exact h
  case slotLate v dl e =>
    obtain ⟨-, rfl⟩ := hd
    have := hs v dl e (Or.inr hp)
    rw [wake_stale (by omega)]; exact h

/-- Who has been resumed from its slot can no longer be woken through it. -/
def EP (s : State V) : Prop :=
  ∀ f v dl e, s.pc f = .slotAfter v dl e ∨ s.pc f = .slotLate v dl e → s.c.epoch f = e + 1

theorem EP.quiet {s s' : State V} (h : EP s) {f : Fid} {p : Pc V} (hp : s'.pc = upd s.pc f p)
    (hc : ∀ g, g ≠ f → regOf (s.pc g) = none → s'.c.epoch g = s.c.epoch g)
    (hf : ∀ v dl e, p = .slotAfter v dl e ∨ p = .slotLate v dl e → s'.c.epoch f = e + 1) : EP s' := by
  intro g v dl e hg
  rw [hp] at hg
  simp only [upd_apply] at hg
  split at hg
  · subst_vars; exact hf v dl e hg
  · rename_i hgf
    rw [hc g hgf (by rcases hg with hg | hg <;> simp [hg, regOf])]
    exact h g v dl e hg

theorem WI.frame_notifyOne {s : State V} (h : WI s) (i : Side) {g : Fid}
    (hg : ∀ r, regOf (s.pc g) = some r → r.q ≠ some i) :
    (Verif.notifyOne s.c (s.q i)).1.epoch g = s.c.epoch g := by
  obtain ⟨gh, h⟩ := h
  exact (notifyOne_frame (h.not_queued (i := some i) hg)).1

theorem WI.frame_notifyAll {s : State V} (h : WI s) (i : Side) {g : Fid}
    (hg : ∀ r, regOf (s.pc g) = some r → r.q ≠ some i) :
    (Verif.notifyAll s.c (s.q i)).1.epoch g = s.c.epoch g := by
  obtain ⟨gh, h⟩ := h
  exact (notifyAll_frame (h.not_queued (i := some i) hg)).1

theorem WI.frame_wake {s : State V} (h : EP s) {r : Ref} {v : V} {ep : Nat} (hd : s.deref r = some (v, some ep))
    {g : Fid} (hg : regOf (s.pc g) = none) :
    (wake s.c ⟨r.f, ep⟩).1.epoch g = s.c.epoch g := by
  by_cases hgf : g = r.f
  · subst hgf
    simp only [State.deref] at hd
    split at hd
    case isFalse => cases hd
    rw [wake_stale]
    cases hp : s.pc r.f <;> simp only [hp, frameOf, regOf, Option.some.injEq, Prod.mk.injEq, reduceCtorEq, and_false] at hd hg
    case slotAfter v dl e => have := h _ v dl e (Or.inl hp); omega
    case slotLate v dl e => have := h _ v dl e (Or.inr hp); omega
  · exact (wake_epoch_ne s.c ⟨r.f, ep⟩ hgf).1

theorem regOf_startOf (op : Op V) : regOf (startOf op) = none ∧
    ∀ v dl e, ¬ (startOf op = .slotAfter v dl e ∨ startOf op = .slotLate v dl e) := by
  cases op <;> simp [startOf, regOf]

/-- Steps of `run` preserve the waker invariants. -/
theorem w_run {s s' : State V} {o : List (Obs V)} {f : Fid} {b : Bool} (h : WI s) (he : EP s) (hs : run s f b = some (s', o)) :
    WI s' ∧ EP s' := by
  have rdy : ∀ {r}, regOf (s.pc f) = some r → r.late = false → s.c.ready f = true → s.c.epoch f = r.ep + 1 := by
    intro r h1 h2 h3; obtain ⟨g, h⟩ := h; exact (h.ready_iff h1 h2).1 h3
  -- a step that changes neither contexts nor queues and moves `f` between unregistered points
  have quiet : ∀ {s1 : State V} {p : Pc V}, regOf (s.pc f) = none → regOf p = none →
      (∀ v dl e, ¬ (p = .slotAfter v dl e ∨ p = .slotLate v dl e)) → s1.c = s.c → s1.q = s.q → s1.now = s.now →
      s1.pc = upd s.pc f p → WI s1 ∧ EP s1 := by
    intro s1 p h1 h2 h3 h4 h5 h6 h7
    refine ⟨h.quiet h4 h5 h6 ?_, he.quiet h7 ?_ ?_⟩
    · rw [h7]; exact reg_upd (by rw [h1, h2])
    · intro g _ _; rw [h4]
    · intro v dl e hx; exact absurd hx (h3 v dl e)
  have wres : ∀ {r : WReg (Option Side)} {p late : Pc V}, regOf (s.pc f) = some r → regOf p = none →
      regOf late = some { r with late := true } →
      (∀ v dl e, ¬ (p = .slotAfter v dl e ∨ p = .slotLate v dl e)) →
      (∀ v dl e, ¬ (late = .slotAfter v dl e ∨ late = .slotLate v dl e)) →
      s.resume f r.dl p late = some (s', o) → WI s' ∧ EP s' := by
    intro r p late h1 h2 h3 h4 h5 hs
    simp only [State.resume] at hs
    split at hs
    case isFalse => cases hs
    rename_i hr
    split at hs
    · rename_i hd
      simp only [Option.some.injEq, Prod.mk.injEq] at hs; obtain ⟨rfl, rfl⟩ := hs
      refine ⟨h.resume (f := f) h1 hr (by simp [hd]) h2, he.quiet (f := f) rfl ?_ ?_⟩
      · intro g _ _; rfl
      · intro v dl e hx; exact absurd hx (h4 v dl e)
    · rename_i d hd
      split at hs <;> simp only [Option.some.injEq, Prod.mk.injEq] at hs <;> obtain ⟨rfl, rfl⟩ := hs
      · refine ⟨h.resume (f := f) h1 hr (by simpa [hd]) h2, he.quiet (f := f) rfl ?_ ?_⟩
        · intro g _ _; rfl
        · intro v dl e hx; exact absurd hx (h4 v dl e)
      · refine ⟨h.resumeLate h1 hr hd (by omega) h3, he.quiet (f := f) rfl ?_ ?_⟩
        · intro g _ _; rfl
        · intro v dl e hx; exact absurd hx (h5 v dl e)
  have wunl : ∀ {i : Side} {ep : Nat} {dl : Option Nat} {op : Op V}, regOf (s.pc f) = some ⟨some i, ep, dl, true⟩ →
      s.unlink f i ep op = some (s', o) → WI s' ∧ EP s' := by
    intro i ep dl op h1 hs
    simp only [State.unlink, State.ret, State.goto] at hs
    split at hs <;> simp only [Option.some.injEq, Prod.mk.injEq, reduceCtorEq] at hs
    obtain ⟨rfl, rfl⟩ := hs
    refine ⟨h.unlink h1, he.quiet (f := f) rfl ?_ (by simp)⟩
    intro g _ _; rfl
  cases hp : s.pc f <;> simp only [run, hp] at hs
  case idle => cases hs
  case pushStart v dl =>
    split at hs <;> simp only [State.ret, State.goto, Option.some.injEq, Prod.mk.injEq] at hs <;>
      obtain ⟨rfl, rfl⟩ := hs <;> exact quiet (by simp [hp, regOf]) rfl (by simp) rfl rfl rfl rfl
  case pushTry v dl =>
    split at hs <;> simp only [Option.some.injEq, Prod.mk.injEq] at hs <;> obtain ⟨rfl, rfl⟩ := hs
    · refine ⟨h.create (by simp [hp, regOf]) (Or.inl rfl), he.quiet (f := f) rfl ?_ (by simp)⟩
      intro g hg _; simp [createWaker, hg]
    · refine ⟨WI.create (sl := s.slot) (v := v) (dl := dl) h (by simp [hp, regOf]) (Or.inr rfl), he.quiet (f := f) rfl ?_ (by simp)⟩
      intro g hg _; simp [createWaker, hg]
  case pushNotify v dl ep =>
    split at hs <;> simp only [Option.some.injEq, Prod.mk.injEq, reduceCtorEq] at hs
    obtain ⟨rfl, rfl⟩ := hs
    refine ⟨(h.notifyOne .cons).quiet rfl rfl rfl (reg_upd (by simp [hp, regOf])), he.quiet (f := f) rfl ?_ (by simp)⟩
    intro g _ hg; exact h.frame_notifyOne .cons (by simp [hg])
  case slotWait v dl ep =>
    simp only [State.resume] at hs
    split at hs
    case isFalse => cases hs
    rename_i hr
    have hep := rdy (r := ⟨none, ep, dl, false⟩) (by simp [hp, regOf]) rfl hr
    split at hs
    · simp only [Option.some.injEq, Prod.mk.injEq] at hs; obtain ⟨rfl, rfl⟩ := hs
      refine ⟨h.resume (f := f) (r := ⟨none, ep, none, false⟩) (by simp [hp, regOf]) hr (by simp) rfl, he.quiet (f := f) rfl ?_ ?_⟩
      · intro g _ _; rfl
      · intro v dl e hx; simp at hx; simp [consumeReady, hep]; omega
    · split at hs <;> simp only [Option.some.injEq, Prod.mk.injEq] at hs <;> obtain ⟨rfl, rfl⟩ := hs
      · refine ⟨h.resume (f := f) (r := ⟨none, ep, some _, false⟩) (by simp [hp, regOf]; rfl) hr (by simpa) rfl, he.quiet (f := f) rfl ?_ ?_⟩
        · intro g _ _; rfl
        · intro v dl e hx; simp at hx; simp [consumeReady, hep]; omega
      · refine ⟨h.slotLate hp hr rfl (by omega) rfl, he.quiet (f := f) rfl ?_ ?_⟩
        · intro g _ _; rfl
        · intro v dl e hx; simp at hx; simp [consumeReady, hep]; omega
  case slotAfter v dl ep =>
    simp only [State.ret, State.goto, Option.some.injEq, Prod.mk.injEq] at hs; obtain ⟨rfl, rfl⟩ := hs
    exact quiet (by simp [hp, regOf]) rfl (by simp) rfl rfl rfl rfl
  case slotLate v dl ep =>
    simp only [State.ret, State.goto, Option.some.injEq, Prod.mk.injEq] at hs; obtain ⟨rfl, rfl⟩ := hs
    exact quiet (by simp [hp, regOf]) rfl (by simp) rfl rfl rfl rfl
  case pushLock v dl =>
    split at hs
    case h_2 => cases hs
    split at hs <;> simp only [State.ret, State.goto, Option.some.injEq, Prod.mk.injEq] at hs <;>
      obtain ⟨rfl, rfl⟩ := hs <;> exact quiet (by simp [hp, regOf]) rfl (by simp) rfl rfl rfl rfl
  case pushLocked v dl =>
    split at hs <;> simp only [Option.some.injEq, Prod.mk.injEq] at hs <;> obtain ⟨rfl, rfl⟩ := hs
    · exact quiet (by simp [hp, regOf]) rfl (by simp) rfl rfl rfl rfl
    · refine ⟨h.block (by simp [hp, regOf]) (fun _ => rfl), he.quiet (f := f) rfl ?_ (by simp)⟩
      intro g hg _; simp [State.block, enqueue, createWaker, hg]
  case popStart op =>
    split at hs <;> simp only [State.goto, Option.some.injEq, Prod.mk.injEq] at hs <;>
      obtain ⟨rfl, rfl⟩ := hs <;> exact quiet (by simp [hp, regOf]) rfl (by simp) rfl rfl rfl rfl
  case popNotify op r =>
    split at hs <;> simp only [Option.some.injEq, Prod.mk.injEq, reduceCtorEq] at hs
    obtain ⟨rfl, rfl⟩ := hs
    refine ⟨(h.notifyOne .prod).quiet rfl rfl rfl (reg_upd (by simp [hp, regOf])), he.quiet (f := f) rfl ?_ (by simp)⟩
    intro g _ hg; exact h.frame_notifyOne .prod (by simp [hg])
  case popRead op r =>
    split at hs
    · split at hs <;> simp only [State.goto, State.ret, Option.some.injEq, Prod.mk.injEq] at hs <;>
        obtain ⟨rfl, rfl⟩ := hs <;> exact quiet (by simp [hp, regOf]) rfl (by simp) rfl rfl rfl rfl
    · simp only [State.crash, Option.some.injEq, Prod.mk.injEq] at hs
      obtain ⟨rfl, rfl⟩ := hs
      exact ⟨h, he⟩
  case popWake op r v =>
    split at hs <;> simp only [State.ret, State.goto, State.crash, Option.some.injEq, Prod.mk.injEq] at hs <;>
      obtain ⟨rfl, rfl⟩ := hs
    · rename_i v' ep hd
      refine ⟨(deref_wake h hd (he r.f)).quiet rfl rfl rfl (reg_upd (by simp [hp, regOf])), he.quiet (f := f) rfl ?_ (by simp)⟩
      intro g _ hg; exact WI.frame_wake he hd hg
    · exact ⟨h, he⟩
  case popLock op =>
    split at hs
    case h_2 => cases hs
    split at hs <;> simp only [State.ret, State.goto, Option.some.injEq, Prod.mk.injEq] at hs <;>
      obtain ⟨rfl, rfl⟩ := hs <;> exact quiet (by simp [hp, regOf]) rfl (by simp) rfl rfl rfl rfl
  case popLocked op =>
    split at hs <;> simp only [Option.some.injEq, Prod.mk.injEq] at hs <;> obtain ⟨rfl, rfl⟩ := hs
    · exact quiet (by simp [hp, regOf]) rfl (by simp) rfl rfl rfl rfl
    · refine ⟨h.block (by simp [hp, regOf]) (fun _ => rfl), he.quiet (f := f) rfl ?_ (by simp)⟩
      intro g hg _; simp [State.block, enqueue, createWaker, hg]
  case waitPush v dl ep => exact wres (r := ⟨some .prod, ep, dl, false⟩) (by simp [hp, regOf]) rfl rfl (by simp) (by simp) hs
  case waitPop p ep => exact wres (r := ⟨some .cons, ep, p.dl, false⟩) (by simp [hp, regOf]) rfl rfl (by simp) (by simp) hs
  case unlinkPush v dl ep => exact wunl (i := .prod) (ep := ep) (dl := dl) (by simp [hp, regOf]) hs
  case unlinkPop p ep => exact wunl (i := .cons) (ep := ep) (dl := p.dl) (by simp [hp, regOf]) hs
  case closeStart =>
    split at hs <;> simp only [State.ret, State.goto, Option.some.injEq, Prod.mk.injEq] at hs <;>
      obtain ⟨rfl, rfl⟩ := hs <;> exact quiet (by simp [hp, regOf]) rfl (by simp) rfl rfl rfl rfl
  case closeLoad =>
    split at hs <;> simp only [State.goto, Option.some.injEq, Prod.mk.injEq] at hs <;>
      obtain ⟨rfl, rfl⟩ := hs <;> exact quiet (by simp [hp, regOf]) rfl (by simp) rfl rfl rfl rfl
  case closeWake r =>
    split at hs <;> simp only [State.crash, Option.some.injEq, Prod.mk.injEq] at hs <;> obtain ⟨rfl, rfl⟩ := hs
    · rename_i v' ep hd
      refine ⟨(deref_wake h hd (he r.f)).quiet rfl rfl rfl (reg_upd (by simp [hp, regOf])), he.quiet (f := f) rfl ?_ (by simp)⟩
      intro g _ hg; exact WI.frame_wake he hd hg
    · exact ⟨h, he⟩
  case closeProd =>
    split at hs <;> simp only [Option.some.injEq, Prod.mk.injEq, reduceCtorEq] at hs
    obtain ⟨rfl, rfl⟩ := hs
    refine ⟨(h.notifyAll .prod).quiet rfl rfl rfl (reg_upd (by simp [hp, regOf])), he.quiet (f := f) rfl ?_ (by simp)⟩
    intro g _ hg; exact h.frame_notifyAll .prod (by simp [hg])
  case closeCons =>
    split at hs <;> simp only [State.ret, State.goto, Option.some.injEq, Prod.mk.injEq, reduceCtorEq] at hs
    obtain ⟨rfl, rfl⟩ := hs
    refine ⟨(h.notifyAll .cons).quiet rfl rfl rfl (reg_upd (by simp [hp, regOf])), he.quiet (f := f) rfl ?_ (by simp)⟩
    intro g _ hg; exact h.frame_notifyAll .cons (by simp [hg])
  case queryClosed =>
    simp only [State.ret, State.goto, Option.some.injEq, Prod.mk.injEq] at hs; obtain ⟨rfl, rfl⟩ := hs
    exact quiet (by simp [hp, regOf]) rfl (by simp) rfl rfl rfl rfl

theorem w_step {s s' : State V} {o : List (Obs V)} {e : Event V} (h : WI s) (he : EP s) (hs : step s e = some (s', o)) :
    WI s' ∧ EP s' := by
  simp only [step] at hs
  split at hs
  · cases hs
  cases e with
  | run f => exact w_run h he hs
  | fail f => exact w_run h he hs
  | call f op =>
    simp only [stepOk] at hs
    split at hs <;> simp only [Option.some.injEq, Prod.mk.injEq, reduceCtorEq] at hs
    rename_i hp
    obtain ⟨rfl, rfl⟩ := hs
    refine ⟨h.quiet rfl rfl rfl (reg_upd (by rw [hp, (regOf_startOf op).1]; rfl)), he.quiet (f := f) rfl (fun _ _ _ => rfl) ?_⟩
    intro v dl e hx; exact absurd hx ((regOf_startOf op).2 v dl e)
  | timer f =>
    simp only [stepOk] at hs
    split at hs
    case h_2 => cases hs
    rename_i ep d hp
    split at hs <;> simp only [Option.some.injEq, Prod.mk.injEq, reduceCtorEq] at hs
    obtain ⟨rfl, rfl⟩ := hs
    refine ⟨h.timer hp (by assumption), ?_⟩
    intro g v dl e hg
    change s.pc g = _ ∨ s.pc g = _ at hg
    have : g ≠ f := by rintro rfl; rcases hg with hg | hg <;> simp [hg, sleepOf] at hp
    rw [(wake_epoch_ne s.c ⟨f, ep⟩ this).1]; exact he g v dl e hg
  | tick n =>
    simp only [stepOk, Option.some.injEq, Prod.mk.injEq] at hs
    obtain ⟨rfl, rfl⟩ := hs
    obtain ⟨g, h⟩ := h
    exact ⟨⟨g, h.tick n⟩, he⟩
  | elsewhere f n =>
    simp only [stepOk] at hs
    split at hs <;> simp only [Option.some.injEq, Prod.mk.injEq, reduceCtorEq] at hs
    rename_i hp
    obtain ⟨rfl, rfl⟩ := hs
    obtain ⟨g, h⟩ := h
    refine ⟨⟨g, h.elsewhere (by simp [hp, regOf]) n⟩, ?_⟩
    intro g v dl e hg
    have : g ≠ f := by rintro rfl; simp [hp] at hg
    simp only [upd_apply, if_neg this]; exact he g v dl e hg

theorem reach_w {s : State V} {tr : List (Obs V)} (h : Reach step init s tr) : WI s ∧ EP s :=
  Reach.inv (fun s _ => WI s ∧ EP s) ⟨wi_init, by simp [EP, init]⟩ (fun _ _ _ _ _ _ hi hs => w_step hi.1 hi.2 hs) h

end Verif.Unbuf
