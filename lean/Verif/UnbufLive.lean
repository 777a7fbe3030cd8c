import Verif.Fair
import Verif.Props.UnbufferedChannel

/-!
# Fair infinite executions of the unbuffered channel

The machine is `Verif.Unbuf` (`include/boost/fiber/unbuffered_channel.hpp`). Calls without a deadline; the fibers of a list `L` use the
channel.
-/

namespace Verif.Unbuf

variable {V : Type}

/-- The deadline of a call. -/
def Op.dl : Op V → Option Nat
  | .push _ dl | .pop dl => dl
  | _ => none

/-- How many steps a fiber can make by itself, and (times `5 * n + 10`) how many more times its call can disturb `n` fibers. `e`: the slot is
empty; `r`: the fiber has been scheduled. -/
def w (n : Nat) (e r : Bool) : Pc V → Nat
  | .idle => 0
  | .queryClosed => 1
  | .pushStart _ _ => 2 * (5 * n + 10) + (if e then 2 else 4)
  | .pushTry _ _ => 2 * (5 * n + 10) + (if e then 1 else 3)
  | .pushLock _ _ => 2 * (5 * n + 10) + (if e then 4 else 2)
  | .pushLocked _ _ => 2 * (5 * n + 10) + (if e then 3 else 1)
  | .waitPush _ _ _ => 2 * (5 * n + 10) + (if r then 5 else 0)
  | .unlinkPush _ _ _ => 1
  | .pushNotify _ _ _ => 5 * n + 10
  | .slotWait _ _ _ => if r then 3 else 1
  | .slotAfter _ _ _ => 1
  | .slotLate _ _ _ => 1
  | .popStart _ => 3 * (5 * n + 10) + (if e then 3 else 1)
  | .popLock _ => 3 * (5 * n + 10) + (if e then 2 else 3)
  | .popLocked _ => 3 * (5 * n + 10) + (if e then 1 else 2)
  | .waitPop _ _ => 3 * (5 * n + 10) + (if r then 4 else 0)
  | .unlinkPop _ _ => 1
  | .popNotify _ _ => 2 * (5 * n + 10) + 1
  | .popRead _ _ => (5 * n + 10) + 1
  | .popWake _ _ _ => 5 * n + 10
  | .closeStart => 3 * (5 * n + 10) + 3
  | .closeLoad => 3 * (5 * n + 10) + 2
  | .closeWake _ => 3 * (5 * n + 10) + 1
  | .closeProd => 2 * (5 * n + 10)
  | .closeCons => 5 * n + 10

theorem w_near (n : Nat) (e r e' r' : Bool) (p : Pc V) : w n e r p ≤ w n e' r' p + 5 := by
  cases p <;> simp only [w] <;> (repeat' split) <;> omega

theorem w_start (n : Nat) (e r : Bool) (op : Op V) : w n e r (startOf op) < 3 * (5 * n + 10) + 10 := by
  cases op <;> simp only [w, startOf] <;> (repeat' split) <;> omega

/-- The weight of a fiber. -/
def wt (n : Nat) (s : State V) (g : Fid) : Nat := w n s.slot.isNone (s.c.ready g) (s.pc g)

theorem wt_run {n : Nat} {s s' : State V} {o : List (Obs V)} {f : Fid} {b : Bool} (hw : WI s) (hlate : ∀ v dl ep, s.pc f ≠ .slotLate v dl ep)
    (hs : run s f b = some (s', o)) (hub : s'.ub = false) (hub0 : s.ub = false) :
    ∃ c, (∀ g, g ≠ f → wt n s' g ≤ wt n s g + c) ∧ wt n s' f + c * n < wt n s f := by
  have hoff : regOf (s.pc f) = none → s.c.ready f = false := by
    obtain ⟨gh, h⟩ := hw; exact h.off f
  have hfr := (run_frame hw hs).2.2
  have big : wt n s' f + 5 * n < wt n s f → ∃ c, (∀ g, g ≠ f → wt n s' g ≤ wt n s g + c) ∧ wt n s' f + c * n < wt n s f := by
    intro h
    refine ⟨5, fun g hg => ?_, h⟩
    simp only [wt, (hfr g hg).1]
    exact w_near n _ _ _ _ _
  have small : s'.slot = s.slot → (∀ g, g ≠ f → s'.c.ready g = s.c.ready g) → wt n s' f < wt n s f →
      ∃ c, (∀ g, g ≠ f → wt n s' g ≤ wt n s g + c) ∧ wt n s' f + c * n < wt n s f := by
    intro h1 h2 h
    refine ⟨0, fun g hg => ?_, by omega⟩
    simp only [wt, (hfr g hg).1, h1, h2 g hg]; omega
  clear hfr hw
  ucases s, f, hs, hp
  all_goals try (simp [State.crash] at hub; done)
  all_goals first
    | (refine small rfl ?_ ?_
       · intro g hg; simp [consumeReady, upd_apply, hg]; done
       · simp only [wt, w, hp, upd_same]; (repeat' split) <;> first | omega | simp_all [regOf]; done)
    | (refine big ?_
       simp only [wt, w, hp, upd_same]; (repeat' split) <;> first | omega | simp_all [regOf]; done)
    | skip

/-- The calls that may still be made and the steps of those under way. -/
def meas (k : Nat) (L : List Fid) (s : State V) : Nat :=
  lsum L fun g => (3 * (5 * L.length + 10) + 10) * (k - s.calls g) + wt L.length s g

theorem opOf_idle {p : Pc V} (h : opOf p = none) : p = .idle := by cases p <;> simp [opOf] at h ⊢

variable [DecidableEq V]

/-- Where fibers are when only those of `L` call, without deadlines. -/
theorem places {L : List Fid} {s : State V} {tr : List (Obs V)} (h : Reach step init s tr)
    (ho : ∀ f k op, Obs.called f k op ∈ tr → f ∈ L ∧ op.dl = none) :
    (∀ f, f ∉ L → s.pc f = .idle) ∧ (∀ f v dl ep, s.pc f ≠ .slotLate v dl ep) ∧ ∀ f, sleepOf (s.pc f) = none := by
  obtain ⟨h1, -, h3, h4, h5⟩ := reach_called h
  have hd : ∀ f op, opOf (s.pc f) = some op → op.dl = none := fun f op hop => (ho _ _ _ (h1 f op hop)).2
  refine ⟨fun f hf => ?_, fun f v dl ep hp => ?_, fun f => ?_⟩
  · cases hp : opOf (s.pc f) with
    | none => exact opOf_idle hp
    | some op => exact absurd (ho _ _ _ (h1 f op hp)).1 hf
  · obtain ⟨d, rfl⟩ := h3 f v dl ep hp
    have := hd f (.push v (some d)) (by simp [hp, opOf])
    simp [Op.dl] at this
  · cases hp : s.pc f <;> simp only [sleepOf]
    · rename_i v dl ep
      have := hd f (.push v dl) (by simp [hp, opOf])
      simp only [Op.dl] at this; simp [this]
    · rename_i v dl ep
      have := hd f (.push v dl) (by simp [hp, opOf])
      simp only [Op.dl] at this; simp [this]
    · rename_i p ep
      have := hd f p.op (by simp [hp, opOf])
      cases p <;> simp only [Op.dl, PopOp.op] at this <;> simp [PopOp.dl, this]

theorem meas_step {k : Nat} {L : List Fid} (hL : L.Nodup) {s s' : State V} {tr o : List (Obs V)} {e : Event V} (h : Reach step init s tr)
    (hs : step s e = some (s', o)) (ho : ∀ f k op, Obs.called f k op ∈ tr ++ o → f ∈ L ∧ op.dl = none) (hub : s'.ub = false)
    (hk : ∀ f ∈ L, s'.calls f ≤ k) (he : ¬ ((∃ n, e = .tick n) ∨ ∃ f n, e = .elsewhere f n)) : meas k L s' < meas k L s := by
  obtain ⟨p1, p2, p3⟩ := places h (fun f k op hm => ho f k op (by simp [hm]))
  have hub0 : s.ub = false := by
    simp only [step] at hs
    split at hs
    · cases hs
    · rename_i hx; simpa using hx
  have go : ∀ f b, run s f b = some (s', o) → meas k L s' < meas k L s := by
    intro f b hr
    have hw := (reach_w h).1
    obtain ⟨c, h1, h2⟩ := wt_run (n := L.length) hw (p2 f) hr hub hub0
    have hf : f ∈ L := Classical.byContradiction fun hf => by
      simp [run, p1 f hf] at hr
    have hcalls := (run_frame hw hr).1
    simp only [meas]
    have := lsum_one_le hL (c := c) (f := fun g => (3 * (5 * L.length + 10) + 10) * (k - s'.calls g) + wt L.length s' g)
      (g := fun g => (3 * (5 * L.length + 10) + 10) * (k - s.calls g) + wt L.length s g) hf (fun g _ hg => by
        have := h1 g hg
        simp only [hcalls]; omega)
    simp only [hcalls] at this ⊢
    omega
  cases e with
  | run f => exact go f false (by simpa [step, hub0, stepOk] using hs)
  | fail f => exact go f true (by simpa [step, hub0, stepOk] using hs)
  | timer f =>
    simp [step, hub0, stepOk, p3 f] at hs
  | tick n => exact absurd (.inl ⟨n, rfl⟩) he
  | elsewhere f n => exact absurd (.inr ⟨f, n, rfl⟩) he
  | call f op =>
    simp only [step, hub0, stepOk] at hs
    simp only [Bool.false_eq_true, if_false] at hs
    split at hs <;> simp only [Option.some.injEq, Prod.mk.injEq, reduceCtorEq] at hs
    rename_i hp
    obtain ⟨rfl, rfl⟩ := hs
    have hf := (ho f (s.calls f + 1) op (by simp)).1
    have hkf := hk f hf
    simp only [upd_same] at hkf
    have := lsum_one hL (f := fun g => (3 * (5 * L.length + 10) + 10) * (k - upd s.calls f (s.calls f + 1) g) +
        w L.length s.slot.isNone (s.c.ready g) (upd s.pc f (startOf op) g))
      (g := fun g => (3 * (5 * L.length + 10) + 10) * (k - s.calls g) + wt L.length s g) hf (fun g _ hg => by simp [upd_apply, hg, wt])
    have h1 := w_start L.length s.slot.isNone (s.c.ready f) op
    have h2 : wt L.length s f = 0 := by simp [wt, hp, w]
    have h3 : (3 * (5 * L.length + 10) + 10) * (k - s.calls f) =
        (3 * (5 * L.length + 10) + 10) * (k - (s.calls f + 1)) + (3 * (5 * L.length + 10) + 10) := by
      rw [show k - s.calls f = (k - (s.calls f + 1)) + 1 by omega, Nat.mul_succ]
    simp only [upd_same, h2, h3] at this
    simp only [meas, wt] at this ⊢
    omega

/-- Whether a fiber can go on depends on where it is, on the locks and on whether it has been scheduled. -/
theorem run_none {s s' : State V} {f : Fid} (hp : s'.pc f = s.pc f) (hl : s'.lk = s.lk) (hr : s'.c.ready f = s.c.ready f)
    (h : run s' f = none) : run s f = none := by
  revert h
  cases hq : s.pc f <;> rw [hq] at hp <;> simp only [run, hp, hq, hl, hr, State.resume, State.unlink]
  all_goals (repeat' split) <;> simp_all

/-! ## Infinite executions -/

/-- Only the fibers of `L` use the channel, and only with calls that have no deadline. -/
def Only (L : List Fid) (r : Run (step (V := V)) init) : Prop := ∀ i f k op, Obs.called f k op ∈ r.ob i → f ∈ L ∧ op.dl = none

omit [DecidableEq V] in
theorem run_mem {r : Run (step (V := V)) init} : ∀ j o, o ∈ r.tr j → ∃ m, o ∈ r.ob m := by
  intro j
  induction j with
  | zero => intro o ho; simp [Run.tr] at ho
  | succ j ih =>
    intro o ho
    rcases List.mem_append.1 ho with h | h
    · exact ih o h
    · exact ⟨j, h⟩

omit [DecidableEq V] in
/-- An execution that goes on for ever does nothing undefined. -/
theorem run_ub (r : Run (step (V := V)) init) (i : Nat) : (r.st i).ub = false := by
  have := r.next i
  simp only [step] at this
  split at this
  · cases this
  · rename_i hx; simpa using hx

/-- If the calls come to an end, the execution comes to rest. -/
theorem settle {L : List Fid} {r : Run (step (V := V)) init} (hL : L.Nodup) (ho : Only L r) (hf : r.Fair Event.run) {k N : Nat}
    (hk : ∀ i, N ≤ i → ∀ f ∈ L, (r.st i).calls f ≤ k) :
    ∃ M, N ≤ M ∧ (∀ i, M ≤ i → r.ob i = []) ∧ ∀ f, step (r.st M) (.run f) = none := by
  have ho' : ∀ i f k op, Obs.called f k op ∈ r.tr i → f ∈ L ∧ op.dl = none := by
    intro i f k op hm
    obtain ⟨m, hm⟩ := run_mem i _ hm
    exact ho m f k op hm
  have hdec : ∀ i, N ≤ i → ¬ ((∃ n, r.ev i = .tick n) ∨ ∃ f n, r.ev i = .elsewhere f n) → meas k L (r.st (i + 1)) < meas k L (r.st i) :=
    fun i hi he => meas_step hL (r.reach i) (r.next i) (ho' (i + 1)) (run_ub r _) (hk (i + 1) (by omega)) he
  have hels : ∀ i, ((∃ n, r.ev i = .tick n) ∨ ∃ f n, r.ev i = .elsewhere f n) → r.ob i = [] ∧ (r.st (i + 1)).pc = (r.st i).pc ∧
      (r.st (i + 1)).c.ready = (r.st i).c.ready ∧ (r.st (i + 1)).lk = (r.st i).lk ∧ (r.st (i + 1)).slot = (r.st i).slot ∧
      (r.st (i + 1)).calls = (r.st i).calls := by
    intro i he
    have hn := r.next i
    generalize r.ev i = e at hn he
    simp only [step, run_ub r i, Bool.false_eq_true, if_false] at hn
    rcases he with ⟨n, rfl⟩ | ⟨f, n, rfl⟩
    · simp only [stepOk, Option.some.injEq, Prod.mk.injEq] at hn
      rw [← hn.1, ← hn.2]; exact ⟨rfl, rfl, rfl, rfl, rfl, rfl⟩
    · simp only [stepOk] at hn
      split at hn <;> simp only [Option.some.injEq, Prod.mk.injEq, reduceCtorEq] at hn
      rw [← hn.1, ← hn.2]; exact ⟨rfl, rfl, rfl, rfl, rfl, rfl⟩
  obtain ⟨M, hM, hb, hq⟩ := r.settles hf (μ := fun i => meas k L (r.st i))
    (busy := fun i => ¬ ((∃ n, r.ev i = .tick n) ∨ ∃ f n, r.ev i = .elsewhere f n)) (N := N)
    (by
      intro i hi
      by_cases he : (∃ n, r.ev i = .tick n) ∨ ∃ f n, r.ev i = .elsewhere f n
      · obtain ⟨h1, h2, h3, h4, h5, h6⟩ := hels i he
        simp only [meas, wt, h2, h3, h5, h6, Nat.le_refl]
      · exact Nat.le_of_lt (hdec i hi he))
    (fun i hi he => hdec i hi he)
    (by intro i f _ he; simp [he])
    (by
      intro i f hi he
      obtain ⟨h1, h2, h3, h4, h5, h6⟩ := hels i (Classical.not_not.1 he)
      simp only [step, run_ub r, Bool.false_eq_true, if_false, stepOk]
      exact run_none (by rw [h2]) h4 (by rw [h3]))
  exact ⟨M, hM, fun i hi => (hels i (Classical.not_not.1 (hb i hi))).1, hq⟩

/-! ## Counting -/

def Obs.pushCall : Obs V → Bool
  | .called _ _ (.push _ _) => true
  | _ => false

def Obs.popCall : Obs V → Bool
  | .called _ _ (.pop _) | .called _ _ .valuePop => true
  | _ => false

def Obs.pushOk : Obs V → Bool
  | .ret _ _ (.push _ _) .pushed _ => true
  | _ => false

def Obs.popOk : Obs V → Bool
  | .ret _ _ _ (.popped _) _ => true
  | _ => false

def Obs.isPlaced : Obs V → Bool
  | .placed _ _ _ => true
  | _ => false

def Obs.isTook : Obs V → Bool
  | .took _ _ _ _ => true
  | _ => false

/-- Pushes and pops that have been called. -/
def pushCalls (tr : List (Obs V)) : Nat := tr.countP Obs.pushCall
def popCalls (tr : List (Obs V)) : Nat := tr.countP Obs.popCall

/-- Pushes that have returned `success`, pops that have returned a value. -/
def pushOks (tr : List (Obs V)) : Nat := tr.countP Obs.pushOk
def popOks (tr : List (Obs V)) : Nat := tr.countP Obs.popOk

def inPush (p : Pc V) : Nat :=
  match opOf p with
  | some (.push _ _) => 1
  | _ => 0

def inPop (p : Pc V) : Nat :=
  match opOf p with
  | some (.pop _) | some .valuePop => 1
  | _ => 0

/-- Past the point where the value was put on offer. -/
def offered : Pc V → Nat
  | .pushNotify _ _ _ | .slotWait _ _ _ | .slotAfter _ _ _ | .slotLate _ _ _ => 1
  | _ => 0

/-- Past the point where the offer was taken. -/
def holding : Pc V → Nat
  | .popNotify _ _ | .popRead _ _ | .popWake _ _ _ => 1
  | _ => 0

/-- Offers in the slot. -/
def full : Option Ref → Nat
  | none => 0
  | some _ => 1

structure C (L : List Fid) (s : State V) (tr : List (Obs V)) : Prop where
  push : pushCalls tr = pushOks tr + lsum L fun g => inPush (s.pc g)
  pop  : popCalls tr = popOks tr + lsum L fun g => inPop (s.pc g)
  pl   : tr.countP Obs.isPlaced = pushOks tr + lsum L fun g => offered (s.pc g)
  tk   : tr.countP Obs.isTook = popOks tr + lsum L fun g => holding (s.pc g)
  sl   : tr.countP Obs.isPlaced = tr.countP Obs.isTook + full s.slot

omit [DecidableEq V] in
theorem lsum_upd {L : List Fid} (hL : L.Nodup) {f : Fid} (hf : f ∈ L) (φ : Pc V → Nat) (pc : Fid → Pc V) (p : Pc V) :
    lsum L (fun g => φ (upd pc f p g)) + φ (pc f) = lsum L (fun g => φ (pc g)) + φ p := by
  have := lsum_one hL (f := fun g => φ (upd pc f p g)) (g := fun g => φ (pc g)) hf (fun g _ hg => by simp [upd_apply, hg])
  simpa using this

set_option maxHeartbeats 2000000 in
theorem C_run {L : List Fid} (hL : L.Nodup) {s s' : State V} {tr o : List (Obs V)} {f : Fid} {b : Bool} (h : C L s tr) (hf : f ∈ L)
    (hcl : s.closed = false) (hcalm : ∀ op, opOf (s.pc f) = some op → op.calm = true ∧ op.dl = none)
    (hlate : (∀ v dl ep, s.pc f ≠ .slotLate v dl ep) ∧ (∀ v dl ep, s.pc f ≠ .unlinkPush v dl ep) ∧ ∀ p ep, s.pc f ≠ .unlinkPop p ep)
    (hs : run s f b = some (s', o)) (hub : s'.ub = false) (hnt : NoThrow o) : C L s' (tr ++ o) := by
  obtain ⟨c1, c2, c3, c4, c5⟩ := h
  have sub : ∀ φ : Pc V → Nat, φ .idle = 0 → φ (s.pc f) ≤ lsum L (fun g => φ (s.pc g)) ∧
      ∀ p, lsum L (fun g => φ (upd s.pc f p g)) = lsum L (fun g => φ (s.pc g)) + φ p - φ (s.pc f) := by
    intro φ h0
    have := lsum_upd hL hf φ s.pc .idle
    exact ⟨by omega, fun p => by have := lsum_upd hL hf φ s.pc p; omega⟩
  obtain ⟨b1, u1⟩ := sub inPush rfl
  obtain ⟨b2, u2⟩ := sub inPop rfl
  obtain ⟨b3, u3⟩ := sub offered rfl
  obtain ⟨b4, u4⟩ := sub holding rfl
  clear sub
  generalize (lsum L fun g => inPush (s.pc g)) = n1 at c1 b1 u1
  generalize (lsum L fun g => inPop (s.pc g)) = n2 at c2 b2 u2
  generalize (lsum L fun g => offered (s.pc g)) = n3 at c3 b3 u3
  generalize (lsum L fun g => holding (s.pc g)) = n4 at c4 b4 u4
  obtain ⟨l1, l2, l3⟩ := hlate
  ucases s, f, hs, hp
  all_goals try (simp [State.crash] at hub; done)
  all_goals try (exact absurd hp (l1 _ _ _))
  all_goals try (exact absurd hp (l2 _ _ _))
  all_goals try (exact absurd hp (l3 _ _))
  all_goals try (have := (hcalm _ (by rw [hp]; rfl)).1; simp [Op.calm] at this; done)
  all_goals try (simp_all; done)
  all_goals
    have hn := hnt
    simp only [hp] at b1 b2 b3 b4 u1 u2 u3 u4
    clear hcalm l1 l2 l3 hub hnt
    refine ⟨?_, ?_, ?_, ?_, ?_⟩ <;>
      simp only [pushCalls, popCalls, pushOks, popOks, List.countP_append, List.countP_cons, List.countP_nil, u1, u2, u3, u4] at c1 c2 c3 c4 c5 ⊢ <;>
      clear u1 u2 u3 u4 <;>
      simp [inPush, inPop, offered, holding, opOf, Obs.pushCall, Obs.popCall, Obs.pushOk, Obs.popOk, Obs.isPlaced, Obs.isTook, PopOp.op, hcl] at b1 b2 b3 b4 ⊢
  all_goals try omega
  all_goals try (simp_all [full] <;> omega)
  all_goals try (exact absurd (List.mem_singleton.2 rfl) (hn _ _ _ _))
  all_goals cases ‹PopOp› <;> simp [Obs.popOk, Obs.pushOk, inPop, inPush, opOf, PopOp.op, closedRes] at * <;> omega

theorem reach_c {L : List Fid} (hL : L.Nodup) {s : State V} {tr : List (Obs V)} (h : Reach step init s tr) :
    (∀ f k op, Obs.called f k op ∈ tr → f ∈ L ∧ op.dl = none ∧ op ≠ .close) → NoThrow tr → C L s tr := by
  refine Reach.inv (fun s tr => (∀ f k op, Obs.called f k op ∈ tr → f ∈ L ∧ op.dl = none ∧ op ≠ .close) → NoThrow tr → C L s tr) ?_ ?_ h
  · intro _ _
    have z : ∀ φ : Pc V → Nat, φ .idle = 0 → lsum L (fun _ => φ .idle) = 0 := by
      intro φ h0
      have := lsum_le (L := L) (f := fun _ => φ .idle) (g := fun _ => 0) (c := 0) (fun _ _ => by simp [h0])
      have h0 : lsum L (fun _ => 0) = 0 := by
        clear this hL; induction L with
        | nil => rfl
        | cons x l ih => simp [ih]
      omega
    refine ⟨?_, ?_, ?_, ?_, ?_⟩ <;> simp [init, pushCalls, popCalls, pushOks, popOks, full]
    · exact (z inPush rfl).symm
    · exact (z inPop rfl).symm
    · exact (z offered rfl).symm
    · exact (z holding rfl).symm
  · intro s tr e s' o hr hi hs ho hnt
    have ho' : ∀ f k op, Obs.called f k op ∈ tr → f ∈ L ∧ op.dl = none ∧ op ≠ .close := fun f k op hm => ho f k op (by simp [hm])
    have hC := hi ho' hnt.left
    have calm : ∀ op : Op V, op.dl = none → op ≠ .close → op.calm = true := by
      intro op h1 h2
      cases op <;> simp_all [Op.dl, Op.calm]
    have hcalm : CalmTr tr := fun f k op hm => calm op (ho' f k op hm).2.1 (ho' f k op hm).2.2
    have hcalm' : CalmTr (tr ++ o) := fun f k op hm => calm op (ho f k op hm).2.1 (ho f k op hm).2.2
    have hub := (reach_ca (.tail e hr hs) hcalm').ub
    obtain ⟨r1, r2, r3, r4, r5⟩ := reach_called hr
    obtain ⟨p1, p2, p3⟩ := places hr (fun f k op hm => ⟨(ho' f k op hm).1, (ho' f k op hm).2.1⟩)
    rcases other_frame hs with ⟨f, b, -, h1⟩ | ⟨h1, -, -, -, -, -, -, -, -, h2⟩
    · have hcl : s.closed = false := by
        cases hc : s.closed with
        | false => rfl
        | true =>
          obtain ⟨g, hg⟩ := r2 hc
          obtain ⟨sp, q1, -⟩ := reach_sim hr
          have hsi : SI sp tr := by simpa using si_run si_init q1
          obtain ⟨k, hk⟩ := hsi.clc g hg
          exact absurd rfl (ho' _ _ _ hk).2.2
      have hf : f ∈ L := Classical.byContradiction fun hf => by simp [run, p1 f hf] at h1
      refine C_run hL hC hf hcl ?_ ⟨p2 f, ?_, ?_⟩ h1 hub hnt.right
      · intro op hop
        have := ho' _ _ _ (r1 f op hop)
        exact ⟨calm op this.2.1 this.2.2, this.2.1⟩
      · intro v dl ep hp
        obtain ⟨d, rfl⟩ := r4 f v dl ep hp
        have := (ho' _ _ _ (r1 f (.push v (some d)) (by simp [hp, opOf]))).2.1
        simp [Op.dl] at this
      · intro p ep hp
        obtain ⟨d, rfl⟩ := r5 f p ep hp
        have := (ho' _ _ _ (r1 f (.pop (some d)) (by simp [hp, opOf, PopOp.op]))).2.1
        simp [Op.dl] at this
    · obtain ⟨c1, c2, c3, c4, c5⟩ := hC
      rcases h2 with ⟨f, op, h3, h4, h5, h6, rfl⟩ | ⟨h3, h4, rfl, -⟩
      · have hf := (ho f (s.calls f + 1) op (by simp)).1
        have u1 := lsum_upd hL hf inPush s.pc (startOf op)
        have u2 := lsum_upd hL hf inPop s.pc (startOf op)
        have u3 := lsum_upd hL hf offered s.pc (startOf op)
        have u4 := lsum_upd hL hf holding s.pc (startOf op)
        rw [h3] at u1 u2 u3 u4
        have z1 : inPush (.idle : Pc V) = 0 := rfl
        have z2 : inPop (.idle : Pc V) = 0 := rfl
        have z3 : offered (.idle : Pc V) = 0 := rfl
        have z4 : holding (.idle : Pc V) = 0 := rfl
        have w3 : offered (startOf op) = 0 := by cases op <;> rfl
        have w4 : holding (startOf op) = 0 := by cases op <;> rfl
        refine ⟨?_, ?_, ?_, ?_, ?_⟩
        · have w1 : inPush (startOf op) = pushCalls [Obs.called f (s.calls f + 1) op] := by cases op <;> rfl
          simp only [h4, pushCalls, pushOks, List.countP_append] at c1 w1 ⊢
          have : List.countP Obs.pushOk [Obs.called f (s.calls f + 1) op] = 0 := rfl
          omega
        · have w1 : inPop (startOf op) = popCalls [Obs.called f (s.calls f + 1) op] := by cases op <;> rfl
          simp only [h4, popCalls, popOks, List.countP_append] at c2 w1 ⊢
          have : List.countP Obs.popOk [Obs.called f (s.calls f + 1) op] = 0 := rfl
          omega
        · simp only [h4, pushOks, List.countP_append] at c3 ⊢
          have : List.countP Obs.isPlaced [Obs.called f (s.calls f + 1) op] = 0 := rfl
          have : List.countP Obs.pushOk [Obs.called f (s.calls f + 1) op] = 0 := rfl
          omega
        · simp only [h4, popOks, List.countP_append] at c4 ⊢
          have : List.countP Obs.isTook [Obs.called f (s.calls f + 1) op] = 0 := rfl
          have : List.countP Obs.popOk [Obs.called f (s.calls f + 1) op] = 0 := rfl
          omega
        · simp only [h1, List.countP_append] at c5 ⊢
          have : List.countP Obs.isTook [Obs.called f (s.calls f + 1) op] = 0 := rfl
          have : List.countP Obs.isPlaced [Obs.called f (s.calls f + 1) op] = 0 := rfl
          omega
      · refine ⟨?_, ?_, ?_, ?_, ?_⟩ <;> simp only [h3, h1, List.append_nil] <;> assumption

omit [DecidableEq V] in
theorem lsum_zero {L : List Fid} {φ : Fid → Nat} (h : ∀ f ∈ L, φ f = 0) : lsum L φ = 0 := by
  induction L with
  | nil => rfl
  | cons x l ih => simp [h x (by simp), ih fun f hf => h f (by simp [hf])]

omit [DecidableEq V] in
theorem lsum_pos {L : List Fid} {φ : Fid → Nat} (h : lsum L φ ≠ 0) : ∃ f ∈ L, φ f ≠ 0 := by
  refine Classical.byContradiction fun hn => h (lsum_zero fun f hf => ?_)
  exact Classical.byContradiction fun h0 => hn ⟨f, hf, h0⟩

omit [DecidableEq V] in
/-- At most one term, and that is 1. -/
theorem lsum_single {L : List Fid} (hL : L.Nodup) {φ : Fid → Nat} {a : Fid} (ha : a ∈ L) (h : ∀ f ∈ L, f ≠ a → φ f = 0) :
    lsum L φ = φ a := by
  have := lsum_one hL (f := φ) (g := fun _ => 0) ha (fun y hy hne => by simp [h y hy hne])
  have h0 : lsum L (fun _ => 0) = 0 := lsum_zero fun _ _ => rfl
  simp only [h0] at this
  omega

/-- When nobody can go on, exactly as many pushes and pops have succeeded as can. -/
theorem rest_balance {L : List Fid} (hL : L.Nodup) {s : State V} {tr : List (Obs V)} (h : Reach step init s tr)
    (ho : ∀ f k op, Obs.called f k op ∈ tr → f ∈ L ∧ op.dl = none ∧ op ≠ .close) (hnt : NoThrow tr)
    (hq : ∀ f, step s (.run f) = none) :
    pushOks tr = min (pushCalls tr) (popCalls tr) ∧ popOks tr = min (pushCalls tr) (popCalls tr) := by
  have hcalm : CalmTr tr := by
    intro f k op hm
    have := ho f k op hm
    cases op <;> simp_all [Op.dl, Op.calm]
  have ca := reach_ca h hcalm
  have hq' : ∀ f, run s f = none := fun f => by simpa [step, ca.ub, stepOk] using hq f
  have hst := stuck_cases (reach_pi h) hq'
  have hC := reach_c hL h ho hnt
  obtain ⟨r1, -⟩ := reach_called h
  obtain ⟨p1, -⟩ := places h (fun f k op hm => ⟨(ho f k op hm).1, (ho f k op hm).2.1⟩)
  have hheld : ∀ g, (s.pc g).held = none := by
    intro g
    rcases hst g with h3 | ⟨_, ⟨_, _, _, h3⟩ | ⟨_, _, _, h3⟩ | ⟨_, _, h3⟩⟩ <;> rw [h3] <;> rfl
  have hhold : lsum L (fun g => holding (s.pc g)) = 0 := lsum_zero fun g _ => by
    rcases hst g with h3 | ⟨_, ⟨_, _, _, h3⟩ | ⟨_, _, _, h3⟩ | ⟨_, _, h3⟩⟩ <;> rw [h3] <;> rfl
  have hoff : ∀ g, offered (s.pc g) ≠ 0 → s.slot = some ⟨g, s.calls g⟩ := by
    intro g hg
    rcases hst g with h3 | ⟨hr, ⟨v, dl, ep, h3⟩ | ⟨_, _, _, h3⟩ | ⟨_, _, h3⟩⟩
    · simp [h3, offered] at hg
    · obtain ⟨gh, hw⟩ := (reach_w h).1
      have hep := (hw.not_ready_iff (r := ⟨none, ep, dl, false⟩) (f := g) (by simp [h3, regOf]) rfl).1 hr
      rcases reach_off h hnt g ep (by simp [h3, Pc.offering]) hep with h4 | ⟨g', h4⟩
      · exact h4
      · rw [hheld] at h4; cases h4
    · simp [h3, offered] at hg
    · simp [h3, offered] at hg
  have hfull : lsum L (fun g => offered (s.pc g)) = full s.slot := by
    cases hsl : s.slot with
    | none =>
      refine lsum_zero fun g _ => Classical.byContradiction fun hg => ?_
      rw [hoff g hg] at hsl; cases hsl
    | some r =>
      obtain ⟨-, ep, h2, -⟩ := ca.slot r hsl
      have hne : s.pc r.f ≠ .idle := by intro h3; simp [h3, Pc.offering] at h2
      have hm : r.f ∈ L := Classical.byContradiction fun hf => hne (p1 _ hf)
      rw [lsum_single hL hm (φ := fun g => offered (s.pc g))]
      · rcases hst r.f with h3 | ⟨_, ⟨_, _, _, h3⟩ | ⟨_, _, _, h3⟩ | ⟨_, _, h3⟩⟩
        · exact absurd h3 hne
        · simp [h3, offered, full]
        · simp [h3, Pc.offering] at h2
        · simp [h3, Pc.offering] at h2
      · intro f _ hf
        refine Classical.byContradiction fun hg => ?_
        rw [hoff f hg] at hsl
        simp only [Option.some.injEq] at hsl
        exact hf (by rw [← hsl])
  have hin : ∀ f op, opOf (s.pc f) = some op → InCall tr f (s.calls f) op := by
    intro f op hop
    refine ⟨r1 f op hop, fun x t hm => ?_⟩
    obtain ⟨sp, q1, q2⟩ := reach_sim h
    have hsi : SI sp tr := by simpa using si_run si_init q1
    obtain ⟨ph, hc, -⟩ := q2.call hop
    exact (hsi.over _ _ _ _ _ hm).2 _ hc rfl
  have hnot : lsum L (fun g => inPush (s.pc g)) = 0 ∨ lsum L (fun g => inPop (s.pc g)) = 0 := by
    refine Classical.byContradiction fun hn => ?_
    obtain ⟨f, -, hf⟩ := lsum_pos (fun h0 => hn (.inl h0))
    obtain ⟨g, -, hg⟩ := lsum_pos (fun h0 => hn (.inr h0))
    have hc : ∀ f k op, Obs.called f k op ∈ tr → op ≠ .close ∧ (∀ v d, op ≠ .push v (some d)) ∧ ∀ d, op ≠ .pop (some d) := by
      intro f k op hm
      obtain ⟨-, h2, h3⟩ := ho f k op hm
      refine ⟨h3, fun v d e => ?_, fun d e => ?_⟩ <;> subst e <;> simp [Op.dl] at h2
    have hpf : ∃ v, opOf (s.pc f) = some (.push v none) := by
      simp only [inPush] at hf
      split at hf
      · rename_i v dl hop
        have := (ho _ _ _ (r1 f _ hop)).2.1
        simp only [Op.dl] at this; subst this; exact ⟨v, hop⟩
      · exact absurd rfl hf
    have hpg : ∃ op, opOf (s.pc g) = some op ∧ (op = .pop none ∨ op = .valuePop) := by
      simp only [inPop] at hg
      split at hg
      · rename_i dl hop
        have := (ho _ _ _ (r1 g _ hop)).2.1
        simp only [Op.dl] at this; subst this; exact ⟨_, hop, .inl rfl⟩
      · rename_i hop; exact ⟨_, hop, .inr rfl⟩
      · exact absurd rfl hg
    obtain ⟨v, hv⟩ := hpf
    obtain ⟨op, hop, ho2⟩ := hpg
    exact no_mutual_block h hc hnt hq (hin f _ hv) (hin g _ hop) ho2
  obtain ⟨c1, c2, c3, c4, c5⟩ := hC
  omega

end Verif.Unbuf
