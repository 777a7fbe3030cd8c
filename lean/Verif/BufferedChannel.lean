import Verif.Ring
import Verif.WaitInv

/-!
# `buffered_channel`

`include/boost/fiber/buffered_channel.hpp`. Everything a call does between acquiring `splk_` and releasing it
(or suspending with it) is one step. A failed `try_lock` of the spinlock followed by a yield
(`:83-88,148-152`, …) changes nothing and is not a step of the model. `push_wait_for`/`pop_wait_for` are the
`_until` calls with deadline `now() + d` (`:189-202,323-328`). The `const&` and `&&` overloads differ only in
copying or moving the value and share a definition.

Copying or moving a value may throw (event `fail`). All of `push`, `pop`, … assign the value (`:119,139,159,181,223,250,
271,291,315,349`) under `splk_` before they move an index or notify anybody, and the lock is released by the
destructor of `lk`. The value a pop fails to move out is taken to be unharmed; a place behind the last value may be left
with anything, which no later call can see.
-/

namespace Verif.BufCh

/-- The two wait queues `waiting_producers_`, `waiting_consumers_` (`buffered_channel.hpp:44-45`). -/
inductive Side
  | prod | cons
  deriving DecidableEq, Repr

/-- API calls. `push v none` is `push`, `push v (some d)` is `push_wait_until`; likewise `pop`. -/
inductive Op (V : Type)
  | push (v : V) (dl : Option Nat)
  | tryPush (v : V)
  | pop (dl : Option Nat)
  | valuePop
  | tryPop
  | close
  | isClosed
  deriving DecidableEq, Repr

variable {V : Type}

/-- The queue a call may block in. -/
def Op.side : Op V → Option Side
  | .push _ _ => some .prod
  | .pop _ | .valuePop => some .cons
  | _ => none

/-- The deadline of a call. -/
def Op.dl : Op V → Option Nat
  | .push _ dl | .pop dl => dl
  | _ => none

/-- Results (`channel_op_status.hpp:20-26`): a status, for pops with the value obtained; `value_pop` returns a
value or throws `operation_not_permitted`. -/
inductive Res (V : Type)
  | pushed | closed | full | empty | timeout
  | popped (v : Option V)          -- `none`: a moved-from or never written object
  | threw
  | failed                         -- the exception of the value's copy or move
  | void
  | bool (b : Bool)
  deriving DecidableEq, Repr

/-- Where a fiber is. -/
inductive Pc (V : Type)
  | idle
  | entry (op : Op V)                 -- about to take the spinlock
  | waiting (op : Op V) (ep : Nat)    -- suspended in a wait queue
  | unlink (op : Op V) (ep : Nat)     -- resumed late, about to relock and unlink (`src/waker.cpp:33-44`)
  deriving DecidableEq, Repr

structure State (V : Type) where
  ring   : Ring V
  closed : Bool
  q      : Side → List Waker
  c      : Ctxs
  pc     : Fid → Pc V
  now    : Nat

inductive Event (V : Type)
  | call (f : Fid) (op : Op V)
  | run (f : Fid)
  | fail (f : Fid)                    -- as `run`, but copying or moving the value throws
  | timer (f : Fid)
  | tick (n : Nat)
  | elsewhere (f : Fid) (n : Nat)

inductive Obs (V : Type)
  | called (f : Fid) (op : Op V)
  | blocks (f : Fid)                                         -- the call suspended its fiber
  | expired (f : Fid) (t : Nat)                              -- the timer ended the suspension
  | ret (f : Fid) (op : Op V) (r : Res V) (woken : List Fid) (t : Nat)
      -- the call `op` took effect and returned `r` at time `t`, having released the fibers `woken`
  deriving DecidableEq, Repr

def init (cap : Nat) : State V :=
  { ring := Ring.make cap, closed := false, q := fun _ => [], c := Ctxs.init, pc := fun _ => .idle, now := 0 }

inductive Err
  | invalidArgument
  deriving DecidableEq, Repr

/-- `buffered_channel::buffered_channel` (`buffered_channel.hpp:65-72`). -/
def construct (cap : Nat) : Except Err (State V) :=
  if Ring.badCap cap then .error .invalidArgument else .ok (init cap)

/-- What a critical section decides. -/
inductive Out (V : Type)
  | ret (r : Res V)                                  -- return without touching the channel
  | put (v : V)                                      -- store, notify one consumer, return success
  | take                                             -- move out, notify one producer, return it
  | block                                            -- suspend
  | close                                            -- notify everybody
  deriving DecidableEq, Repr

/-- `push` and `push_wait_until` (`buffered_channel.hpp:145-165,167-187,204-229,231-257`). -/
def pushCS (s : State V) (v : V) : Out V :=
  if s.closed then .ret .closed else if s.ring.isFull then .block else .put v

/-- `try_push` (`buffered_channel.hpp:106-123,125-143`). -/
def tryPushCS (s : State V) (v : V) : Out V :=
  if s.closed then .ret .closed else if s.ring.isFull then .ret .full else .put v

/-- `pop` and `pop_wait_until` (`buffered_channel.hpp:277-297,330-355`). -/
def popCS (s : State V) : Out V :=
  if s.ring.isEmpty then (if s.closed then .ret .closed else .block) else .take

/-- `value_pop` (`buffered_channel.hpp:299-321`). -/
def valuePopCS (s : State V) : Out V :=
  if s.ring.isEmpty then (if s.closed then .ret .threw else .block) else .take

/-- `try_pop` (`buffered_channel.hpp:259-275`). -/
def tryPopCS (s : State V) : Out V :=
  if s.ring.isEmpty then (if s.closed then .ret .closed else .ret .empty) else .take

/-- `close` (`buffered_channel.hpp:92-104`). -/
def closeCS (s : State V) : Out V := if s.closed then .ret .void else .close

def cs (s : State V) : Op V → Out V
  | .push v _ => pushCS s v
  | .tryPush v => tryPushCS s v
  | .pop _ => popCS s
  | .valuePop => valuePopCS s
  | .tryPop => tryPopCS s
  | .close => closeCS s
  | .isClosed => .ret (.bool s.closed)          -- `:82-90`

/-- Replace one queue. -/
def updQ (q : Side → List Waker) (i : Side) (l : List Waker) : Side → List Waker :=
  fun j => if j = i then l else q j

/-- Perform the decision. -/
def apply (s : State V) (f : Fid) (op : Op V) : Out V → State V × List (Obs V)
  | .ret r => ({ s with pc := upd s.pc f .idle }, [.ret f op r [] s.now])
  | .put v =>
    let (c, q, w) := notifyOne s.c (s.q .cons)
    ({ s with ring := s.ring.put v, c := c, q := updQ s.q .cons q, pc := upd s.pc f .idle },
     [.ret f op .pushed w.toList s.now])
  | .take =>
    let (v, ring) := s.ring.take
    let (c, q, w) := notifyOne s.c (s.q .prod)
    ({ s with ring := ring, c := c, q := updQ s.q .prod q, pc := upd s.pc f .idle },
     [.ret f op (.popped v) w.toList s.now])
  | .block =>
    match op.side with
    | none => (s, [])      -- not reached: only blocking calls decide to block (`Props`)
    | some i =>
      let (c, q) := enqueue s.c (s.q i) f
      ({ s with c := c, q := updQ s.q i q, pc := upd s.pc f (.waiting op (s.c.epoch f + 1)) }, [.blocks f])
  | .close =>
    let (c, ws) := notifyAll s.c (s.q .prod)
    let (c', ws') := notifyAll c (s.q .cons)
    ({ s with closed := true, c := c', q := fun _ => [], pc := upd s.pc f .idle }, [.ret f op .void (ws ++ ws') s.now])

def run (s : State V) (f : Fid) : Option (State V × List (Obs V)) :=
  match s.pc f with
  | .idle => none
  | .entry op => some (apply s f op (cs s op))
  | .waiting op ep =>
    if s.c.ready f then
      match op.dl with
      | none => some ({ s with c := consumeReady s.c f, pc := upd s.pc f (.entry op) }, [])
      | some d =>       -- `return now() < sleep_tp` (`src/scheduler.cpp:298-301`)
        if s.now < d then
          some ({ s with c := consumeReady s.c f, pc := upd s.pc f (.entry op) }, [])
        else some ({ s with c := consumeReady s.c f, pc := upd s.pc f (.unlink op ep) }, [])
    else none
  | .unlink op ep =>
    match op.side with
    | none => none
    | some i =>
      some ({ s with q := updQ s.q i ((s.q i).filter (· ≠ ⟨f, ep⟩)), pc := upd s.pc f .idle },
        [.ret f op .timeout [] s.now])

/-- The copy or move of the value inside the critical section throws (`buffered_channel.hpp:119,139,159,181,223,250`
for pushes, `:271,291,315,349` for pops). Only critical sections that store or take a value perform one. -/
def runFail (s : State V) (f : Fid) : Option (State V × List (Obs V)) :=
  match s.pc f with
  | .entry op =>
    match cs s op with
    | .put _ | .take => some ({ s with pc := upd s.pc f .idle }, [.ret f op .failed [] s.now])
    | _ => none
  | _ => none

def step (s : State V) : Event V → Option (State V × List (Obs V))
  | .call f op =>
    match s.pc f with
    | .idle => some ({ s with pc := upd s.pc f (.entry op) }, [.called f op])
    | _ => none
  | .run f => run s f
  | .fail f => runFail s f
  | .timer f =>         -- `scheduler::sleep2ready_` (`src/scheduler.cpp:66-94`)
    match s.pc f with
    | .waiting op ep =>
      match op.dl with
      | some d =>
        if d ≤ s.now then
          let (c, ok) := wake s.c ⟨f, ep⟩
          some ({ s with c := c }, if ok then [.expired f s.now] else [])
        else none
      | none => none
    | _ => none
  | .tick n => some ({ s with now := s.now + n }, [])
  | .elsewhere f n =>
    match s.pc f with
    | .idle => some ({ s with c := { s.c with epoch := upd s.c.epoch f (s.c.epoch f + n) } }, [])
    | _ => none

/-! ## Invariant -/

/-- The registration of a fiber in a wait queue. -/
def regOf : Pc V → Option (WReg Side)
  | .waiting op ep => op.side.map fun i => ⟨i, ep, op.dl, false⟩
  | .unlink op ep => op.side.map fun i => ⟨i, ep, op.dl, true⟩
  | _ => none

/-- The call a fiber is in. -/
def opOf : Pc V → Option (Op V)
  | .idle => none
  | .entry op | .waiting op _ | .unlink op _ => some op

structure Inv (s : State V) : Prop where
  w  : WInv s.c s.q s.now (fun f => regOf (s.pc f))
  sd : ∀ f op ep, s.pc f = .waiting op ep ∨ s.pc f = .unlink op ep → ∃ i, op.side = some i

theorem cs_block {s : State V} {op : Op V} (h : cs s op = .block) : ∃ i, op.side = some i := by
  cases op <;> simp only [cs, pushCS, tryPushCS, popCS, valuePopCS, tryPopCS, closeCS] at h <;>
    simp only [Op.side] <;> grind

theorem inv_init (cap : Nat) : Inv (init cap : State V) :=
  ⟨WInv.init.congr (fun _ => rfl) (fun _ => rfl), by simp [init]⟩

/-- A step that moves `f` between program points without a registration. -/
theorem Inv.quiet {s : State V} (h : Inv s) {f : Fid} {p : Pc V} {r : Ring V} {cl : Bool}
    (h1 : regOf (s.pc f) = none) (h2 : opOf p = none ∨ ∃ op, p = .entry op) :
    Inv { s with ring := r, closed := cl, pc := upd s.pc f p } := by
  have hp : regOf p = none ∧ ∀ op ep, ¬ (p = .waiting op ep ∨ p = .unlink op ep) := by
    cases p <;> simp_all [opOf, regOf]
  refine ⟨h.w.congr (fun _ => rfl) ?_, ?_⟩
  · intro g; simp only [upd_apply]; split
    · subst_vars; rw [hp.1, h1]
    · rfl
  · intro g op ep hg
    simp only [upd_apply] at hg
    split at hg
    · exact absurd hg (hp.2 op ep)
    · exact h.sd g op ep hg

theorem inv_apply {s : State V} (h : Inv s) {f : Fid} {op : Op V} (hp : s.pc f = .entry op) {x : Out V}
    (hx : x = .block → ∃ i, op.side = some i) : Inv (apply s f op x).1 := by
  have hn : regOf (s.pc f) = none := by simp [hp, regOf]
  cases x with
  | ret r => exact h.quiet hn (Or.inl rfl)
  | put v =>
    have := h.w.notifyOne .cons (q' := updQ s.q .cons (notifyOne s.c (s.q .cons)).2.1) (fun _ => rfl)
    exact Inv.quiet (s := { s with c := (notifyOne s.c (s.q .cons)).1, q := updQ s.q .cons (notifyOne s.c (s.q .cons)).2.1 })
      ⟨this, h.sd⟩ hn (Or.inl rfl)
  | take =>
    have := h.w.notifyOne .prod (q' := updQ s.q .prod (notifyOne s.c (s.q .prod)).2.1) (fun _ => rfl)
    exact Inv.quiet (s := { s with c := (notifyOne s.c (s.q .prod)).1, q := updQ s.q .prod (notifyOne s.c (s.q .prod)).2.1 })
      ⟨this, h.sd⟩ hn (Or.inl rfl)
  | block =>
    obtain ⟨i, hi⟩ := hx rfl
    simp only [apply, hi]
    refine ⟨h.w.enqueue (f := f) (i := i) (dl := op.dl) hn (fun _ => rfl) ?_, ?_⟩
    · intro g; simp only [upd_apply]; split <;> simp_all [regOf]
    · intro g op' ep' hg
      simp only [upd_apply] at hg
      split at hg
      · simp only [Pc.waiting.injEq, reduceCtorEq, or_false] at hg; exact ⟨i, by rw [← hg.1, hi]⟩
      · exact h.sd g op' ep' hg
  | close =>
    have h1 := h.w.notifyAll .prod (q' := updQ s.q .prod []) (fun _ => rfl)
    have h2 := h1.notifyAll .cons (q' := fun _ => []) (by intro j; cases j <;> simp [updQ])
    have hq : updQ s.q .prod [] .cons = s.q .cons := by simp [updQ]
    rw [hq] at h2
    exact Inv.quiet (s := { s with c := (notifyAll (notifyAll s.c (s.q .prod)).1 (s.q .cons)).1, q := fun _ => [] })
      ⟨h2, h.sd⟩ hn (Or.inl rfl)

theorem inv_step {s s' : State V} {o : List (Obs V)} {e : Event V} (h : Inv s)
    (hs : step s e = some (s', o)) : Inv s' := by
  cases e with
  | call f op =>
    simp only [step] at hs
    split at hs <;> simp only [Option.some.injEq, Prod.mk.injEq, reduceCtorEq] at hs
    rename_i hp
    obtain ⟨rfl, rfl⟩ := hs
    exact h.quiet (by simp [hp, regOf]) (Or.inr ⟨op, rfl⟩)
  | timer f =>
    simp only [step] at hs
    split at hs <;> try simp only [reduceCtorEq] at hs
    rename_i op ep hp
    split at hs <;> try simp only [reduceCtorEq] at hs
    rename_i d hd
    split at hs <;> simp only [Option.some.injEq, Prod.mk.injEq, reduceCtorEq] at hs
    rename_i hle
    obtain ⟨rfl, rfl⟩ := hs
    obtain ⟨i, hi⟩ := h.sd f op ep (Or.inl hp)
    exact ⟨h.w.timer (f := f) (r := ⟨i, ep, op.dl, false⟩) (by simp [hp, regOf, hi]) rfl hd hle, h.sd⟩
  | tick n =>
    simp only [step, Option.some.injEq, Prod.mk.injEq] at hs
    obtain ⟨rfl, rfl⟩ := hs
    exact ⟨h.w.tick n, h.sd⟩
  | elsewhere f n =>
    simp only [step] at hs
    split at hs <;> simp only [Option.some.injEq, Prod.mk.injEq, reduceCtorEq] at hs
    rename_i hp
    obtain ⟨rfl, rfl⟩ := hs
    exact ⟨h.w.elsewhere (by simp [hp, regOf]) n, h.sd⟩
  | fail f =>
    simp only [step, runFail] at hs
    split at hs <;> try simp only [reduceCtorEq] at hs
    rename_i op hp
    split at hs <;> simp only [Option.some.injEq, Prod.mk.injEq, reduceCtorEq] at hs <;> obtain ⟨rfl, rfl⟩ := hs <;>
      exact h.quiet (by simp [hp, regOf]) (Or.inl rfl)
  | run f =>
    simp only [step, run] at hs
    split at hs
    · cases hs
    · rename_i op hp
      simp only [Option.some.injEq] at hs
      have := inv_apply h hp (x := cs s op) cs_block
      rw [hs] at this; exact this
    · rename_i op ep hp
      obtain ⟨i, hi⟩ := h.sd f op ep (Or.inl hp)
      have hreg : regOf (s.pc f) = some ⟨i, ep, op.dl, false⟩ := by simp [hp, regOf, hi]
      split at hs <;> try simp only [reduceCtorEq] at hs
      rename_i hr
      have early : (∀ d, op.dl = some d → s.now < d) →
          Inv { s with c := consumeReady s.c f, pc := upd s.pc f (.entry op) } := by
        intro hd
        refine ⟨h.w.resume (f := f) hreg hr hd ?_, ?_⟩
        · intro g; simp only [upd_apply]; split <;> simp_all [regOf]
        · intro g op' ep' hg
          simp only [upd_apply] at hg
          split at hg
          · simp at hg
          · exact h.sd g op' ep' hg
      split at hs
      · rename_i hd
        simp only [Option.some.injEq, Prod.mk.injEq] at hs
        obtain ⟨rfl, rfl⟩ := hs
        exact early (by simp [hd])
      · rename_i d hd
        split at hs <;> simp only [Option.some.injEq, Prod.mk.injEq] at hs <;> obtain ⟨rfl, rfl⟩ := hs
        · rename_i hlt; exact early (by simp [hd, hlt])
        · rename_i hlt
          refine ⟨h.w.resumeLate (f := f) hreg hr hd (by omega) ?_, ?_⟩
          · intro g; simp only [upd_apply]; split <;> simp_all [regOf]
          · intro g op' ep' hg
            simp only [upd_apply] at hg
            split at hg
            · simp only [reduceCtorEq, Pc.unlink.injEq, false_or] at hg; exact ⟨i, by rw [← hg.1, hi]⟩
            · exact h.sd g op' ep' hg
    · rename_i op ep hp
      split at hs <;> simp only [Option.some.injEq, Prod.mk.injEq, reduceCtorEq] at hs
      rename_i i hi
      obtain ⟨rfl, rfl⟩ := hs
      refine ⟨h.w.unlink (f := f) (r := ⟨i, ep, op.dl, true⟩) (by simp [hp, regOf, hi]) rfl (fun _ => rfl) ?_, ?_⟩
      · intro g; simp only [upd_apply]; split <;> simp_all [regOf]
      · intro g op' ep' hg
        simp only [upd_apply] at hg
        split at hg
        · simp at hg
        · exact h.sd g op' ep' hg

theorem reach_inv {cap : Nat} {s : State V} {tr : List (Obs V)} (h : Reach step (init cap) s tr) : Inv s :=
  Reach.inv (fun s _ => Inv s) (inv_init cap) (fun _ _ _ _ _ _ hi hs => inv_step hi hs) h

end Verif.BufCh
