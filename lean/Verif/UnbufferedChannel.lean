import Verif.WaitInv

/-!
# `unbuffered_channel`

`include/boost/fiber/unbuffered_channel.hpp`. The channel mixes a lock-free slot with two wait queues under two
spinlocks, so the model has one step per access to shared memory:

* `try_push_` (`:72-83`) and `try_pop_` (`:85-95`) are load/compare-exchange loops that retry until either the load
  finds the slot occupied (resp. empty) or the exchange succeeds; each is one step, placed at that load or exchange;
* a spinlock that protects nothing but a wait queue is taken and released within one step; where the holder also
  reads `closed_` and then `slot_` (`:150-157,314-320`) the lock is held across two steps (`lk`);
* `create_waker` (`:135`) only changes the caller's own epoch and is merged with the following `try_push_`.

A `slot` object lives on the stack of the `push` call that created it (`:130`). Slots are named by the fiber and the
number of its call; using one whose call has returned is undefined behaviour, which the model shows as the
observation `ub`, after which there are no more steps. Whether a value has been moved from is not tracked.

Moving the value out of the slot (`:309,336,375`) may throw (event `fail`); the popping call then ends with that
exception, without reaching `s->w.wake()`. Copying the value into the slot (`:130,164,214,260`) comes first in a push:
when that throws the push has done nothing, and no call is recorded. The move into the result of `value_pop` (`:339`) does not throw.
-/

namespace Verif.Unbuf

/-- The two wait queues and their spinlocks (`unbuffered_channel.hpp:62-65`). -/
inductive Side
  | prod | cons
  deriving DecidableEq, Repr

/-- API calls; `push v (some d)` is `push_wait_until`, `pop (some d)` is `pop_wait_until`. The destructor is
`close` (`:100-102`). -/
inductive Op (V : Type)
  | push (v : V) (dl : Option Nat)
  | pop (dl : Option Nat)
  | valuePop
  | close
  | isClosed
  deriving DecidableEq, Repr

variable {V : Type}

/-- The receiving calls. -/
inductive PopOp
  | pop (dl : Option Nat)
  | valuePop
  deriving DecidableEq, Repr

def PopOp.op : PopOp → Op V
  | .pop dl => .pop dl
  | .valuePop => .valuePop

def PopOp.dl : PopOp → Option Nat
  | .pop dl => dl
  | .valuePop => none

/-- Results; `pushed` is `channel_op_status::success` of a push. -/
inductive Res (V : Type)
  | pushed | closed | timeout
  | popped (v : V)
  | threw
  | failed              -- the exception of moving the value
  | void
  | bool (b : Bool)
  deriving DecidableEq, Repr

/-- The address of a `slot` object: the `k`-th call of fiber `f`. -/
structure Ref where
  f : Fid
  k : Nat
  deriving DecidableEq, Repr

/-- Where a fiber is. -/
inductive Pc (V : Type)
  | idle
  | pushStart (v : V) (dl : Option Nat)                -- about to read `closed_` (`:132,216`)
  | pushTry (v : V) (dl : Option Nat)                  -- about to `try_push_` (`:135-136,219-220`)
  | pushNotify (v : V) (dl : Option Nat) (ep : Nat)    -- slot published; about to notify and suspend (`:137-140,221-224`)
  | slotWait (v : V) (dl : Option Nat) (ep : Nat)      -- suspended until the value is consumed
  | slotAfter (v : V) (dl : Option Nat) (ep : Nat)     -- resumed, about to read `closed_` (`:142,232`)
  | slotLate (v : V) (dl : Option Nat) (ep : Nat)      -- resumed after the deadline, about to clear the slot (`:226-229`)
  | pushLock (v : V) (dl : Option Nat)                 -- slot occupied; about to lock and read `closed_` (`:149-150,239-240`)
  | pushLocked (v : V) (dl : Option Nat)               -- holding `splk_producers_`, about to read `slot_` (`:153,243`)
  | popStart (p : PopOp)                               -- about to `try_pop_` (`:304,330,369`)
  | popNotify (p : PopOp) (r : Ref)                    -- took `r`; about to notify a producer (`:305-308,331-334,370-373`)
  | popRead (p : PopOp) (r : Ref)                      -- about to move the value out (`:309,336,375`)
  | popWake (p : PopOp) (r : Ref) (v : V)              -- about to wake the producer (`:311,338,377`)
  | popLock (p : PopOp)                                -- slot empty; about to lock and read `closed_` (`:314-315,341-342,380-381`)
  | popLocked (p : PopOp)                              -- holding `splk_consumers_`, about to read `slot_` (`:318,347,384`)
  | waitPush (v : V) (dl : Option Nat) (ep : Nat)      -- suspended among the producers (`:157,190,247,292`)
  | waitPop (p : PopOp) (ep : Nat)                     -- suspended among the consumers (`:321,350,387`)
  | unlinkPush (v : V) (dl : Option Nat) (ep : Nat)    -- resumed late, about to relock and unlink (`src/waker.cpp:33-44`)
  | unlinkPop (p : PopOp) (ep : Nat)
  | closeStart                                         -- about to exchange `closed_` (`:113`)
  | closeLoad                                          -- about to load `slot_` (`:115`)
  | closeWake (r : Ref)                                -- about to wake the producer of `r` (`:118`)
  | closeProd                                          -- about to lock and notify the producers (`:120-121`)
  | closeCons                                          -- holding `splk_producers_`; about to notify the consumers (`:123-124`)
  | queryClosed                                        -- `is_closed` (`:107-109`)
  deriving DecidableEq, Repr

structure State (V : Type) where
  slot   : Option Ref
  closed : Bool
  q      : Side → List Waker
  lk     : Side → Option Fid
  c      : Ctxs
  pc     : Fid → Pc V
  calls  : Fid → Nat
  now    : Nat
  ub     : Bool

inductive Event (V : Type)
  | call (f : Fid) (op : Op V)
  | run (f : Fid)
  | fail (f : Fid)      -- as `run`, but if this step moves a value, that throws
  | timer (f : Fid)
  | tick (n : Nat)
  | elsewhere (f : Fid) (n : Nat)

/-- Observations; `k`, `j` are call numbers of the fibers next to them. -/
inductive Obs (V : Type)
  | called (f : Fid) (k : Nat) (op : Op V)
  | placed (f : Fid) (k : Nat) (v : V)               -- the value is on offer
  | took (g : Fid) (j : Nat) (f : Fid) (k : Nat)     -- call `j` of `g` took the offer of call `k` of `f`
  | closedAt (f : Fid)                               -- the channel became closed
  | ret (f : Fid) (k : Nat) (op : Op V) (r : Res V) (t : Nat)
  | ub (f : Fid)                                     -- a slot was used after its `push` call had returned
  deriving DecidableEq, Repr

def init : State V :=
  { slot := none, closed := false, q := fun _ => [], lk := fun _ => none, c := Ctxs.init, pc := fun _ => .idle,
    calls := fun _ => 0, now := 0, ub := false }

/-- The `slot` object of a running `push` call: its value, and the waker in it (absent before `:135`). -/
def frameOf : Pc V → Option (V × Option Nat)
  | .pushStart v _ | .pushTry v _ | .pushLock v _ | .pushLocked v _ => some (v, none)
  | .pushNotify v _ ep | .slotWait v _ ep | .slotAfter v _ ep | .slotLate v _ ep => some (v, some ep)
  | .waitPush v _ _ | .unlinkPush v _ _ => some (v, none)
  | _ => none

/-- Follow a `slot *`; `none` if the object is gone. -/
def State.deref (s : State V) (r : Ref) : Option (V × Option Nat) :=
  if s.calls r.f = r.k then frameOf (s.pc r.f) else none

def setQ (q : Side → List Waker) (i : Side) (l : List Waker) : Side → List Waker := fun j => if j = i then l else q j
def setLk (l : Side → Option Fid) (i : Side) (x : Option Fid) : Side → Option Fid := fun j => if j = i then x else l j

def State.goto (s : State V) (f : Fid) (p : Pc V) : State V := { s with pc := upd s.pc f p }

/-- The call returns. -/
def State.ret (s : State V) (f : Fid) (op : Op V) (r : Res V) : State V × List (Obs V) :=
  (s.goto f .idle, [.ret f (s.calls f) op r s.now])

def State.crash (s : State V) (f : Fid) : State V × List (Obs V) := ({ s with ub := true }, [.ub f])

/-- `pop` reports, `value_pop` throws that the channel is closed (`:316,342-345,383`). -/
def closedRes : PopOp → Res V
  | .valuePop => .threw
  | .pop _ => .closed

/-- Suspend in wait queue `i`, releasing its spinlock (`src/waker.cpp:17-23,26-32`). -/
def State.block (s : State V) (f : Fid) (i : Side) (p : Nat → Pc V) : State V :=
  let (c, l) := enqueue s.c (s.q i) f
  { s with c := c, q := setQ s.q i l, lk := setLk s.lk i none, pc := upd s.pc f (p (s.c.epoch f + 1)) }

/-- Remove the own entry from wait queue `i`, the spinlock being free, and return `timeout`
(`src/waker.cpp:33-44`). -/
def State.unlink (s : State V) (f : Fid) (i : Side) (ep : Nat) (op : Op V) : Option (State V × List (Obs V)) :=
  match s.lk i with
  | none => some ({ s with q := setQ s.q i ((s.q i).filter (· ≠ Waker.mk f ep)) }.ret f op .timeout)
  | some _ => none

/-- Resume a suspended fiber: at `p` if untimed or in time, else at `late`; `return now() < sleep_tp`
(`src/scheduler.cpp:298-301`). -/
def State.resume (s : State V) (f : Fid) (dl : Option Nat) (p late : Pc V) : Option (State V × List (Obs V)) :=
  if s.c.ready f then
    match dl with
    | none => some ({ s with c := consumeReady s.c f, pc := upd s.pc f p }, [])
    | some d =>
      if s.now < d then some ({ s with c := consumeReady s.c f, pc := upd s.pc f p }, [])
      else some ({ s with c := consumeReady s.c f, pc := upd s.pc f late }, [])
  else none

/-- Where a call starts. -/
def startOf : Op V → Pc V
  | .push v dl => .pushStart v dl
  | .pop dl => .popStart (.pop dl)
  | .valuePop => .popStart .valuePop
  | .close => .closeStart
  | .isClosed => .queryClosed

/-- The next access of fiber `f` to shared memory. `push` `:128-160,162-193`, `push_wait_until` `:210-253,256-298`,
`pop` `:300-324`, `value_pop` `:326-353`, `pop_wait_until` `:363-391`, `close` `:111-126`, `is_closed` `:107-109`.
`b`: moving a value throws. -/
def run (s : State V) (f : Fid) (b : Bool := false) : Option (State V × List (Obs V)) :=
  match s.pc f with
  | .idle => none
  | .pushStart v dl =>
    if s.closed then some (s.ret f (.push v dl) .closed) else some (s.goto f (.pushTry v dl), [])
  | .pushTry v dl =>
    let (w, c) := createWaker s.c f
    match s.slot with
    | none => some ({ s with slot := some ⟨f, s.calls f⟩, c := c, pc := upd s.pc f (.pushNotify v dl w.ep) },
        [.placed f (s.calls f) v])
    | some _ => some ({ s with c := c, pc := upd s.pc f (.pushLock v dl) }, [])
  | .pushNotify v dl ep =>
    match s.lk .cons with
    | none =>
      let (c, l, _) := notifyOne s.c (s.q .cons)
      some ({ s with c := c, q := setQ s.q .cons l, pc := upd s.pc f (.slotWait v dl ep) }, [])
    | some _ => none
  | .slotWait v dl ep => s.resume f dl (.slotAfter v dl ep) (.slotLate v dl ep)
  | .slotAfter v dl _ => some (s.ret f (.push v dl) (if s.closed then .closed else .pushed))
  | .slotLate v dl _ =>
    let slot := if s.slot = some ⟨f, s.calls f⟩ then none else s.slot
    some ({ s with slot := slot }.ret f (.push v dl) .timeout)
  | .pushLock v dl =>
    match s.lk .prod with
    | none =>
      if s.closed then some (s.ret f (.push v dl) .closed)
      else some ({ s with lk := setLk s.lk .prod (some f), pc := upd s.pc f (.pushLocked v dl) }, [])
    | some _ => none
  | .pushLocked v dl =>
    match s.slot with
    | none => some ({ s with lk := setLk s.lk .prod none, pc := upd s.pc f (.pushStart v dl) }, [])
    | some _ => some (s.block f .prod (.waitPush v dl), [])
  | .popStart p =>
    match s.slot with
    | some r => some ({ s with slot := none, pc := upd s.pc f (.popNotify p r) }, [.took f (s.calls f) r.f r.k])
    | none => some (s.goto f (.popLock p), [])
  | .popNotify p r =>
    match s.lk .prod with
    | none =>
      let (c, l, _) := notifyOne s.c (s.q .prod)
      some ({ s with c := c, q := setQ s.q .prod l, pc := upd s.pc f (.popRead p r) }, [])
    | some _ => none
  | .popRead p r =>
    match s.deref r with
    | some (v, _) => if b then some (s.ret f p.op .failed) else some (s.goto f (.popWake p r v), [])
    | none => some (s.crash f)
  | .popWake p r v =>
    match s.deref r with
    | some (_, some ep) => some ({ s with c := (wake s.c ⟨r.f, ep⟩).1 }.ret f p.op (.popped v))
    | _ => some (s.crash f)
  | .popLock p =>
    match s.lk .cons with
    | none =>
      if s.closed then some (s.ret f p.op (closedRes p))
      else some ({ s with lk := setLk s.lk .cons (some f), pc := upd s.pc f (.popLocked p) }, [])
    | some _ => none
  | .popLocked p =>
    match s.slot with
    | some _ => some ({ s with lk := setLk s.lk .cons none, pc := upd s.pc f (.popStart p) }, [])
    | none => some (s.block f .cons (.waitPop p), [])
  | .waitPush v dl ep => s.resume f dl (.pushStart v dl) (.unlinkPush v dl ep)
  | .waitPop p ep => s.resume f p.dl (.popStart p) (.unlinkPop p ep)
  | .unlinkPush v dl ep => s.unlink f .prod ep (.push v dl)
  | .unlinkPop p ep => s.unlink f .cons ep p.op
  | .closeStart =>
    if s.closed then some (s.ret f .close .void)
    else some ({ s with closed := true, pc := upd s.pc f .closeLoad }, [.closedAt f])
  | .closeLoad =>
    match s.slot with
    | some r => some (s.goto f (.closeWake r), [])
    | none => some (s.goto f .closeProd, [])
  | .closeWake r =>
    match s.deref r with
    | some (_, some ep) => some ({ s with c := (wake s.c ⟨r.f, ep⟩).1, pc := upd s.pc f .closeProd }, [])
    | _ => some (s.crash f)
  | .closeProd =>
    match s.lk .prod with
    | none => some ({ s with c := (notifyAll s.c (s.q .prod)).1, q := setQ s.q .prod [], lk := setLk s.lk .prod (some f),
                             pc := upd s.pc f .closeCons }, [])
    | some _ => none
  | .closeCons =>
    match s.lk .cons with
    | none => some ({ s with c := (notifyAll s.c (s.q .cons)).1, q := setQ s.q .cons [],
                             lk := setLk s.lk .prod none }.ret f .close .void)
    | some _ => none
  | .queryClosed => some (s.ret f .isClosed (.bool s.closed))

/-- What the sleep queue knows about a suspended fiber: the epoch of the waker and the deadline. -/
def sleepOf : Pc V → Option (Nat × Nat)
  | .waitPush _ dl ep => dl.map (ep, ·)
  | .waitPop p ep => p.dl.map (ep, ·)
  | .slotWait _ dl ep => dl.map (ep, ·)
  | _ => none

def stepOk (s : State V) : Event V → Option (State V × List (Obs V))
  | .call f op =>
    match s.pc f with
    | .idle => some ({ s with calls := upd s.calls f (s.calls f + 1), pc := upd s.pc f (startOf op) },
        [.called f (s.calls f + 1) op])
    | _ => none
  | .run f => run s f
  | .fail f => run s f true
  | .timer f =>         -- `scheduler::sleep2ready_` (`src/scheduler.cpp:66-94`)
    match sleepOf (s.pc f) with
    | some (ep, d) => if d ≤ s.now then some ({ s with c := (wake s.c ⟨f, ep⟩).1 }, []) else none
    | none => none
  | .tick n => some ({ s with now := s.now + n }, [])
  | .elsewhere f n =>
    match s.pc f with
    | .idle => some ({ s with c := { s.c with epoch := upd s.c.epoch f (s.c.epoch f + n) } }, [])
    | _ => none

/-- After undefined behaviour nothing more is said. -/
def step (s : State V) (e : Event V) : Option (State V × List (Obs V)) := if s.ub then none else stepOk s e

end Verif.Unbuf
