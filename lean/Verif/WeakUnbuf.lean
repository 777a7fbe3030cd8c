import Verif.Weak

/-!
# `unbuffered_channel` under weak memory

`push`, `pop` and `close` of `include/boost/fiber/unbuffered_channel.hpp` on the memory of `Verif/Weak.lean`, with the memory
orders of the code. Location 0 is `slot_` (0: `nullptr`, `c + 1`: the slot of push call `c`), location 1 is `closed_`. From
location 2 on there are the user's data: a program owns data, uses what it owns, and gives data away with its calls:

* `push x` gives data `x` to the pop that gets the value;
* `pop (some y)` gives data `y` to the push whose value it takes: that call may use it once it returned `success`;
* `close (some z)` leaves data `z` to the first call that returns `closed`.

Simplifications:
* Every fiber runs on a thread of its own. (Fibers of one thread share its view, which only removes behaviours.)
* A spinlock passes the view of the one who releases it to the one who acquires it (C73 for `spinlock_ttas` and
  `spinlock_ttas_adaptive`); waking a fiber passes the view of the waker to the fiber (`context::wake` is a
  read-modify-write with `memory_order_acq_rel`, and the ready queue of another thread is protected by a spinlock). Epochs of
  wakers are only changed by read-modify-writes, and are kept outside of the weak memory.
* A slot is identified by its call, not by its address: if the same address is used again between the `load` and the
  `compare_exchange_strong` of `try_pop_`, then the run in which the `load` comes later is also a run.
* Without the timed calls.
-/

namespace Verif.WeakUnbuf

open Weak

/-- `waiting_producers_`, `waiting_consumers_` with their spinlocks (`unbuffered_channel.hpp:62-65`). -/
inductive Q
  | prod | cons
  deriving DecidableEq, Repr

/-- Whom data `x` belongs to. -/
inductive Place
  | fiber (w : Nat)
  /-- given to push call `c`, whose value was not taken yet -/
  | sent (c : Nat)
  /-- fiber `w` has taken the value of call `c`, its pop has not returned yet -/
  | taken (c w : Nat)
  /-- given to call `c` by the pop that took its value -/
  | back (c : Nat)
  /-- left by `close` -/
  | left
  deriving DecidableEq, Repr

/-- Which data a program may leave when it closes the channel. -/
inductive Offer
  /-- none -/
  | nothing
  /-- the next call that returns `closed` gets it -/
  | early
  /-- the next pop that returns `closed` after `close` returned gets it -/
  | late
  deriving DecidableEq, Repr

/-- Where a fiber is. `c` is its push call, or the push call whose slot it has. -/
inductive Pc
  | idle
  /-- `is_closed()` (`:132`) -/
  | pStart (c : Nat)
  /-- the load in `try_push_` (`:74`) -/
  | pTry (c : Nat)
  /-- the `compare_exchange_strong` in `try_push_` (`:76`) -/
  | pCas (c : Nat)
  /-- about to notify a consumer (`:137-138`) -/
  | pNotify (c : Nat)
  /-- suspended until the value has been consumed (`:140`) -/
  | pWait (c : Nat)
  /-- resumed (`:142`) -/
  | pAfter (c : Nat)
  /-- about to lock `splk_producers_` (`:149`) -/
  | pLock (c : Nat)
  /-- locked, `is_closed()` (`:150`) -/
  | pClosed (c : Nat)
  /-- locked, `is_empty_()` (`:153`) -/
  | pEmpty (c : Nat)
  /-- suspended in `waiting_producers_` (`:157`) -/
  | pQueued (c : Nat)
  /-- the load in `try_pop_` (`:88`) -/
  | oStart (y : Option Nat)
  /-- the `compare_exchange_strong` in `try_pop_` (`:90`) -/
  | oCas (y : Option Nat) (c : Nat)
  /-- about to notify a producer (`:305-308`) -/
  | oNotify (c : Nat)
  /-- about to move the value (`:309`) -/
  | oRead (c : Nat)
  /-- about to wake the producer (`:311`) -/
  | oWake (c : Nat)
  /-- about to lock `splk_consumers_` (`:314`) -/
  | oLock (y : Option Nat)
  /-- locked, `is_closed()` (`:315`) -/
  | oClosed (y : Option Nat)
  /-- locked, `is_empty_()` (`:318`) -/
  | oEmpty (y : Option Nat)
  /-- suspended in `waiting_consumers_` (`:321`) -/
  | oQueued (y : Option Nat)
  /-- `closed_.exchange` (`:113`) -/
  | cStart (z : Option Nat)
  /-- the load of `slot_` (`:115`) -/
  | cLoad (z : Option Nat)
  /-- about to wake the producer (`:118`) -/
  | cWake (z : Option Nat) (c : Nat)
  /-- about to lock `splk_producers_` and to notify (`:120-121`) -/
  | cProd (z : Option Nat)
  /-- about to lock `splk_consumers_` and to notify (`:123-124`) -/
  | cCons (z : Option Nat)
  deriving DecidableEq, Repr

/-- What the callers see. -/
inductive Obs
  /-- fiber `w` calls `push` with data `x`; the call gets the number `c` -/
  | push (w c x : Nat)
  /-- push call `c` returns -/
  | pushed (w c : Nat) (ok : Bool)
  /-- a pop of fiber `w` returns with the value of push call `c` -/
  | popped (w c x : Nat)
  /-- a pop of fiber `w` returns `closed` -/
  | popClosed (w : Nat)
  /-- fiber `w` calls `close` -/
  | close (w : Nat)
  /-- a call of `close` returns; `first`: it is the one that closed the channel -/
  | closed (w : Nat) (first : Bool)
  /-- data `x` is used, and all former uses are visible -/
  | used (w x : Nat)
  /-- data race: data `x` is used although a former use of it does not happen before -/
  | race (w x : Nat)
  /-- a slot is accessed whose push call has returned -/
  | ub (w : Nat)
  deriving DecidableEq, Repr

structure State where
  /-- `closed_.exchange( true, …)` is also a release operation; the code asks for acquire only -/
  strong : Bool
  offer : Offer
  mem : Mem
  pc : Nat → Pc
  own : Nat → Place
  /-- `context::waker_epoch_` -/
  epoch : Nat → Nat
  /-- woken, not resumed yet -/
  ready : Nat → Bool
  /-- what those who woke the fiber knew -/
  mail : Nat → View
  wq : Q → List (Nat × Nat)
  /-- who holds the spinlock -/
  held : Q → Option Nat
  /-- what those who released the spinlock knew -/
  lview : Q → View
  /-- number of push calls -/
  calls : Nat
  thr : Nat → Nat
  val : Nat → Nat
  ep : Nat → Nat
  alive : Nat → Bool
  /-- the slot was published -/
  pub : Nat → Bool
  back : Nat → Option Nat
  left : Option Nat
  broken : Bool

/-- Data `x` belongs to fiber `who x`. -/
def init (strong : Bool) (offer : Offer) (who : Nat → Nat) : State where
  strong := strong
  offer := offer
  mem := Weak.start (fun _ => 0)
  pc := fun _ => .idle
  own := fun x => .fiber (who x)
  epoch := fun _ => 0
  ready := fun _ => false
  mail := fun _ _ => 0
  wq := fun _ => []
  held := fun _ => none
  lview := fun _ _ => 0
  calls := 0
  thr := fun _ => 0
  val := fun _ => 0
  ep := fun _ => 0
  alive := fun _ => false
  pub := fun _ => false
  back := fun _ => none
  left := none
  broken := false

/-- `w` learns what is in view `v`. -/
def learn (m : Mem) (w : Nat) (v : View) : Mem :=
  { m with cur := upd m.cur w (join (m.cur w) v), acq := upd m.acq w (join (m.acq w) v) }

/-- Fiber `w` uses the waker of fiber `u` with epoch `e` (`src/waker.cpp:9-14`, `src/context.cpp:299-316`). -/
def wake (s : State) (w u e : Nat) : State :=
  if s.epoch u = e then
    { s with epoch := upd s.epoch u (e + 1), ready := upd s.ready u true, mail := upd s.mail u (join (s.mail u) (s.mem.cur w)) }
  else s

/-- `wait_queue::notify_one` (`src/waker.cpp:50-58`) on the waiters `l`, and who is left. -/
def notifyOne (s : State) (w : Nat) : List (Nat × Nat) → State × List (Nat × Nat)
  | [] => (s, [])
  | (u, e) :: l => if s.epoch u = e then (wake s w u e, l) else notifyOne s w l

/-- `wait_queue::notify_all` (`src/waker.cpp:61-67`). -/
def notifyAll (s : State) (w : Nat) : List (Nat × Nat) → State
  | [] => s
  | (u, e) :: l => notifyAll (wake s w u e) w l

/-- What one learns when one acquires the spinlock of `q`. -/
def enter (s : State) (w : Nat) (q : Q) : State := { s with mem := learn s.mem w (s.lview q) }

/-- What one passes on when one releases it. -/
def leave (s : State) (w : Nat) (q : Q) : State :=
  { s with lview := fun p => if p = q then join (s.lview p) (s.mem.cur w) else s.lview p }

/-- Acquire the spinlock of `q`. -/
def lock (s : State) (w : Nat) (q : Q) : State :=
  { enter s w q with held := fun p => if p = q then some w else s.held p }

/-- Release it. -/
def unlock (s : State) (w : Nat) (q : Q) : State :=
  { leave s w q with held := fun p => if p = q then none else s.held p }

/-- `create_waker`, enqueue, suspend, release the spinlock (`src/waker.cpp:17-23`); `k`: where the fiber waits. -/
def enqueue (s : State) (w : Nat) (q : Q) (k : Pc) : State :=
  unlock { s with
    epoch := upd s.epoch w (s.epoch w + 1),
    wq := fun p => if p = q then s.wq p ++ [(w, s.epoch w + 1)] else s.wq p,
    pc := upd s.pc w k } w q

/-- A call that returns `closed` gets the data that `close` left. -/
def claim (s : State) (w : Nat) : State :=
  match s.left with
  | none => s
  | some z => { s with own := upd s.own z (.fiber w), left := none }

/-- Push call `c` returns `closed`. -/
def pushClosed (s : State) (w c : Nat) : State × List Obs :=
  (let s' : State := { s with pc := upd s.pc w .idle, alive := upd s.alive c false }
   if s.offer = .early then claim s' w else s', [.pushed w c false])

/-- A pop returns `closed`. -/
def popClosed (s : State) (w : Nat) : State × List Obs := (claim { s with pc := upd s.pc w .idle } w, [.popClosed w])

/-- The first `close` returns. -/
def closeEnd (s : State) (w : Nat) (z : Option Nat) : State :=
  match s.offer, z with
  | .late, some x => { s with pc := upd s.pc w .idle, left := some x, own := upd s.own x .left }
  | _, _ => { s with pc := upd s.pc w .idle }

/-- `closed_` was set. -/
def closeSet (s : State) (w : Nat) (z : Option Nat) : State :=
  match s.offer, z with
  | .early, some x => { s with pc := upd s.pc w (.cLoad z), left := some x, own := upd s.own x .left }
  | _, _ => { s with pc := upd s.pc w (.cLoad z) }

/-- The access of a slot whose call has returned. -/
def dangling (s : State) (w : Nat) : State × List Obs := ({ s with broken := true }, [.ub w])

inductive Event
  | push (w x : Nat)
  | pop (w : Nat) (y : Option Nat)
  | close (w : Nat) (z : Option Nat)
  | use (w x : Nat)
  /-- fiber `w` goes on; `t`: the timestamp of the message it reads -/
  | go (w t : Nat)
  deriving DecidableEq, Repr

/-- Whether fiber `w` may give away `y`. -/
def has (s : State) (w : Nat) : Option Nat → Bool
  | none => true
  | some y => decide (s.own y = .fiber w)

/-- The next step of fiber `w` (`push` `:128-160`, `pop` `:300-324`, `close` `:111-126`, `is_closed` `:107-109`, `is_empty_` `:68-70`,
`try_push_` `:72-83`, `try_pop_` `:85-95`). -/
def go (s : State) (w t : Nat) : Option (State × List Obs) :=
  match s.pc w with
  | .idle => none
  -- `push`
  | .pStart c =>
    match load s.mem w 1 t true with
    | none => none
    | some (v, m) =>
      if v = 0 then
        some ({ s with mem := m, pc := upd s.pc w (.pTry c), epoch := upd s.epoch w (s.epoch w + 1), ep := upd s.ep c (s.epoch w + 1) }, [])
      else some (pushClosed { s with mem := m } w c)
  | .pTry c =>
    match load s.mem w 0 t true with
    | none => none
    | some (v, m) => some ({ s with mem := m, pc := upd s.pc w (if v = 0 then .pCas c else .pLock c) }, [])
  | .pCas c =>
    match cas s.mem w 0 t 0 (c + 1) true true true with
    | none => none
    | some (b, _, m) =>
      if b then some ({ s with mem := m, pc := upd s.pc w (.pNotify c), pub := upd s.pub c true }, [])
      else some ({ s with mem := m, pc := upd s.pc w (.pTry c) }, [])
  | .pNotify c =>
    if s.held .cons = none then
      let s1 := enter s w .cons
      let r := notifyOne s1 w (s1.wq .cons)
      some (leave { r.1 with wq := fun p => if p = .cons then r.2 else r.1.wq p, pc := upd r.1.pc w (.pWait c) } w .cons, [])
    else none
  | .pWait c =>
    if s.ready w then
      some ({ s with ready := upd s.ready w false, mem := learn s.mem w (s.mail w), pc := upd s.pc w (.pAfter c) }, [])
    else none
  | .pAfter c =>
    match load s.mem w 1 t true with
    | none => none
    | some (v, m) =>
      if v = 0 then
        match s.back c with
        | none => some ({ s with mem := m, pc := upd s.pc w .idle, alive := upd s.alive c false }, [.pushed w c true])
        | some y =>
          some ({ s with mem := m, pc := upd s.pc w .idle, alive := upd s.alive c false, own := upd s.own y (.fiber w) }, [.pushed w c true])
      else some (pushClosed { s with mem := m } w c)
  | .pLock c => if s.held .prod = none then some ({ lock s w .prod with pc := upd s.pc w (.pClosed c) }, []) else none
  | .pClosed c =>
    match load s.mem w 1 t true with
    | none => none
    | some (v, m) =>
      if v = 0 then some ({ s with mem := m, pc := upd s.pc w (.pEmpty c) }, [])
      else some (pushClosed (unlock { s with mem := m } w .prod) w c)
  | .pEmpty c =>
    match load s.mem w 0 t true with
    | none => none
    | some (v, m) =>
      if v = 0 then some (unlock { s with mem := m, pc := upd s.pc w (.pStart c) } w .prod, [])
      else some (enqueue { s with mem := m } w .prod (.pQueued c), [])
  | .pQueued c =>
    if s.ready w then
      some ({ s with ready := upd s.ready w false, mem := learn s.mem w (s.mail w), pc := upd s.pc w (.pStart c) }, [])
    else none
  -- `pop`
  | .oStart y =>
    match load s.mem w 0 t true with
    | none => none
    | some (v, m) => some ({ s with mem := m, pc := upd s.pc w (if v = 0 then .oLock y else .oCas y (v - 1)) }, [])
  | .oCas y c =>
    match cas s.mem w 0 t (c + 1) 0 true true true with
    | none => none
    | some (b, _, m) =>
      if b then
        match y with
        | none => some ({ s with mem := m, pc := upd s.pc w (.oNotify c), back := upd s.back c none, own := upd s.own (s.val c) (.taken c w) }, [])
        | some d =>
          some ({ s with mem := m, pc := upd s.pc w (.oNotify c), back := upd s.back c (some d),
                         own := upd (upd s.own d (.back c)) (s.val c) (.taken c w) }, [])
      else some ({ s with mem := m, pc := upd s.pc w (.oStart y) }, [])
  | .oNotify c =>
    if s.held .prod = none then
      let s1 := enter s w .prod
      let r := notifyOne s1 w (s1.wq .prod)
      some (leave { r.1 with wq := fun p => if p = .prod then r.2 else r.1.wq p, pc := upd r.1.pc w (.oRead c) } w .prod, [])
    else none
  | .oRead c => if s.alive c then some ({ s with pc := upd s.pc w (.oWake c) }, []) else some (dangling s w)
  | .oWake c =>
    if s.alive c then
      let s1 := wake s w (s.thr c) (s.ep c)
      some ({ s1 with pc := upd s1.pc w .idle, own := upd s1.own (s.val c) (.fiber w) }, [.popped w c (s.val c)])
    else some (dangling s w)
  | .oLock y => if s.held .cons = none then some ({ lock s w .cons with pc := upd s.pc w (.oClosed y) }, []) else none
  | .oClosed y =>
    match load s.mem w 1 t true with
    | none => none
    | some (v, m) =>
      if v = 0 then some ({ s with mem := m, pc := upd s.pc w (.oEmpty y) }, [])
      else some (popClosed (unlock { s with mem := m } w .cons) w)
  | .oEmpty y =>
    match load s.mem w 0 t true with
    | none => none
    | some (v, m) =>
      if v = 0 then some (enqueue { s with mem := m } w .cons (.oQueued y), [])
      else some (unlock { s with mem := m, pc := upd s.pc w (.oStart y) } w .cons, [])
  | .oQueued y =>
    if s.ready w then
      some ({ s with ready := upd s.ready w false, mem := learn s.mem w (s.mail w), pc := upd s.pc w (.oStart y) }, [])
    else none
  -- `close`
  | .cStart z =>
    match rmw s.mem w 1 t (fun _ => 1) true s.strong with
    | none => none
    | some (v, m) =>
      if v = 0 then some (closeSet { s with mem := m } w z, [])
      else some ({ s with mem := m, pc := upd s.pc w .idle }, [.closed w false])
  | .cLoad z =>
    match load s.mem w 0 t true with
    | none => none
    | some (v, m) => some ({ s with mem := m, pc := upd s.pc w (if v = 0 then .cProd z else .cWake z (v - 1)) }, [])
  | .cWake z c =>
    if s.alive c then
      let s1 := wake s w (s.thr c) (s.ep c)
      some ({ s1 with pc := upd s1.pc w (.cProd z) }, [])
    else some (dangling s w)
  | .cProd z =>
    if s.held .prod = none then
      let s1 := enter s w .prod
      let s2 := notifyAll s1 w (s1.wq .prod)
      some ({ s2 with wq := fun p => if p = .prod then [] else s2.wq p, pc := upd s2.pc w (.cCons z),
                      held := fun p => if p = .prod then some w else s2.held p }, [])
    else none
  | .cCons z =>
    if s.held .cons = none then
      let s1 := enter s w .cons
      let s2 := notifyAll s1 w (s1.wq .cons)
      some (closeEnd (unlock (leave { s2 with wq := fun p => if p = .cons then [] else s2.wq p } w .cons) w .prod) w z, [.closed w true])
    else none

def step (s : State) (e : Event) : Option (State × List Obs) :=
  if s.broken then none else
  match e with
  | .push w x =>
    if s.pc w = .idle ∧ s.own x = .fiber w then
      some ({ s with
        pc := upd s.pc w (.pStart s.calls), own := upd s.own x (.sent s.calls), calls := s.calls + 1,
        thr := upd s.thr s.calls w, val := upd s.val s.calls x, alive := upd s.alive s.calls true }, [.push w s.calls x])
    else none
  | .pop w y => if s.pc w = .idle ∧ has s w y = true then some ({ s with pc := upd s.pc w (.oStart y) }, []) else none
  | .close w z =>
    if s.pc w = .idle ∧ has s w z = true ∧ (s.offer = .nothing → z = none) then some ({ s with pc := upd s.pc w (.cStart z) }, [.close w]) else none
  | .use w x =>
    if s.pc w = .idle ∧ s.own x = .fiber w then
      some ({ s with mem := (touch s.mem w (x + 2)).2 }, [if (touch s.mem w (x + 2)).1 then .race w x else .used w x])
    else none
  | .go w t => go s w t

end Verif.WeakUnbuf
