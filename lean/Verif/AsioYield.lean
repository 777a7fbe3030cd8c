import Verif.Base

/-!
# Asynchronous operations of asio that suspend a fiber

`examples/asio/detail/yield.hpp`, `examples/asio/yield.hpp`: with the completion token `yield` an asynchronous operation of asio suspends the calling fiber until its completion handler is called.
The fiber and the handler, which may run on any thread and at any time after the operation was initiated, meet in a `yield_completion`: a state, a spinlock, and a count of the pointers to it.

Simplifications: a value is a number, an error code is a number (0: no error). Everything between two accesses to the `yield_completion` is one step. asio is any sequence of events: it may copy and
destroy handlers, it calls a handler at most once, and keeps the handler it calls until the call has returned. The spinlock is C52 and C73, resuming a fiber that has been scheduled is C41.
-/

namespace Verif.AsioYield

/-- `yield_completion::state_t`, `examples/asio/detail/yield.hpp:36-40`. -/
inductive Comp
  | init | waiting | complete
  deriving DecidableEq, Repr

/-- Where the fiber is in the operation. -/
inductive FPc
  | unborn
  /-- the operation has been initiated; before the lock in `yield_completion::wait` -/
  | called
  | locked
  /-- in `suspend( lk)`, before the switch -/
  | parked
  | blocked
  /-- scheduled -/
  | ready
  /-- `wait()` has returned -/
  | passed
  | done
  deriving DecidableEq, Repr

/-- Where the completion handler is. -/
inductive HPc
  | pending
  /-- the value has been moved; before the lock -/
  | moved
  | locked
  /-- the state is set to `complete` -/
  | set
  /-- the error code is stored -/
  | written
  /-- the lock is released -/
  | unlocked
  | finished
  deriving DecidableEq, Repr

inductive Who
  | fiber | handler
  deriving DecidableEq, Repr

/-- One operation. -/
structure Op where
  /-- `ctx_`, `examples/asio/detail/yield.hpp:92` -/
  own : Nat
  /-- `yt_.ec_`: the error code the user has bound with `yield[ec]`, `examples/asio/yield.hpp:38-42` -/
  bound : Option Nat
  pc : FPc
  hpc : HPc
  /-- `state_`, `mtx_`, `use_count_` -/
  st : Comp
  lock : Option Who
  refs : Nat
  freed : Bool
  /-- how many handlers asio has -/
  copies : Nat
  /-- `value_`, `ec_` of the `async_result` on the stack of the fiber -/
  val : Nat
  ec : Nat
  /-- what the handler was called with -/
  hval : Nat
  hec : Nat
  /-- `state`, the local variable of the handler -/
  seen : Comp

structure State where
  op : Nat → Op
  /-- the operation a fiber is in -/
  busy : Nat → Option Nat
  /-- the error codes of the user -/
  var : Nat → Nat

def init : State where
  op _ := ⟨0, none, .unborn, .pending, .init, none, 0, false, 0, 0, 0, 0, 0, .init⟩
  busy _ := none
  var _ := 0

inductive Event
  /-- fiber `f` initiates operation `k` -/
  | start (f k : Nat) (bound : Option Nat)
  /-- the fiber of operation `k` goes on -/
  | fiber (k : Nat)
  /-- asio calls the handler of operation `k` -/
  | call (k v e : Nat)
  /-- the handler of operation `k` goes on -/
  | handler (k : Nat)
  /-- asio copies the handler; asio destroys a handler -/
  | copy (k : Nat)
  | drop (k : Nat)

inductive Obs
  | started (f k : Nat) (bound : Option Nat)
  | completed (k v e : Nat)
  /-- the error code is stored in the variable of the user -/
  | stored (k x e : Nat)
  | returned (k v : Nat)
  | threw (k e : Nat)
  /-- the fiber is scheduled -/
  | woken (k : Nat)
  /-- the `yield_completion` is deleted -/
  | deleted (k : Nat)
  /-- a deleted object or a variable that is gone is used, or a fiber is scheduled that is not suspended -/
  | ub
  deriving DecidableEq, Repr

def setOp (s : State) (k : Nat) (o : Op) : State := { s with op := upd s.op k o }

/-- `intrusive_ptr_release`, `examples/asio/detail/yield.hpp:69-75`. -/
def release (k : Nat) (o : Op) : Op × List Obs :=
  if o.refs = 1 then ({ o with refs := 0, freed := true }, [.deleted k]) else ({ o with refs := o.refs - 1 }, [])

/-- The `yield_completion` is used. -/
def touch (o : Op) : List Obs := if o.freed then [.ub] else []

/-- A variable on the stack of the fiber is used. -/
def stack (o : Op) : List Obs := if o.pc = .done then [.ub] else []

def fiber (s : State) (k : Nat) : Option (State × List Obs) :=
  let o := s.op k
  match o.pc with
  -- `yield_completion::wait`, `examples/asio/detail/yield.hpp:50-63`
  | .called => if o.lock = none then some (setOp s k { o with lock := some .fiber, pc := .locked }, touch o) else none
  | .locked =>
    if o.st = .complete then some (setOp s k { o with lock := none, pc := .passed }, touch o)
    else some (setOp s k { o with st := .waiting, pc := .parked }, touch o)
  -- the next context of the thread releases the lock, `src/context.cpp:190-202`
  | .parked => some (setOp s k { o with lock := none, pc := .blocked }, touch o)
  | .ready => some (setOp s k { o with pc := .passed }, [])
  -- `async_result_base::get`, `:220-230`, `async_result::get`, `:265-268`; the `async_result` is destroyed
  | .passed =>
    let (o', d) := release k { o with pc := .done }
    some ({ setOp s k o' with busy := upd s.busy o.own none }, (if o.bound = none ∧ o.ec ≠ 0 then .threw k o.ec else .returned k o.val) :: (touch o ++ d))
  | _ => none

/-- `yield_handler_base::operator()`, `examples/asio/detail/yield.hpp:98-125`. -/
def handler (s : State) (k : Nat) : Option (State × List Obs) :=
  let o := s.op k
  match o.hpc with
  | .moved => if o.lock = none then some (setOp s k { o with lock := some .handler, hpc := .locked }, touch o) else none
  | .locked => some (setOp s k { o with seen := o.st, st := .complete, hpc := .set }, touch o)
  | .set =>
    match o.bound with
    | some x => some ({ setOp s k { o with hpc := .written } with var := upd s.var x o.hec }, [.stored k x o.hec])
    | none => some (setOp s k { o with ec := o.hec, hpc := .written }, stack o)
  | .written => some (setOp s k { o with lock := none, hpc := .unlocked }, touch o)
  | .unlocked =>
    if o.seen = .waiting then
      if o.pc = .blocked then some (setOp s k { o with pc := .ready, hpc := .finished }, [.woken k])
      else some (setOp s k { o with hpc := .finished }, [.ub])
    else some (setOp s k { o with hpc := .finished }, [])
  | _ => none

def step (s : State) (e : Event) : Option (State × List Obs) :=
  match e with
  -- `yield_handler`, `async_result_base`, `:90-95,206-218`: the handler and the result have a pointer each
  | .start f k b =>
    if (s.op k).pc = .unborn ∧ s.busy f = none then
      some ({ setOp s k { own := f, bound := b, pc := .called, hpc := .pending, st := .init, lock := none, refs := 2, freed := false, copies := 1,
                          val := 0, ec := 0, hval := 0, hec := 0, seen := .init } with busy := upd s.busy f (some k) }, [.started f k b])
    else none
  | .fiber k => fiber s k
  -- `yield_handler< T >::operator()`, `:156-165`
  | .call k v e =>
    let o := s.op k
    if o.hpc = .pending ∧ o.copies ≠ 0 then
      some (setOp s k { o with val := v, hval := v, hec := e, hpc := .moved }, .completed k v e :: stack o)
    else none
  | .handler k => handler s k
  -- `intrusive_ptr_add_ref`, `:64-67`
  | .copy k =>
    let o := s.op k
    if o.copies ≠ 0 then some (setOp s k { o with copies := o.copies + 1, refs := o.refs + 1 }, touch o) else none
  | .drop k =>
    let o := s.op k
    if o.copies ≠ 0 ∧ (o.copies = 1 → o.hpc = .pending ∨ o.hpc = .finished) then
      let (o', d) := release k { o with copies := o.copies - 1 }
      some (setOp s k o', touch o ++ d)
    else none

end Verif.AsioYield
