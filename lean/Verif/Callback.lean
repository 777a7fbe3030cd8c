import Verif.Base

/-!
# Operations with a callback, made into calls that wait

The adapters of `examples/adapt_callbacks.cpp` and `examples/adapt_method_calls.cpp` (`doc/callbacks.qbk`): a function starts an asynchronous operation, with a callback that fulfils a promise, and waits
for the future. One call of an adapter; different calls share nothing. The callback is called by another thread or fiber, any number of times, and destroyed at the end, or destroyed without having
been called.

Simplifications: what happens under the lock of the shared state is one step (C88); the wait for the future ends when the result is there (C32). The example's implementation of the operations is left out, as
is the memory of `PromiseResponse` itself, which its `shared_ptr`s keep.
-/

namespace Verif.Callback

/-- The adapters: `write_ec`, `write`, `read_ec`, `read` of `examples/adapt_callbacks.cpp:147-248`, and `read` of `examples/adapt_method_calls.cpp:122-131`. -/
inductive Kind
  | writeEc
  | write
  | readEc
  | read
  | method
  deriving DecidableEq, Repr

/-- Who owns the promise: the callback it was moved into (`:161`, `:197`), the function, whose callback has a reference (`:221`), or both with a `shared_ptr` (`examples/adapt_method_calls.cpp:125-129`). -/
inductive Hold
  | moved
  | byRef
  | shared
  deriving DecidableEq, Repr

def Kind.hold : Kind → Hold
  | .writeEc | .write | .readEc => .moved
  | .read => .byRef
  | .method => .shared

/-- What is stored in the shared state. -/
inductive Stored
  | code (ec : Int)
  | pair (ec : Int) (d : List Nat)
  | data (d : List Nat)
  | error (ec : Int)
  | broken
  deriving DecidableEq, Repr

/-- What the function returns or throws. -/
inductive Result
  | unit
  | code (ec : Int)
  | pair (ec : Int) (d : List Nat)
  | data (d : List Nat)
  | threw (ec : Int)
  | threwBroken
  deriving DecidableEq, Repr

/-- The callbacks: `:161-163`, `:197-199`, `:221-229`, `examples/adapt_method_calls.cpp:100-110`. -/
def store (k : Kind) (ec : Int) (d : List Nat) : Stored :=
  match k with
  | .writeEc | .write => .code ec
  | .readEc => .pair ec d
  | .read | .method => if ec = 0 then .data d else .error ec

/-- The end of the functions: `:176`, `:181-186`, `:210`, `:246`. -/
def finish (k : Kind) : Stored → Result
  | .code ec => if k = .write then (if ec = 0 then .unit else .threw ec) else .code ec
  | .pair ec d => .pair ec d
  | .data d => .data d
  | .error ec => .threw ec
  | .broken => .threwBroken

/-- The function that waits. -/
inductive CPc
  | get
  /-- the result is there, and the shared state still held (`include/boost/fiber/future/future.hpp:143-150`) -/
  | have (x : Stored)
  | released (x : Stored)
  /-- in `~promise_base`, after `owner_destroyed` -/
  | destroy (x : Stored)
  | done
  deriving DecidableEq, Repr

/-- The callback. -/
inductive TPc
  | idle
  | inCall (ec : Int) (d : List Nat)
  /-- in `set_value`, before `notify_all` (`include/boost/fiber/future/detail/shared_state.hpp:47-52`) -/
  | notify
  /-- in `~promise_base`, after the lock of the shared state is released -/
  | dying
  | gone
  deriving DecidableEq, Repr

structure State where
  /-- `use_count_` of the shared state -/
  refs : Nat
  freed : Bool
  /-- the promise is there -/
  promise : Bool
  /-- owners of `PromiseResponse` -/
  owners : Nat
  stored : Option Stored
  cpc : CPc
  tpc : TPc

inductive Obs
  | called (ec : Int) (d : List Nat)
  /-- the callback throws `promise_already_satisfied` -/
  | already
  | returned (r : Result)
  | dropped
  | freed
  /-- the promise or the shared state is used after its end -/
  | ub
  deriving DecidableEq, Repr

inductive Event
  | caller
  | call (ec : Int) (d : List Nat)
  | callback
  | drop
  deriving DecidableEq

/-- The operation has been started. -/
def init : State where
  refs := 2
  freed := false
  promise := true
  owners := 2
  stored := none
  cpc := .get
  tpc := .idle

/-- The shared state is used. -/
def touch (s : State) : List Obs := if s.freed then [.ub] else []

/-- `intrusive_ptr_release`, `include/boost/fiber/future/detail/shared_state.hpp:149-154`. -/
def release (s : State) : State × List Obs :=
  if s.refs = 1 then ({ s with refs := 0, freed := true }, touch s ++ [.freed]) else ({ s with refs := s.refs - 1 }, touch s)

/-- `owner_destroyed`, `include/boost/fiber/future/detail/shared_state.hpp:54-61`. -/
def ownerDestroyed (s : State) : State × List Obs :=
  ({ s with stored := match s.stored with | none => some .broken | some x => some x }, touch s)

def step (k : Kind) (s : State) : Event → Option (State × List Obs)
  | .caller =>
    match s.cpc with
    | .get =>
      match s.stored with
      | none => none
      | some x => some ({ s with cpc := .have x }, touch s)
    | .have x =>
      let (s1, o) := release s
      some ({ s1 with cpc := .released x }, o)
    | .released x =>
      match k.hold with
      | .moved => some ({ s with cpc := .done }, [.returned (finish k x)])
      | .byRef =>
        let (s1, o) := ownerDestroyed s
        some ({ s1 with cpc := .destroy x }, o)
      | .shared =>
        if s.owners = 1 then
          let (s1, o) := ownerDestroyed { s with owners := 0 }
          some ({ s1 with cpc := .destroy x }, o)
        else some ({ s with owners := s.owners - 1, cpc := .done }, [.returned (finish k x)])
    | .destroy x =>
      let (s1, o) := release s
      some ({ s1 with promise := false, cpc := .done }, o ++ [.returned (finish k x)])
    | .done => none
  | .call ec d => if s.tpc = .idle then some ({ s with tpc := .inCall ec d }, [.called ec d]) else none
  | .callback =>
    match s.tpc with
    | .inCall ec d =>
      -- `promise::set_value`, `include/boost/fiber/future/promise.hpp:123-128`, through the promise's pointer
      if s.promise = false then some ({ s with tpc := .idle }, [.ub])
      else
        match s.stored with
        | none => some ({ s with stored := some (store k ec d), tpc := .notify }, touch s)
        | some _ => some ({ s with tpc := .idle }, touch s ++ [.already])
    | .notify => some ({ s with tpc := .idle }, touch s)
    | .dying =>
      let (s1, o) := release s
      some ({ s1 with promise := false, tpc := .gone }, o)
    | _ => none
  | .drop =>
    if s.tpc = .idle then
      match k.hold with
      | .moved =>
        let (s1, o) := ownerDestroyed s
        some ({ s1 with tpc := .dying }, .dropped :: o)
      | .byRef => some ({ s with tpc := .gone }, [.dropped])
      | .shared =>
        if s.owners = 1 then
          let (s1, o) := ownerDestroyed { s with owners := 0 }
          some ({ s1 with tpc := .dying }, .dropped :: o)
        else some ({ s with owners := s.owners - 1, tpc := .gone }, [.dropped])
    else none

/-- The first call of the callback. -/
def first (tr : List Obs) : Option (Int × List Nat) := tr.findSome? fun o => match o with | .called ec d => some (ec, d) | _ => none

/-- What the function is expected to return or throw. -/
def expected : Kind → Int → List Nat → Result
  | .writeEc, ec, _ => .code ec
  | .write, ec, _ => if ec = 0 then .unit else .threw ec
  | .readEc, ec, d => .pair ec d
  | .read, ec, d | .method, ec, d => if ec = 0 then .data d else .threw ec

end Verif.Callback
