import Verif.Base

/-!
# How a thread begins and ends to use fibers

A thread gets its scheduler when it uses fibers for the first time, either through `context::active()`, which every operation of the library calls, or through `initialize_thread` (`use_scheduling_algorithm`).
A counter (`context_initializer::counter_`, a Schwarz counter) decides who creates and who destroys it. When the thread ends, its `thread_local` objects are destroyed in the reverse order of their
construction; one of them is the library's, others belong to the user, and their destructors may use fibers as well. While the scheduler is destroyed, fibers of the thread that have not ended run.

Simplifications: one thread; the scheduler is its number and the number of its algorithm; that its ready fibers are kept when the algorithm is changed is C46, that fibers run to their end when it is
destroyed is C47.
-/

namespace Verif.ThreadInit

/-- The state of `thread_local static context_initializer ctx_initializer` in `context::active()`, `src/context.cpp:147-152`. -/
inductive Static
  | notYet
  | built
  /-- its destructor has been called -/
  | gone
  deriving DecidableEq, Repr

/-- A `thread_local` object that is to be destroyed at the end of the thread. -/
inductive Local
  | lib
  | user
  deriving DecidableEq, Repr

inductive Obs
  /-- a scheduler is created, with an algorithm -/
  | created (j a : Nat)
  /-- `scheduler::set_algo` -/
  | changed (j a : Nat)
  /-- the destructor of the library's `thread_local` object is called -/
  | ending
  /-- the destructor of the scheduler is done -/
  | destroyed (j : Nat)
  /-- the user calls `initialize_thread` -/
  | asked (a : Nat)
  /-- what `initialize_thread` returned -/
  | returned (b : Bool)
  /-- an operation on fibers is done by this scheduler -/
  | used (j : Nat)
  /-- a null pointer is dereferenced -/
  | crash
  deriving DecidableEq, Repr

structure State where
  /-- `context_initializer::counter_`, `src/context.cpp:73,121` -/
  counter : Nat
  /-- `context_initializer::active_`, `src/context.cpp:72,120`: the scheduler of the active context -/
  active : Option Nat
  static : Static
  /-- the algorithms of the schedulers -/
  algo : Nat → Nat
  /-- how many schedulers have been created -/
  next : Nat
  /-- the `thread_local` objects, the one built last is first -/
  locals : List Local
  /-- the function of the thread has returned -/
  exiting : Bool
  /-- the scheduler whose destructor is running -/
  drain : Option Nat
  crashed : Bool

def init : State where
  counter := 0
  active := none
  static := .notYet
  algo _ := 0
  next := 0
  locals := []
  exiting := false
  drain := none
  crashed := false

inductive Event
  /-- any operation of the library that uses the active context -/
  | use
  /-- `initialize_thread`, or `use_scheduling_algorithm`, with algorithm `a`; 0 is the default one, `algo::round_robin` -/
  | initThread (a : Nat)
  /-- a `thread_local` object of the user is constructed -/
  | construct
  /-- the function of the thread returns -/
  | exit
  /-- the destructor of the next `thread_local` object is called; what the destructor of a user's object does are the events after that -/
  | destruct
  /-- all fibers of the scheduler that is being destroyed have ended -/
  | drained

/-- `context_initializer::initialize`, `src/context.cpp:90-107`: a main context, a scheduler and a dispatcher context are created, the main context becomes the active one. -/
def create (s : State) (a : Nat) : State := { s with algo := upd s.algo s.next a, active := some s.next, next := s.next + 1 }

/-- `thread_local static context_initializer ctx_initializer;` in `context::active()`, when control passes there for the first time: `src/context.cpp:77-82,150`. -/
def build (s : State) : State × List Obs :=
  let s' : State := { s with counter := s.counter + 1, static := .built, locals := .lib :: s.locals }
  if s.counter = 0 then (create s' 0, [.created s.next 0]) else (s', [])

/-- `context::active()`, `src/context.cpp:147-152`, and the use of what it returns. -/
def use (s : State) : State × List Obs :=
  let (s, o) := if s.static = .notYet then build s else (s, [])
  match s.active with
  | some j => (s, o ++ [.used j])
  | none => ({ s with crashed := true }, o ++ [.crash])

/-- `context::initialize_thread`, `src/context.cpp:123-145`, with `scheduler::set_algo`, `src/scheduler.cpp:321-328`. -/
def initThread (s : State) (a : Nat) : State × List Obs :=
  if s.counter = 0 then
    -- the local variable
    let s1 := create { s with counter := s.counter + 1 } a
    -- `active()`
    let (s2, o2) := if s1.static = .notYet then build s1 else (s1, [])
    -- the destructor of the local variable, `src/context.cpp:84-88,109-116`; the scheduler has no fibers
    if s2.counter - 1 = 0 then ({ s2 with counter := 0, active := none }, [.created s.next a] ++ o2 ++ [.destroyed s.next, .returned true])
    else ({ s2 with counter := s2.counter - 1 }, [.created s.next a] ++ o2 ++ [.returned true])
  else
    match s.active with
    | some j => ({ s with algo := upd s.algo j a }, [.changed j a, .returned false])
    | none => ({ s with crashed := true }, [.crash])

/-- `~context_initializer`, `src/context.cpp:84-88`, of the `thread_local` object: the scheduler is destroyed if the counter becomes 0. -/
def tearDown (s : State) : State :=
  { s with static := .gone, counter := s.counter - 1, drain := if s.counter - 1 = 0 then s.active else none }

def step (s : State) (e : Event) : Option (State × List Obs) :=
  if s.crashed then none
  else
    match e with
    | .use => some (use s)
    | .initThread a => let (s', o) := initThread s a; some (s', .asked a :: o)
    | .construct => some ({ s with locals := .user :: s.locals }, [])
    | .exit => if s.exiting then none else some ({ s with exiting := true }, [])
    | .destruct =>
      if s.exiting ∧ s.drain = none then
        match s.locals with
        | [] => none
        | .user :: l => some ({ s with locals := l }, [])
        | .lib :: l => some (tearDown { s with locals := l }, [.ending])
      else none
    -- `context_initializer::deinitialize`, `src/context.cpp:109-116`; the end of `~scheduler`, `src/scheduler.cpp:100-120`
    | .drained =>
      match s.drain with
      | none => none
      | some j =>
        match s.active with
        | some _ => some ({ s with active := none, drain := none }, [.destroyed j])
        -- there is no active context the dispatcher could be left from, `src/context.cpp:251-262`
        | none => some ({ s with crashed := true }, [.crash])

end Verif.ThreadInit
