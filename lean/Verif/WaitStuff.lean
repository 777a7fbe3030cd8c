import Verif.Base

/-!
# Waiting for the first, and for all of several functions

`examples/wait_stuff.cpp`: functions that run other functions in fibers of their own, and wait for the first of them or for all. The results come through a buffered channel; `nchannel` closes it after a
given number of results.

Simplifications: a result is a number, an exception is a number. The operations of the channel, of the barrier and of `Done` are single steps, and a fiber that cannot go on has no step (C17-C20, C14-C16,
C88). The functions passed by the user take as long as they want; that they are called and what they do meanwhile is not modelled.
-/

namespace Verif.WaitStuff

/-- How a function ends. -/
inductive Out
  | val (v : Nat)
  | err (e : Nat)
  deriving DecidableEq, Repr

def Out.isErr : Out → Bool
  | .val _ => false
  | .err _ => true

inductive Kind
  | firstSimple      -- `wait_first_simple`, `examples/wait_stuff.cpp:118-175`
  | firstValue       -- `wait_first_value`, `wait_first_value_het`, `:191-238,468-490`
  | firstOutcome     -- `wait_first_outcome`, `:256-324`
  | firstSuccess     -- `wait_first_success`, `:394-433`
  | allSimple        -- `wait_all_simple`, `:506-546`
  | allValues        -- `wait_all_values`, `:596-667`
  | untilError       -- `wait_all_until_error`, `:700-754`
  | collectErrors    -- `wait_all_collect_errors`, `:820-854`
  deriving DecidableEq, Repr

/-- The channel is closed by an `nchannel`. -/
def Kind.counts : Kind → Bool
  | .allValues | .untilError | .collectErrors => true
  | _ => false

/-- The function is called through a `packaged_task`, which keeps its exception. -/
def Kind.catches : Kind → Bool
  | .firstOutcome | .firstSuccess | .untilError | .collectErrors => true
  | _ => false

inductive Result
  | none                      -- returns, without a value
  | value (v : Nat)
  | error (e : Nat)           -- throws the exception of one of the functions
  | values (l : List Nat)
  | errors (l : List Nat)     -- throws an `exception_list`
  deriving DecidableEq, Repr

structure Config where
  n : Nat
  kind : Kind
  out : Nat → Out
  /-- how many values the channel holds: 63, as it is made with capacity 64 (C18) -/
  cap : Nat
  /-- the fibers run on several threads -/
  threads : Bool

inductive FPc
  /-- in the function -/
  | run
  /-- the function is done; before `push`, `Done::notify` or `barrier::wait` -/
  | fin
  /-- waiting in `push`, as the channel is full -/
  | full
  /-- waiting at the barrier -/
  | bar
  /-- in `nchannel::push`, the value is in the channel -/
  | pushed
  /-- in `--limit_`, which was `l` -/
  | loaded (l : Nat)
  /-- before `close` -/
  | toClose
  | done
  deriving DecidableEq, Repr

inductive MPc
  | loop
  /-- before `close`; what it will return or throw -/
  | closing (r : Result)
  | done (r : Result)
  deriving DecidableEq, Repr

structure State where
  pc : Nat → FPc
  /-- the fiber of this function is running, and not waiting (on one thread) -/
  cur : Option Nat
  main : MPc
  queue : List Nat
  closed : Bool
  /-- `nchannel::limit_` -/
  limit : Nat
  /-- what the waiting fiber has got from the channel -/
  got : List Nat
  /-- `Done::ready` -/
  ready : Bool
  /-- how many fibers have arrived at the barrier, the waiting fiber is one of them -/
  arrived : Nat
  /-- `std::terminate` has been called -/
  dead : Bool

def init (c : Config) : State where
  pc _ := .run
  cur := none
  main := .loop
  queue := []
  -- `nchannel`, `:568-576`
  closed := decide (c.kind.counts = true ∧ c.n = 0)
  limit := c.n
  got := []
  ready := false
  arrived := 1
  dead := false

inductive Event
  /-- function `i` comes to its end -/
  | finish (i : Nat)
  /-- the fiber of function `i` goes on -/
  | fiber (i : Nat)
  /-- the waiting fiber goes on -/
  | main
  deriving DecidableEq

inductive Obs
  | finished (i : Nat)
  /-- the result of function `i` is put into the channel -/
  | pushed (i : Nat)
  | result (r : Result)
  /-- an exception leaves a fiber: `std::terminate` -/
  | terminate
  deriving DecidableEq, Repr

/-- The values and the exceptions among the outcomes. -/
def vals (c : Config) (l : List Nat) : List Nat := l.filterMap fun i => match c.out i with | .val v => some v | .err _ => Option.none
def errs (c : Config) (l : List Nat) : List Nat := l.filterMap fun i => match c.out i with | .err e => some e | .val _ => Option.none

/-- What the outcome of one function makes of the waiting function. -/
def Out.result : Out → Result
  | .val v => .value v
  | .err e => .error e

/-- On one thread, a fiber goes on until it waits (C97). -/
def turn (c : Config) (s : State) (e : Event) : Bool :=
  c.threads || ((match s.cur with | some i => decide (e = .fiber i) | none => true) && match s.main with | .closing _ => decide (e = .main) | _ => true)

/-- Between two calls of the library. -/
def FPc.mid : FPc → Bool
  | .fin | .pushed | .loaded _ | .toClose => true
  | _ => false

def setPc (s : State) (i : Nat) (p : FPc) : State := { s with pc := upd s.pc i p, cur := if p.mid then some i else none }

/-- `buffered_channel::push` -/
def push (c : Config) (s : State) (i : Nat) : Option (State × List Obs) :=
  if s.closed then some (setPc s i .done, [])
  else if s.queue.length < c.cap then some ({ setPc s i (if c.kind.counts then .pushed else .done) with queue := s.queue ++ [i] }, [.pushed i])
  else if s.pc i = .full then none
  else some (setPc s i .full, [])

def fiber (c : Config) (s : State) (i : Nat) : Option (State × List Obs) :=
  match s.pc i with
  | .fin =>
    match c.kind with
    -- `Done::notify`, `:134-140`
    | .firstSimple => some ({ setPc s i .done with ready := true }, [])
    -- `barrier->wait()`
    | .allSimple => some ({ setPc s i .bar with arrived := s.arrived + 1 }, [])
    | _ => push c s i
  | .full => push c s i
  | .bar => if s.arrived = c.n + 1 then some (setPc s i .done, []) else none
  -- `nchannel::push`, `:578-587`
  | .pushed => some (setPc s i (.loaded s.limit), [])
  | .loaded l => some ({ setPc s i (if l - 1 = 0 then .toClose else .done) with limit := l - 1 }, [])
  | .toClose => some ({ setPc s i .done with closed := true }, [])
  | _ => none

/-- The waiting fiber has got the outcome of function `i`, and has `got`, with it. -/
def next (c : Config) (got : List Nat) (i : Nat) : MPc :=
  match c.kind with
  | .firstSuccess =>
    match c.out i with
    | .val v => .closing (.value v)
    | .err _ => if got.length = c.n then .done (.errors (errs c got)) else .loop
  | .untilError =>
    match c.out i with
    | .val _ => .loop
    | .err e => .done (.error e)
  | .allValues | .collectErrors => .loop
  | _ => .closing (c.out i).result

/-- The channel is closed and empty. -/
def last (c : Config) (got : List Nat) : Result :=
  if c.kind = .collectErrors ∧ errs c got ≠ [] then .errors (errs c got) else .values (vals c got)

def toObs : MPc → List Obs
  | .done r => [.result r]
  | _ => []

def main (c : Config) (s : State) : Option (State × List Obs) :=
  match s.main with
  | .loop =>
    match c.kind with
    | .firstSimple => if s.ready then some ({ s with main := .done .none }, [.result .none]) else none
    | .allSimple => if s.arrived = c.n + 1 then some ({ s with main := .done .none }, [.result .none]) else none
    | _ =>
      match s.queue with
      | i :: q => some ({ s with queue := q, got := s.got ++ [i], main := next c (s.got ++ [i]) i }, toObs (next c (s.got ++ [i]) i))
      | [] => if s.closed then some ({ s with main := .done (last c s.got) }, [.result (last c s.got)]) else none
  | .closing r => some ({ s with closed := true, main := .done r }, [.result r])
  | .done _ => none

def step (c : Config) (s : State) (e : Event) : Option (State × List Obs) :=
  if s.dead = true ∨ turn c s e = false then none
  else
    match e with
    | .finish i =>
      if i < c.n ∧ s.pc i = .run then
        if c.kind.catches = false ∧ (c.out i).isErr = true then some ({ s with dead := true }, [.finished i, .terminate])
        else some (setPc s i .fin, [.finished i])
      else none
    | .fiber i => if i < c.n then fiber c s i else none
    | .main => main c s

end Verif.WaitStuff
