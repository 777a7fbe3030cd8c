import Verif.Base

/-!
# A nonblocking interface, made into calls that wait

`read_chunk`, `read_desired` and `read` of `examples/adapt_nonblocking.cpp` (`doc/nonblocking.qbk`). The interface is any: each of its calls is answered by an error code and data of its choice.

Simplifications: characters are numbers, and sizes have no bound; `this_fiber::yield` is a step after which other fibers run, and a step with which the fiber goes on.
-/

namespace Verif.Nonblocking

/-- `EWOULDBLOCK`, and `EOF`: two numbers that are different and not 0. -/
def wouldBlock : Int := 11
def eof : Int := -1

inductive Pc
  /-- about to call `api.read`, `examples/adapt_nonblocking.cpp:106` -/
  | ask
  /-- in `this_fiber::yield`, `:109` -/
  | yielded
  | done (ec : Int)
  deriving DecidableEq, Repr

structure State where
  /-- `data` of `read_desired`, `:118-128` -/
  data : List Nat
  pc : Pc

inductive Obs
  /-- `api.read` was called for `n` characters, and answered -/
  | answered (n : Nat) (ec : Int) (chunk : List Nat)
  | yielded
  | returned (ec : Int) (data : List Nat)
  deriving DecidableEq, Repr

inductive Event
  | answer (ec : Int) (chunk : List Nat)
  | resume
  deriving DecidableEq

/-- `while (data.length() < desired && …)`, `:123`. -/
def loop (desired : Nat) (data : List Nat) : State × List Obs :=
  if data.length < desired then ({ data, pc := .ask }, []) else ({ data, pc := .done 0 }, [.returned 0 data])

/-- `read_desired` is called, `:118-123`. -/
def start (desired : Nat) : State := (loop desired []).1

def step (desired : Nat) (s : State) : Event → Option (State × List Obs)
  | .answer ec chunk =>
    match s.pc with
    | .ask =>
      let o := .answered (desired - s.data.length) ec chunk
      -- `:106`
      if ec = wouldBlock then some ({ s with pc := .yielded }, [o, .yielded])
      -- `:124-125`
      else if ec = 0 then
        let (s1, o1) := loop desired (s.data ++ chunk)
        some (s1, o :: o1)
      else some ({ s with pc := .done ec }, [o, .returned ec s.data])
    | _ => none
  | .resume =>
    match s.pc with
    | .yielded => some ({ s with pc := .ask }, [])
    | _ => none

/-- `read`, `:157-171`: returns, or throws `IncompleteRead` with the data and the error code. -/
inductive Result
  | data (d : List Nat)
  | incomplete (d : List Nat) (ec : Int)
  deriving DecidableEq, Repr

def readResult (ec : Int) (d : List Nat) : Result := if ec = 0 ∨ ec = eof then .data d else .incomplete d ec

/-! ## What is observed -/

/-- The data the interface has given so far. -/
def given : List Obs → List Nat
  | [] => []
  | .answered _ ec c :: tr => (if ec = 0 then c else []) ++ given tr
  | _ :: tr => given tr

def asks (tr : List Obs) : Nat := tr.countP fun o => match o with | .answered .. => true | _ => false

def blocks (tr : List Obs) : Nat := tr.countP fun o => match o with | .answered _ ec _ => ec = wouldBlock | _ => false

end Verif.Nonblocking
