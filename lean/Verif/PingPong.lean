import Verif.Base

/-!
# Two fibers that answer each other: `examples/ping_pong.cpp`

Taking a value from a channel and printing it are two steps, so that the order of what is printed is not an effect of the model; the fibers may run on
one thread or on two.

Simplifications: the number of rounds is a parameter (3 in the program, `:20-33`), as are the slots of the channels (2, `:17`). A channel made with
`cap` slots holds `cap - 1` elements, first in first out (`buffered_channel.hpp:52-54`, `Verif/Buffered.lean`). Nobody closes a channel.
-/

namespace Verif.PingPong

/-- The strings that are sent (`ping_pong.cpp:20`, `:29`). -/
inductive Msg
  | ping
  | pong
  deriving DecidableEq

/-- Rounds and slots (`ping_pong.cpp:17`, `:20-33`). -/
structure Prog where
  rounds : Nat
  cap : Nat

/-- Where a fiber is: in `push`, in `value_pop`, or printing what it got, in round `k`. -/
inductive Pc
  | push (k : Nat)
  | pop (k : Nat)
  | print (k : Nat) (m : Msg)
  | done
  deriving DecidableEq

/-- The fibers `fping` and `fpong`, and the channels `chan1` and `chan2` (`ping_pong.cpp:17-34`). -/
structure State where
  a : Pc
  b : Pc
  c1 : List Msg
  c2 : List Msg
  deriving DecidableEq

/-- `prints f m`: fiber `f` (`true` for `fping`) prints `m`. -/
inductive Obs
  | prints (f : Bool) (m : Msg)
  deriving DecidableEq

/-- The next action of `fping` (`true`) or `fpong` (`false`). -/
abbrev Event := Bool

/-- The next round or the end of `fping` (`ping_pong.cpp:20-25`). -/
def nextA (P : Prog) (k : Nat) : Pc := if k < P.rounds then .push k else .done

/-- The next round or the end of `fpong` (`ping_pong.cpp:28-33`). -/
def nextB (P : Prog) (k : Nat) : Pc := if k < P.rounds then .pop k else .done

/-- Both fibers are started (`ping_pong.cpp:19`, `:27`). -/
def init (P : Prog) : State := { a := nextA P 0, b := nextB P 0, c1 := [], c2 := [] }

/-- One action of a fiber (`ping_pong.cpp:19-34`). -/
def step (P : Prog) (s : State) (e : Event) : Option (State × List Obs) :=
  if e then
    match s.a with
    | .push k => if s.c1.length + 1 < P.cap then some ({ s with a := .pop k, c1 := s.c1 ++ [.ping] }, []) else none
    | .pop k =>
      match s.c2 with
      | [] => none
      | m :: c => some ({ s with a := .print k m, c2 := c }, [])
    | .print k m => some ({ s with a := nextA P (k + 1) }, [.prints true m])
    | .done => none
  else
    match s.b with
    | .pop k =>
      match s.c1 with
      | [] => none
      | m :: c => some ({ s with b := .print k m, c1 := c }, [])
    | .print k m => some ({ s with b := .push k }, [.prints false m])
    | .push k => if s.c2.length + 1 < P.cap then some ({ s with b := nextB P (k + 1), c2 := s.c2 ++ [.pong] }, []) else none
    | .done => none

end Verif.PingPong
