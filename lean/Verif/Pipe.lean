import Verif.Base

/-!
# One fiber sends values and closes the channel, others receive until the channel is closed: `examples/range_for.cpp`, `examples/asio/exchange.cpp`

`range_for.cpp` has one receiver, which loops over the channel (`:28-30`); in `exchange.cpp` the receiver calls `value_pop` until it throws (`:36-40`).
Both end when the channel is closed and nothing is left in it. Receiving a value and printing it are two steps.

Simplifications: the values, the number of receivers and the kind of the channel are parameters. A buffered channel made with `cap` slots holds
`cap - 1` elements, first in first out; `push` on an unbuffered channel puts the value into the slot and returns when it has been taken (C24, C25).
-/

namespace Verif.Pipe

/-- The kind of the channel: `buffered_channel` with some slots or `unbuffered_channel`. -/
inductive Kind
  | buffered (cap : Nat)
  | unbuffered

/-- The values (`range_for.cpp:17-23`, `exchange.cpp:21-24`), the receivers and the channel (`range_for.cpp:36`, `exchange.cpp:49`). -/
structure Prog where
  vals : List Nat
  n : Nat
  kind : Kind

/-- The sender: before the next `push`, or `close` if there is none; in a `push` on an unbuffered channel that waits for a receiver; after `close`. -/
inductive Snd
  | next (rest : List Nat)
  | wait (rest : List Nat)
  | done
  deriving DecidableEq

/-- A receiver: in `value_pop` or `operator++` of the iterator, printing a value, or behind the loop. -/
inductive Rcv
  | pop
  | print (v : Nat)
  | done
  deriving DecidableEq

/-- The sender, the receivers, what is in the channel, and whether it is closed. -/
structure State where
  snd : Snd
  rcv : Nat → Rcv
  q : List Nat
  closed : Bool

/-- `takes i v`, `prints i v`: receiver `i` takes and prints `v`; `ends i`: it sees that the channel is closed. -/
inductive Obs
  | takes (i v : Nat)
  | prints (i v : Nat)
  | ends (i : Nat)
  deriving DecidableEq

/-- The next action of the sender or of a receiver. -/
inductive Event
  | snd
  | rcv (i : Nat)

/-- All fibers are started (`range_for.cpp:38-39`). -/
def init (P : Prog) : State := { snd := .next P.vals, rcv := fun _ => .pop, q := [], closed := false }

/-- One action (`range_for.cpp:16-31`, `exchange.cpp:20-43`). -/
def step (P : Prog) (s : State) : Event → Option (State × List Obs)
  | .snd =>
    match s.snd with
    | .next [] => some ({ s with snd := .done, closed := true }, [])
    | .next (v :: rest) =>
      match P.kind with
      | .buffered cap => if s.q.length + 1 < cap then some ({ s with snd := .next rest, q := s.q ++ [v] }, []) else none
      | .unbuffered => if s.q = [] then some ({ s with snd := .wait rest, q := [v] }, []) else none
    | .wait rest => if s.q = [] then some ({ s with snd := .next rest }, []) else none
    | .done => none
  | .rcv i =>
    if i < P.n then
      match s.rcv i with
      | .pop =>
        match s.q with
        | v :: q => some ({ s with rcv := upd s.rcv i (.print v), q := q }, [.takes i v])
        | [] => if s.closed then some ({ s with rcv := upd s.rcv i .done }, [.ends i]) else none
      | .print v => some ({ s with rcv := upd s.rcv i .pop }, [.prints i v])
      | .done => none
    else none

end Verif.Pipe
