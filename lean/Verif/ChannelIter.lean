import Verif.BufferedChannel
import Verif.UnbufferedChannel

/-!
# Iterating over a channel

`buffered_channel::iterator` (`include/boost/fiber/buffered_channel.hpp:357-426`) and `unbuffered_channel::iterator`
(`include/boost/fiber/unbuffered_channel.hpp:393-461`) are the same text. Any number of fibers run range-for loops

    for ( auto & v : chan) { … }      i.e.      auto b = begin( chan); auto e = end( chan); for (; b != e; ++b) { … * b … }

over one channel; between and inside the loops all fibers use the channel in any other way. The channel is one of the
machines of `BufferedChannel.lean`, `UnbufferedChannel.lean`. Constructing a value in the iterator and destroying it do not
throw; when the `value_pop` of a loop itself ends with the exception of copying or moving a value, that execution is
followed only up to this exception (the loop stays in `first` or `next`).
-/

namespace Verif.ChanIter

variable {V : Type}

/-- A channel as the iterator sees it. -/
structure Chan (V : Type) where
  S : Type
  E : Type
  O : Type
  step : S → E → Option (S × List O)
  /-- fiber `f` calls `value_pop` -/
  pop : Fid → E
  /-- `value_pop` of fiber `f` returned a value, or threw -/
  result : O → Option (Fid × Option V)

/-- `buffered_channel::value_pop` (`buffered_channel.hpp:299-321`). -/
def buf (V : Type) : Chan V where
  S := BufCh.State V
  E := BufCh.Event V
  O := BufCh.Obs V
  step := BufCh.step
  pop f := .call f .valuePop
  result
    | .ret f .valuePop (.popped (some v)) _ _ => some (f, some v)
    | .ret f .valuePop .threw _ _ => some (f, none)
    | _ => none

/-- `unbuffered_channel::value_pop` (`unbuffered_channel.hpp:326-353`). -/
def unbuf (V : Type) : Chan V where
  S := Unbuf.State V
  E := Unbuf.Event V
  O := Unbuf.Obs V
  step := Unbuf.step
  pop f := .call f .valuePop
  result
    | .ret f _ .valuePop (.popped v) _ => some (f, some v)
    | .ret f _ .valuePop .threw _ => some (f, none)
    | _ => none

/-- What is in `storage_` (`buffered_channel.hpp:362`). -/
inductive Store (V : Type)
  | raw
  | live (v : V)
  /-- the object was destroyed -/
  | dead
  deriving DecidableEq, Repr

/-- Where the loop of a fiber is. -/
inductive Pc
  | idle
  /-- in `value_pop`, called by the constructor of the iterator (`:387-390`) -/
  | first
  /-- in `value_pop`, called by `operator++` (`:411-415`) -/
  | next
  | body
  deriving DecidableEq, Repr

inductive Obs (V O : Type)
  /-- the channel does something -/
  | chan (o : O)
  /-- fiber `f` starts a loop -/
  | began (f : Fid)
  /-- the body of the loop starts, with an object holding `v` that was constructed in the iterator -/
  | yielded (f : Fid) (v : V)
  /-- the body of the loop starts, with storage in which there is no object -/
  | garbage (f : Fid)
  /-- the body of the loop ends and the iterator is incremented -/
  | stepped (f : Fid)
  /-- the destructor of an object holding `v` is called -/
  | destroyed (f : Fid) (v : V)
  /-- a destructor is called on storage in which there is no object (any more) -/
  | dead (f : Fid)
  /-- the loop ends because the iterator equals `end( chan)` -/
  | finished (f : Fid)
  /-- the loop is left by `break`, `return` or an exception -/
  | left (f : Fid)
  /-- an iterator is gone whose storage holds an object, which nobody can destroy any more -/
  | leaked (f : Fid) (v : V)
  deriving DecidableEq, Repr

structure State (C : Chan V) where
  /-- `auto b = begin( chan)` constructs `b` in place (always so since C++17) -/
  elide : Bool
  chan : C.S
  pc : Fid → Pc
  st : Fid → Store V

inductive Event (C : Chan V)
  | chan (e : C.E)
  | start (f : Fid)
  | next (f : Fid)
  | leave (f : Fid)

def init (C : Chan V) (elide : Bool) (c : C.S) : State C := ⟨elide, c, fun _ => .idle, fun _ => .raw⟩

/-- Calling the destructor on the storage. -/
def destroy {O : Type} (f : Fid) : Store V → List (Obs V O)
  | .live v => [.destroyed f v]
  | _ => [.dead f]

/-- The end of the lifetime of an iterator, which has no destructor. -/
def abandon {O : Type} (f : Fid) : Store V → List (Obs V O)
  | .live v => [.leaked f v]
  | _ => []

/-- `value_pop` returned to the iterator: the value is constructed in the storage (`buffered_channel.hpp:370`), or
`chan_` becomes null (`:371-373`) and the comparison with `end( chan)` (`:403-409`, `end`: `:437-441`) ends the loop. Without
copy elision `begin` returns a temporary, and its copy has the `chan_` but not the storage (`:392-394`). -/
def got {C : Chan V} (s : State C) (f : Fid) (r : Option V) : State C × List (Obs V C.O) :=
  match r with
  | some v =>
    if s.pc f = .first ∧ s.elide = false then
      ({ s with pc := upd s.pc f .body, st := upd s.st f .raw }, [.garbage f])
    else ({ s with pc := upd s.pc f .body, st := upd s.st f (.live v) }, [.yielded f v])
  | none => ({ s with pc := upd s.pc f .idle, st := upd s.st f .raw }, [.finished f])

/-- The channel machine took a step with these observations. -/
def feed {C : Chan V} (s : State C) : List C.O → State C × List (Obs V C.O)
  | [] => (s, [])
  | o :: os =>
    match C.result o with
    | some (f, r) =>
      if s.pc f = .first ∨ s.pc f = .next then
        let (s1, o1) := got s f r
        let (s2, o2) := feed s1 os
        (s2, .chan o :: (o1 ++ o2))
      else
        let (s2, o2) := feed s os
        (s2, .chan o :: o2)
    | none =>
      let (s2, o2) := feed s os
      (s2, .chan o :: o2)

def step {C : Chan V} (s : State C) : Event C → Option (State C × List (Obs V C.O))
  | .chan e =>
    match C.step s.chan e with
    | some (c, os) => some (feed { s with chan := c } os)
    | none => none
  | .start f =>       -- `begin` (`buffered_channel.hpp:431-435`), the constructor (`:387-390`), `increment_( true)` (`:364-374`)
    if s.pc f = .idle then
      match C.step s.chan (C.pop f) with
      | some (c, os) =>
        let (s', o') := feed { s with chan := c, pc := upd s.pc f .first, st := upd s.st f .raw } os
        some (s', .began f :: o')
      | none => none
    else none
  | .next f =>        -- `operator++` (`:411-415`) destroys the object, then `increment_( false)` (`:364-374`) does it again
    if s.pc f = .body then
      match C.step s.chan (C.pop f) with
      | some (c, os) =>
        let (s', o') := feed { s with chan := c, pc := upd s.pc f .next, st := upd s.st f .dead } os
        some (s', .stepped f :: (destroy f (s.st f) ++ destroy f (.dead : Store V) ++ o'))
      | none => none
    else none
  | .leave f =>       -- the iterator has no destructor of its own; that of the storage does nothing
    if s.pc f = .body then some ({ s with pc := upd s.pc f .idle, st := upd s.st f .raw }, .left f :: abandon f (s.st f)) else none

end Verif.ChanIter
