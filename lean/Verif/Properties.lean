import Verif.Base

/-!
# Scheduling algorithms with properties

`include/boost/fiber/algo/algorithm.hpp:91-152`, `include/boost/fiber/properties.hpp`, `src/properties.cpp`,
`src/algo/algorithm.cpp`, `context::set_properties` (`src/context.cpp:374-378`), the properties handed to the constructor of a fiber
(`include/boost/fiber/context.hpp:459-475`), `scheduler::set_algo` (`src/scheduler.cpp:321-328`).

Any number of threads, each with its current algorithm object; fibers may be woken in any thread. Calls into the
algorithm and `notify` are single steps: calls of `notify` that race with the algorithm of another thread are not modelled.
Algorithms keep ready fibers linked in a queue through the ready hook (`context::ready_link`), as `round_robin` and the example
`priority_scheduler` do; in which order they pick is left open. Properties classes are numbered; a class that does not derive
from the one an algorithm expects has another number.
-/

namespace Verif.Prop

abbrev Tid := Nat
/-- an algorithm object -/
abbrev Aid := Nat
/-- a properties object -/
abbrev Pid := Nat

inductive Kind
  /-- e.g. `round_robin` -/
  | plain
  /-- derived from `algorithm_with_properties< PROPS >`, `PROPS` having this number -/
  | typed (ty : Nat)
  deriving DecidableEq, Repr

structure Obj where
  /-- `ctx_` -/
  ctx : Fid
  /-- `algo_` -/
  algo : Option Aid
  ty : Nat
  deriving DecidableEq, Repr

inductive Obs
  /-- `f` was created with a properties object of its own -/
  | born (f : Fid) (p : Pid)
  /-- an algorithm made a properties object for `f` -/
  | given (f : Fid) (p : Pid)
  /-- `awakened( f, p)` of algorithm `a` -/
  | seen (a : Aid) (f : Fid) (p : Pid)
  /-- `awakened( f)` of an algorithm without properties -/
  | queued (a : Aid) (f : Fid)
  /-- an algorithm's `pick_next` returned `f` -/
  | picked (a : Aid) (f : Fid)
  /-- a property of `f` was changed, by a setter that calls `notify` -/
  | changed (f : Fid)
  /-- `property_change( f, p)` of algorithm `a` -/
  | reported (a : Aid) (f : Fid) (p : Pid)
  /-- the properties object was destroyed with its fiber -/
  | freed (f : Fid) (p : Pid)
  /-- an assertion failed -/
  | failed (f : Fid)
  /-- undefined behaviour -/
  | ub (f : Fid)
  deriving DecidableEq, Repr

inductive Life
  | unborn | alive | dead
  deriving DecidableEq, Repr

structure State where
  /-- see `Props` -/
  tame : Bool
  life : Fid → Life
  /-- `context::properties_` -/
  props : Fid → Option Pid
  /-- the ready hook: the queue of which algorithm `f` is linked in -/
  link : Fid → Option Aid
  obj : Pid → Option Obj
  /-- `none`: not created yet, or destroyed -/
  alg : Aid → Option Kind
  queue : Aid → List Fid
  /-- `scheduler::algo_` -/
  cur : Tid → Option Aid
  nextP : Pid
  nextA : Aid
  broken : Bool

inductive Event
  /-- thread `t` starts, or is given another algorithm -/
  | setAlgo (t : Tid) (k : Kind)
  /-- a fiber is created in thread `t`, with properties of class `own`; `post`: and made ready, otherwise it runs at once -/
  | create (t : Tid) (f : Fid) (own : Option Nat) (post : Bool)
  /-- `f` becomes ready in thread `t` -/
  | wake (t : Tid) (f : Fid)
  /-- thread `t` picks `f` -/
  | pick (t : Tid) (f : Fid)
  /-- a property of `f` is changed -/
  | change (f : Fid)
  /-- the last reference to the fiber disappears -/
  | destroy (f : Fid)
  deriving DecidableEq, Repr

def init (tame : Bool) : State :=
  ⟨tame, fun _ => .unborn, fun _ => none, fun _ => none, fun _ => none, fun _ => none, fun _ => [], fun _ => none, 0, 0, false⟩

/-- Linking the ready hook. -/
def enqueue (s : State) (a : Aid) (f : Fid) : State :=
  { s with link := upd s.link f (some a), queue := upd s.queue a (s.queue a ++ [f]) }

/-- `set_algorithm( this)`, then the cast of `properties( ctx)` and the subclass's `awakened`
(`algorithm.hpp:122-129,134-136`). -/
def show_ (s : State) (a : Aid) (ty : Nat) (f : Fid) (p : Pid) : State × List Obs :=
  match s.obj p with
  | some o =>
    let s1 := { s with obj := upd s.obj p (some { o with algo := some a }) }
    if o.ty = ty then (enqueue s1 a f, [.seen a f p]) else ({ s1 with broken := true }, [.ub f])
  | none => ({ s with broken := true }, [.ub f])

/-- `awakened` (`algorithm.hpp:109-130`; for algorithms without properties e.g. `src/algo/round_robin.cpp:20-25`). -/
def awakened (s : State) (a : Aid) (f : Fid) : State × List Obs :=
  match s.alg a with
  | some (.typed ty) =>
    match s.props f with
    | some p => show_ s a ty f p
    | none =>           -- `new_properties`, `set_properties` (`:112-120`, `:149-151`)
      let p := s.nextP
      let s1 := { s with props := upd s.props f (some p), obj := upd s.obj p (some ⟨f, none, ty⟩), nextP := p + 1 }
      let (s2, o) := show_ s1 a ty f p
      (s2, .given f p :: o)
  | some .plain => (enqueue s a f, [.queued a f])
  | none => ({ s with broken := true }, [.ub f])

/-- `pick_next`, unlinking the ready hook. -/
def unlink (s : State) (a : Aid) (f : Fid) : State :=
  { s with link := upd s.link f none, queue := upd s.queue a ((s.queue a).erase f) }

/-- The loop of `set_algo` (`src/scheduler.cpp:323-326`), from algorithm `a` to `b`. -/
def moveAll (s : State) (a b : Aid) : List Fid → State × List Obs
  | [] => (s, [])
  | f :: fs =>
    let (s1, o1) := awakened (unlink s a f) b f
    if s1.broken then (s1, .picked a f :: o1)
    else
      let (s2, o2) := moveAll s1 a b fs
      (s2, .picked a f :: (o1 ++ o2))

/-- `fiber_properties::notify` (`src/properties.cpp:21-34`), called on the properties object of `f`, which was obtained by
`fiber::properties` (`fiber.hpp:215-220`). -/
def notify (s : State) (f : Fid) : State × List Obs :=
  match (s.props f).bind fun p => (s.obj p).map fun o => (p, o) with
  | none => ({ s with broken := true }, [.changed f, .failed f])            -- `fiber.hpp:218`
  | some (p, o) =>
    match o.algo with
    | none => ({ s with broken := true }, [.changed f, .failed f])          -- `properties.cpp:22`
    | some a =>
      if s.link o.ctx ≠ none then
        match s.alg a with
        | some (.typed ty) =>
          if o.ty = ty then (s, [.changed f, .reported a o.ctx p]) else ({ s with broken := true }, [.changed f, .ub f])
        | _ => ({ s with broken := true }, [.changed f, .ub f])             -- destroyed object, or null after the cast
      else (s, [.changed f])

def step (s : State) (e : Event) : Option (State × List Obs) :=
  if s.broken then none else
  match e with
  | .setAlgo t k =>
    if s.tame = false ∨ k = .typed 0 then
      let b := s.nextA
      let s1 := { s with alg := upd s.alg b (some k), nextA := b + 1 }
      match s.cur t with
      | none => some ({ s1 with cur := upd s.cur t (some b) }, [])
      | some a =>
        let (s2, o) := moveAll s1 a b (s.queue a)
        if s2.broken then some (s2, o)
        else some ({ s2 with cur := upd s2.cur t (some b), alg := upd s2.alg a none }, o)   -- the old object is destroyed
    else none
  | .create t f own post =>
    match s.cur t with
    | none => none
    | some a =>
      if s.life f = .unborn ∧ (s.tame = false ∨ own = none ∨ own = some 0) then
        let s1 := { s with life := upd s.life f .alive }
        match own with
        | some ty =>
          let p := s.nextP
          let s2 := { s1 with props := upd s1.props f (some p), obj := upd s1.obj p (some ⟨f, none, ty⟩), nextP := p + 1 }
          if post then
            let (s3, o) := awakened s2 a f
            some (s3, .born f p :: o)
          else some (s2, [.born f p])
        | none => if post then some (awakened s1 a f) else some (s1, [])
      else none
  | .wake t f =>
    match s.cur t with
    | none => none
    | some a => if s.life f = .alive ∧ s.link f = none then some (awakened s a f) else none
  | .pick t f =>
    match s.cur t with
    | none => none
    | some a => if f ∈ s.queue a then some (unlink s a f, [.picked a f]) else none
  | .change f =>
    if s.life f = .alive ∧ (s.tame = false ∨ (((s.props f).bind s.obj).bind (·.algo)).isSome = true) then some (notify s f) else none
  | .destroy f =>
    if s.life f = .alive ∧ s.link f = none then
      match s.props f with
      | some p => some ({ s with life := upd s.life f .dead, props := upd s.props f none, obj := upd s.obj p none }, [.freed f p])   -- `src/context.cpp:169`
      | none => some ({ s with life := upd s.life f .dead }, [])
    else none

end Verif.Prop
