import Verif.Fss

/-!
# Cleanup functions that use fiber-specific pointers, or wait

`Verif.FssRe`: one fiber whose cleanup functions may themselves call `reset` and `release`. The calls nest; a nested call runs
between `do_cleanup` and the use of the iterator that was obtained before it.

`Verif.FssWait`: one thread whose fibers end, run their cleanup functions and join each other.
-/

namespace Verif.FssRe

open Verif.Fss (Addr Ptr Map find insert assign erase getData)

/-- A pending call of a cleanup function on the entry of pointer `a`, to be continued when the function returns. `id` is the
identity of the map node to which the iterator points. -/
inductive Frame
  /-- in `set_fss_data( a, …, v, true)`, `src/context.cpp:357-366` -/
  | set (a : Addr) (id : Nat) (v : Ptr)
  /-- in the loop of `context::terminate`, `src/context.cpp:274-276` -/
  | loop (a : Addr) (id : Nat)
  deriving DecidableEq, Repr

def Frame.key : Frame → Addr
  | .set a _ _ => a
  | .loop a _ => a

def Frame.node : Frame → Nat
  | .set _ i _ => i
  | .loop _ i => i

inductive Mode
  | running
  | ending
  | ended
  /-- undefined behaviour: an iterator to an erased node was used -/
  | broken
  deriving DecidableEq, Repr

inductive Obs
  | stored (a : Addr) (v : Ptr)
  | released (a : Addr) (r : Ptr)
  | cleanup (a : Addr) (v : Ptr)
  | exited
  | ub
  deriving DecidableEq, Repr

structure State where
  /-- restrict cleanup functions to pointers with greater keys -/
  strict : Bool
  mode : Mode
  /-- key ↦ pointer and identity of the node -/
  map : Map
  /-- the next node identity -/
  next : Nat
  stack : List Frame

def init (strict : Bool) : State := ⟨strict, .running, [], 0, []⟩

inductive Event
  /-- `reset( v)`, by the fiber or by the cleanup function it is in -/
  | reset (a : Addr) (v : Ptr)
  | release (a : Addr)
  /-- the cleanup function returns -/
  | ret
  /-- the fiber ends -/
  | exit
  deriving DecidableEq, Repr

/-- The fiber, or a cleanup function of it, is running and may use pointer `a`. -/
def may (s : State) (a : Addr) : Bool :=
  match s.stack with
  | [] => decide (s.mode = .running)
  | fr :: _ => decide (s.mode = .running ∨ s.mode = .ending) && (!s.strict || decide (fr.key < a))

/-- The loop of `terminate` goes to the first node with a key greater than `k`, or ends, and the map is cleared
(`src/context.cpp:274-277`). -/
def advance (s : State) (rest : List Frame) (later : Map) : State × List Obs :=
  match later with
  | (a, p, i) :: _ => ({ s with stack := .loop a i :: rest }, [.cleanup a p])
  | [] => ({ s with stack := rest, map := [], mode := .ended }, [.exited])

def step (s : State) : Event → Option (State × List Obs)
  -- `fss.hpp:92-98` and `src/context.cpp:350-372` up to the call of the cleanup function
  | .reset a v =>
    if may s a then
      if getData a s.map = v then some (s, [])
      else match find a s.map with
        | some (p, i) => some ({ s with stack := .set a i v :: s.stack }, [.cleanup a p])
        | none => some ({ s with map := insert a (v, s.next) s.map, next := s.next + 1 }, [.stored a v])
    else none
  -- `fss.hpp:85-90` and `src/context.cpp:350-372`
  | .release a =>
    if may s a then
      match find a s.map with
      | some (p, _) => some ({ s with map := erase a s.map }, [.released a p])
      | none => some ({ s with map := insert a (0, s.next) s.map, next := s.next + 1 }, [.released a 0])
    else none
  | .ret =>
    if s.mode = .broken then none else
    match s.stack with
    | [] => none
    | .set a i v :: rest =>
      match find a s.map with
      | some (_, j) =>
        if j = i then some ({ s with stack := rest, map := if v ≠ 0 then assign a (v, i) s.map else erase a s.map }, [.stored a v])
        else some ({ s with mode := .broken }, [.ub])
      | none => some ({ s with mode := .broken }, [.ub])
    | .loop a i :: rest =>
      match find a s.map with
      | some (_, j) =>
        if j = i then some (advance s rest (s.map.filter (fun e => decide (a < e.1))))
        else some ({ s with mode := .broken }, [.ub])
      | none => some ({ s with mode := .broken }, [.ub])
  | .exit => if s.mode = .running ∧ s.stack = [] then some (advance { s with mode := .ending } [] s.map) else none

end Verif.FssRe

namespace Verif.FssWait

/-- Where a fiber is. -/
inductive Pc
  /-- runs the user's function -/
  | user
  /-- in `context::terminate`, in a cleanup function; the spinlock of its control block is held (`src/context.cpp:267,274-276`) -/
  | cleaning
  /-- in `context::join` of fiber `g`, acquiring the spinlock of `g` (`src/context.cpp:233`) -/
  | spinning (g : Fid)
  /-- in `context::join` of fiber `g`, suspended (`src/context.cpp:237-243`) -/
  | waiting (g : Fid)
  | done
  deriving DecidableEq, Repr

structure State where
  /-- cleanup functions do not wait -/
  strict : Bool
  /-- the fiber that runs on this thread -/
  run : Fid
  pc : Fid → Pc
  /-- the spinlock of the control block -/
  locked : Fid → Bool
  /-- `terminated_` -/
  over : Fid → Bool

def init (strict : Bool) : State := ⟨strict, 0, fun _ => .user, fun _ => false, fun _ => false⟩

inductive Event
  /-- the running fiber waits for something (yields, sleeps, locks a mutex) and fiber `g` runs -/
  | switch (g : Fid)
  /-- the function of the running fiber returns: `context::terminate` up to the first cleanup function -/
  | finish
  /-- the last cleanup function returns; the spinlock is released when `g` has been switched to (`src/scheduler.cpp:217-240`) -/
  | leave (g : Fid)
  /-- `join` of `g` -/
  | join (g : Fid)
  /-- the running fiber tries to get the spinlock again -/
  | spin
  deriving DecidableEq, Repr

def suspended : Pc → Bool
  | .waiting _ => true
  | _ => false

/-- A fiber that can be switched to. -/
def ready (s : State) (g : Fid) : Bool :=
  match s.pc g with
  | .user => true
  | .cleaning => true
  | .spinning _ => false
  | .waiting t => s.over t
  | .done => false

/-- Being switched to: a suspended joiner returns from `join`. -/
def wakeUp (s : State) (g : Fid) : State :=
  match s.pc g with
  | .waiting _ => { s with run := g, pc := upd s.pc g .user }
  | _ => { s with run := g }

def step (s : State) : Event → Option (State × List Unit)
  | .switch g =>
    if ready s g ∧ (s.pc s.run = .user ∨ suspended (s.pc s.run) = true ∨ (s.pc s.run = .cleaning ∧ s.strict = false)) then some (wakeUp s g, []) else none
  | .finish =>
    if s.pc s.run = .user ∧ s.locked s.run = false then
      some ({ s with pc := upd s.pc s.run .cleaning, locked := upd s.locked s.run true, over := upd s.over s.run true }, [])
    else none
  | .leave g =>
    if s.pc s.run = .cleaning ∧ ready s g ∧ g ≠ s.run then
      some (wakeUp { s with pc := upd s.pc s.run .done, locked := upd s.locked s.run false } g, [])
    else none
  | .join g => if s.pc s.run = .user ∧ g ≠ s.run then some ({ s with pc := upd s.pc s.run (.spinning g) }, []) else none
  | .spin =>
    match s.pc s.run with
    | .spinning g =>
      if s.locked g then some (s, [])
      else if s.over g then some ({ s with pc := upd s.pc s.run .user }, [])
      else some ({ s with pc := upd s.pc s.run (.waiting g) }, [])
    | _ => none

end Verif.FssWait
