import Verif.Base

/-!
# Fibers with priorities

`examples/priority.cpp`: a scheduling algorithm for fibers with priorities, which users are told to take as a model for their own (`doc/customization.qbk`). One thread: its scheduler
(`src/scheduler.cpp`) with `priority_scheduler` as its algorithm.

Simplifications: priorities are integers without a bound. Fibers are numbers; the dispatcher is `0`, the main fiber `1`. What a fiber does is not modelled: it may take any of the steps below. When a
fiber is woken by another thread this is the event `remote`; that such a wake-up reaches a sleeping thread is C44. Time is a number that grows. Properties of the main fiber exist from the beginning
(they come into being when they are first asked for, C72). Releasing the memory of ended fibers is left out.
-/

namespace Verif.Priority

/-- The dispatcher. -/
abbrev disp : Nat := 0

inductive St
  | unborn
  | ready
  | running
  | blocked
  /-- asleep, or waiting with a deadline -/
  | asleep (t : Nat)
  /-- woken by another thread, and not yet ready -/
  | remote
  | ended
  deriving DecidableEq, Repr

structure State where
  /-- `priority_props::priority_` -/
  prio : Nat → Int
  /-- `priority_scheduler::rqueue_` -/
  queue : List Nat
  /-- `context::active()` -/
  cur : Nat
  st : Nat → St
  /-- `scheduler::sleep_queue_`: fibers in the order of their deadlines -/
  sleepq : List (Nat × Nat)
  /-- `scheduler::remote_ready_queue_` -/
  remoteq : List Nat
  now : Nat

inductive Obs
  /-- fiber `y`, of priority `p`, becomes ready; or is moved within the queue as it has got this priority -/
  | ready (y : Nat) (p : Int)
  /-- the priority of fiber `y` is set -/
  | set (y : Nat) (p : Int)
  /-- fiber `x` is taken from the queue and runs -/
  | ran (x : Nat)
  /-- fiber `x` is new and runs at once -/
  | started (x : Nat)
  | yielded (x : Nat)
  /-- a null pointer is used as a context -/
  | ub
  deriving DecidableEq, Repr

inductive Event
  /-- what the running fiber does -/
  | yield
  | block
  | sleep (t : Nat)
  | finish
  /-- `launch::post`, `launch::dispatch` -/
  | post (y : Nat)
  | dispatch (y : Nat)
  | wake (y : Nat)
  | setPriority (y : Nat) (p : Int)
  /-- the dispatcher goes once around its loop -/
  | turn
  /-- another thread wakes fiber `y` -/
  | remote (y : Nat)
  | tick (n : Nat)
  deriving DecidableEq

/-- Before the first fiber of lower priority: `priority_scheduler::awakened`, `examples/priority.cpp:97-118`. -/
def insert (prio : Nat → Int) (x : Nat) : List Nat → List Nat
  | [] => [x]
  | y :: q => if prio y < prio x then x :: y :: q else y :: insert prio x q

/-- In the order of the deadlines, after those that are equal: `sleep_queue_` is a multiset, `include/boost/fiber/scheduler.hpp:50-61`. -/
def sleepIns (t x : Nat) : List (Nat × Nat) → List (Nat × Nat)
  | [] => [(t, x)]
  | (u, y) :: q => if t < u then (t, x) :: (u, y) :: q else (u, y) :: sleepIns t x q

/-- The dispatcher is put into the queue when it is attached, `src/scheduler.cpp:341-357`; the algorithm gets it from the one before, `src/scheduler.cpp:320-328`. -/
def init : State where
  prio _ := 0
  queue := [disp]
  cur := 1
  st x := if x = disp then .ready else if x = 1 then .running else .unborn
  sleepq := []
  remoteq := []
  now := 0

/-- `scheduler::schedule`, `src/scheduler.cpp:176-192`. -/
def schedule (s : State) (y : Nat) : State × List Obs :=
  ({ s with sleepq := s.sleepq.filter (·.2 ≠ y), queue := insert s.prio y s.queue, st := upd s.st y .ready }, [.ready y (s.prio y)])

/-- `scheduler::remote_ready2ready_`, `src/scheduler.cpp:50-63`. -/
def scheduleAll (s : State) : List Nat → State × List Obs
  | [] => (s, [])
  | y :: l =>
    let (s1, o1) := schedule s y
    let (s2, o2) := scheduleAll s1 l
    (s2, o1 ++ o2)

/-- `pick_next`, `examples/priority.cpp:123-135`, and `resume`: the running fiber has the state `r` from then on. If it is ready, the next fiber puts it into the queue, `src/context.cpp:204-216`. -/
def leave (s : State) (r : St) : State × List Obs :=
  match s.queue with
  | [] => (s, [.ub])
  | x :: q =>
    let s1 : State := { s with queue := q, cur := x, st := upd (upd s.st s.cur r) x .running }
    if r = .ready then
      let (s2, o) := schedule s1 s.cur
      (s2, .ran x :: o)
    else (s1, [.ran x])

def step (s : State) (e : Event) : Option (State × List Obs) :=
  match e with
  | .tick n => some ({ s with now := s.now + n }, [])
  | .remote y =>
    match s.st y with
    | .blocked | .asleep _ => some ({ s with remoteq := s.remoteq ++ [y], st := upd s.st y .remote, sleepq := s.sleepq.filter (·.2 ≠ y) }, [])
    | _ => none
  -- `scheduler::dispatch`, `src/scheduler.cpp:122-174`
  | .turn =>
    if s.cur = disp then
      let (s1, o1) := scheduleAll { s with remoteq := [] } s.remoteq
      -- `sleep2ready_`, `src/scheduler.cpp:65-88`
      let (s2, o2) := scheduleAll s1 ((s1.sleepq.takeWhile (·.1 ≤ s1.now)).map (·.2))
      match s2.queue with
      | [] => some (s2, o1 ++ o2)
      | _ :: _ =>
        let (s3, o3) := leave s2 .ready
        some (s3, o1 ++ o2 ++ o3)
    else none
  | e =>
    if s.cur = disp then none
    else
      match e with
      -- `scheduler::yield`, `src/scheduler.cpp:242-255`
      | .yield =>
        let (s1, o) := leave s .ready
        some (s1, .yielded s.cur :: o)
      -- `scheduler::suspend`, `:304-314`
      | .block => some (leave s .blocked)
      -- `scheduler::wait_until`, `:257-277`
      | .sleep t => some (leave { s with sleepq := sleepIns t s.cur s.sleepq } (.asleep t))
      -- `scheduler::terminate`, `:216-240`; the main fiber does not end here
      | .finish => if s.cur = 1 then none else some (leave s .ended)
      -- `fiber::start_`, `src/fiber.cpp:20-44`
      | .post y => if s.st y = .unborn then some (schedule s y) else none
      | .dispatch y =>
        if s.st y = .unborn then
          let s1 : State := { s with cur := y, st := upd s.st y .running }
          let (s2, o) := schedule s1 s.cur
          some (s2, .started y :: o)
        else none
      | .wake y =>
        match s.st y with
        | .blocked | .asleep _ => some (schedule s y)
        | _ => none
      -- `priority_props::set_priority`, `examples/priority.cpp:51-63`, `fiber_properties::notify`, `src/properties.cpp:19-34`, `property_change`, `examples/priority.cpp:147-181`
      | .setPriority y p =>
        if y = disp ∨ s.st y = .unborn ∨ s.st y = .ended then none
        else if p = s.prio y then some (s, [.set y p])
        else
          let s1 : State := { s with prio := upd s.prio y p }
          if y ∈ s.queue then some ({ s1 with queue := insert s1.prio y (s.queue.erase y) }, [.set y p, .ready y p])
          else some (s1, [.set y p])
      | _ => none

end Verif.Priority
