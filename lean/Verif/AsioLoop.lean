import Verif.Base
import Verif.Priority

/-!
# Fibers and asio's main loop on one thread

`examples/asio/round_robin.hpp` (`doc/integration.qbk`): a scheduling algorithm whose main fiber runs the handlers of an `io_context` and lets the fibers run in between. One thread with its scheduler
(`src/scheduler.cpp`), and other threads that wake its fibers.

Simplifications: the `io_context` is a list of handlers that are due, in the order in which they came (asio); it never runs out of work (`service::work_`, `:49-67`). Fibers are numbers; the dispatcher is `0`,
the main fiber `1`. What fibers and the user's handlers do is not modelled: they may take any of the steps below. Each operation of the timer is one step here, although nothing protects them against each other
(`Verif.Props.AsioLoop.timer_race`). A fiber that another thread wakes leaves the sleep queue at once. Destruction of the scheduler is left out.
-/

namespace Verif.AsioLoop

/-- The dispatcher, and the main fiber. -/
abbrev disp : Nat := 0
abbrev main : Nat := 1

abbrev St := Verif.Priority.St

/-- A handler: the user's, or that of the timer, which yields (`:153-155`, `:178-180`). -/
inductive H
  | user (k : Nat)
  | timer
  deriving DecidableEq, Repr

/-- Where the main fiber is. -/
inductive MPc
  /-- before `io_context::run` -/
  | setup
  /-- `:81` -/
  | loop
  /-- `:84` -/
  | poll
  /-- `:88` -/
  | waiting
  /-- `:92` -/
  | runOne
  /-- in a handler, called by `run_one` or by `poll` -/
  | handler (one : Bool) (h : H)
  /-- after `io_context::run` -/
  | done
  deriving DecidableEq, Repr

structure State where
  /-- `rqueue_` -/
  queue : List Nat
  /-- `counter_` -/
  counter : Nat
  /-- `context::active()` -/
  cur : Nat
  st : Nat → St
  mpc : MPc
  /-- handlers that are due -/
  handlers : List H
  /-- `suspend_timer_`: how many handlers wait for it, and when it expires -/
  waits : Nat
  expiry : Nat
  stopped : Bool
  /-- `scheduler::sleep_queue_` -/
  sleepq : List (Nat × Nat)
  /-- `scheduler::remote_ready_queue_` -/
  remoteq : List Nat
  /-- other threads that are about to call `notify`, and that are between its two statements -/
  n1 : Nat
  n2 : Nat
  now : Nat

inductive Obs
  | ready (y : Nat)
  | ran (x : Nat)
  | started (x : Nat)
  | handled (h : H)
  /-- a null pointer is used as a context -/
  | ub
  deriving DecidableEq, Repr

inductive Event
  /-- what the running fiber does -/
  | yield
  | block
  | sleep (t : Nat)
  | finish
  | post (y : Nat)
  | dispatch (y : Nat)
  | wake (y : Nat)
  /-- the main fiber calls `io_context::run` -/
  | run
  /-- the main fiber goes on in the loop -/
  | mainStep
  | turn
  /-- the timer expires -/
  | fire
  /-- an operation completes, or someone posts a handler -/
  | arrive (k : Nat)
  | stop
  /-- another thread wakes fiber `y`, and calls `notify` -/
  | remote (y : Nat)
  | rWait
  | rExp
  | tick (n : Nat)
  deriving DecidableEq

def init : State where
  queue := [disp]
  counter := 0
  cur := main
  st x := if x = disp then .ready else if x = main then .running else .unborn
  mpc := .setup
  handlers := []
  waits := 0
  expiry := 0
  stopped := false
  sleepq := []
  remoteq := []
  n1 := 0
  n2 := 0
  now := 0

/-- `awakened`, `:101-108`. -/
def awakened (s : State) (y : Nat) : State := { s with queue := s.queue ++ [y], counter := if y = disp then s.counter else s.counter + 1 }

/-- `has_ready_fibers`, `:126-128`. -/
def hasReady (s : State) : Bool := 0 < s.counter

/-- `scheduler::schedule`, `src/scheduler.cpp:176-192`. -/
def schedule (s : State) (y : Nat) : State × List Obs :=
  let s1 := awakened { s with sleepq := s.sleepq.filter (·.2 ≠ y) } y
  ({ s1 with st := upd s1.st y .ready }, [.ready y])

/-- `scheduler::remote_ready2ready_`, `src/scheduler.cpp:50-63`. -/
def scheduleAll (s : State) : List Nat → State × List Obs
  | [] => (s, [])
  | y :: l =>
    let (s1, o1) := schedule s y
    let (s2, o2) := scheduleAll s1 l
    (s2, o1 ++ o2)

/-- `pick_next`, `:110-124`, and `resume`: the running fiber has the state `r` from then on. If it is ready, the next fiber puts it into the queue, `src/context.cpp:204-216`. -/
def leave (s : State) (r : St) : State × List Obs :=
  match s.queue with
  | [] => (s, [.ub])
  | x :: q =>
    let s1 : State := { s with queue := q, counter := if x = disp then s.counter else s.counter - 1, cur := x, st := upd (upd s.st s.cur r) x .running }
    if r = .ready then
      let (s2, o) := schedule s1 s.cur
      (s2, .ran x :: o)
    else (s1, [.ran x])

/-- `steady_timer::expires_at`: handlers that wait are due, with an error. -/
def expiresAt (s : State) (t : Nat) : State := { s with handlers := s.handlers ++ List.replicate s.waits .timer, waits := 0, expiry := t }

/-- `steady_timer::async_wait`. -/
def asyncWait (s : State) : State := { s with waits := s.waits + 1 }

/-- `suspend_until`, `:131-158`. The first deadline is that of the sleep queue, `src/scheduler.cpp:156-167`. -/
def suspendUntil (s : State) : State × List Obs :=
  let s1 := match s.sleepq with
    | [] => s
    | (t, _) :: _ => asyncWait (expiresAt s t)
  -- `cnd_.notify_one()`
  if s1.mpc = .waiting ∧ s1.st main = .blocked then schedule s1 main else (s1, [])

/-- A handler is called: that of the timer yields, in the main fiber; the user's does something. -/
def call (s : State) (one : Bool) (h : H) : State × List Obs :=
  let s1 : State := { s with mpc := .handler one h }
  match h with
  | .user _ => (s1, [.handled h])
  | .timer =>
    let (s2, o) := leave s1 .ready
    (s2, .handled h :: o)

/-- The loop of the main fiber, `:81-96`. -/
def mainStep (s : State) : Option (State × List Obs) :=
  match s.mpc with
  | .setup | .done => none
  | .loop =>
    if s.stopped then some ({ s with mpc := .done }, [])
    else if hasReady s then some ({ s with mpc := .poll }, [])
    else some ({ s with mpc := .runOne }, [])
  | .poll =>
    if s.stopped then some (leave { s with mpc := .waiting } .blocked)
    else
      match s.handlers with
      | [] => some (leave { s with mpc := .waiting } .blocked)
      | h :: hs => some (call { s with handlers := hs } false h)
  | .waiting => some ({ s with mpc := .loop }, [])
  | .runOne =>
    if s.stopped then some ({ s with mpc := .done }, [])
    else
      match s.handlers with
      | [] => none
      | h :: hs => some (call { s with handlers := hs } true h)
  | .handler one _ => some ({ s with mpc := if one then .loop else .poll }, [])

/-- The main fiber does what the user wants: before and after `run`, and in the user's handlers. -/
def MPc.user : MPc → Bool
  | .setup => true
  | .done => true
  | .handler _ (.user _) => true
  | _ => false

def step (s : State) (e : Event) : Option (State × List Obs) :=
  match e with
  | .tick n => some ({ s with now := s.now + n }, [])
  | .arrive k => some ({ s with handlers := s.handlers ++ [.user k] }, [])
  | .stop => some ({ s with stopped := true }, [])
  | .fire => if 0 < s.waits ∧ s.expiry ≤ s.now then some ({ s with handlers := s.handlers ++ List.replicate s.waits .timer, waits := 0 }, []) else none
  -- `scheduler::schedule_from_remote`, `src/scheduler.cpp:194-214`
  | .remote y =>
    if y = main ∧ s.mpc = .waiting then none
    else
      match s.st y with
      | .blocked | .asleep _ => some ({ s with remoteq := s.remoteq ++ [y], st := upd s.st y .remote, sleepq := s.sleepq.filter (·.2 ≠ y), n1 := s.n1 + 1 }, [])
      | _ => none
  -- `notify`, `:162-182`
  | .rWait => if 0 < s.n1 then some (asyncWait { s with n1 := s.n1 - 1, n2 := s.n2 + 1 }, []) else none
  | .rExp => if 0 < s.n2 then some (expiresAt { s with n2 := s.n2 - 1 } s.now, []) else none
  -- `scheduler::dispatch`, `src/scheduler.cpp:122-174`
  | .turn =>
    if s.cur = disp then
      let (s1, o1) := scheduleAll { s with remoteq := [] } s.remoteq
      -- `sleep2ready_`, `src/scheduler.cpp:65-88`
      let (s2, o2) := scheduleAll s1 ((s1.sleepq.takeWhile (·.1 ≤ s1.now)).map (·.2))
      match s2.queue with
      | [] =>
        let (s3, o3) := suspendUntil s2
        some (s3, o1 ++ o2 ++ o3)
      | _ :: _ =>
        let (s3, o3) := leave s2 .ready
        some (s3, o1 ++ o2 ++ o3)
    else none
  | .mainStep => if s.cur = main then mainStep s else none
  | .run => if s.cur = main ∧ s.mpc = .setup then some ({ s with mpc := .loop }, []) else none
  | e =>
    if s.cur = disp ∨ (s.cur = main ∧ s.mpc.user = false) then none
    else
      match e with
      -- `scheduler::yield`, `src/scheduler.cpp:242-255`
      | .yield => some (leave s .ready)
      -- `scheduler::suspend`, `:304-314`
      | .block => some (leave s .blocked)
      -- `scheduler::wait_until`, `:257-277`
      | .sleep t => some (leave { s with sleepq := Verif.Priority.sleepIns t s.cur s.sleepq } (.asleep t))
      -- `scheduler::terminate`, `:216-240`; the main fiber does not end here
      | .finish => if s.cur = main then none else some (leave s .ended)
      -- `fiber::start_`, `src/fiber.cpp:20-44`
      | .post y => if s.st y = .unborn then some (schedule s y) else none
      | .dispatch y =>
        if s.st y = .unborn then
          let s1 : State := { s with cur := y, st := upd s.st y .running }
          let (s2, o) := schedule s1 s.cur
          some (s2, .started y :: o)
        else none
      | .wake y =>
        if y = main ∧ s.mpc = .waiting then none
        else
          match s.st y with
          | .blocked | .asleep _ => some (schedule s y)
          | _ => none
      | _ => none

/-- The thread sleeps in `run_one`: no handler is due. -/
def sleeping (s : State) : Prop := s.cur = main ∧ s.mpc = .runOne ∧ s.handlers = [] ∧ s.stopped = false

end Verif.AsioLoop
