import Verif.Multi

/-!
# Changing the scheduling algorithm of a thread: `scheduler::set_algo`

`src/scheduler.cpp:322-328`, with every combination of the three algorithms of the library as old and as new algorithm,
while other threads may use the shared queue of `shared_work` or steal from the queue of `work_stealing`.
-/

namespace Verif.SetAlgo

open Verif.Sch (Cx)
open Verif.Multi (pinned)

inductive Kind
  | rr | shared | steal
  deriving DecidableEq, Repr

inductive Pc
  | test                 -- before `algo_->has_ready_fibers()`
  | move                 -- before `algo->awakened( algo_->pick_next() )`
  | done                 -- `algo_ = std::move( algo)`
  | dead                 -- `awakened( nullptr)`
  deriving DecidableEq, Repr

structure State where
  old : Kind
  new : Kind
  pc : Pc
  oldQ : List Cx         -- `round_robin::rqueue_` / `shared_work::lqueue_` / `work_stealing::rqueue_` of the old algorithm
  newQ : List Cx         -- the same of the new one
  shared : List Cx       -- `shared_work::rqueue_`, which is static
  deriving DecidableEq

inductive Event
  | go                   -- the next call in `set_algo`
  | found (x : Cx)       -- the next call in `set_algo`; an empty `work_stealing` queue steals `x` from another thread
  | take                 -- another thread picks from the shared queue (`shared_work`)
  | thief                -- another thread steals from the old queue (`work_stealing`)
  | put (x : Cx)         -- another thread makes the worker `x` ready (`shared_work`)

inductive Obs
  | moved (x : Cx)       -- `x` is handed from the old to the new algorithm
  | null                 -- `nullptr` is handed to the new algorithm, which dereferences it
  | finished
  | taken (x : Cx)       -- another thread takes `x`
  | put (x : Cx)
  deriving DecidableEq, Repr

/-- `use_scheduling_algorithm` is called when `q` and `sh` are the queues. -/
def init (old new : Kind) (q sh : List Cx) : State := ⟨old, new, .test, q, [], sh⟩

/-- `has_ready_fibers` of the old algorithm: `round_robin.cpp:42-45`, `shared_work.hpp:66-69`, `work_stealing.hpp:73-75`. -/
def ready (s : State) : Bool :=
  match s.old with
  | .rr | .steal => !s.oldQ.isEmpty
  | .shared => !s.shared.isEmpty || !s.oldQ.isEmpty

/-- `pick_next` of the old algorithm: `round_robin.cpp:28-40`, `shared_work.cpp:41-66`, `work_stealing.cpp:57-89` (`stolen`: the
result of its search for a victim). -/
def pick (s : State) (stolen : Option Cx) : Option Cx × State :=
  match s.old with
  | .rr =>
    match s.oldQ with
    | x :: q => (some x, { s with oldQ := q })
    | [] => (none, s)
  | .steal =>
    match s.oldQ with
    | x :: q => (some x, { s with oldQ := q })
    | [] => (stolen, s)
  | .shared =>
    match s.shared with
    | x :: q => (some x, { s with shared := q })
    | [] =>
      match s.oldQ with
      | x :: q => (some x, { s with oldQ := q })
      | [] => (none, s)

/-- `awakened` of the new algorithm: `round_robin.cpp:20-26`, `shared_work.cpp:22-37`, `work_stealing.cpp:49-55`. -/
def awaken (s : State) (x : Cx) : State :=
  match s.new with
  | .rr | .steal => { s with newQ := s.newQ ++ [x] }
  | .shared => if pinned x then { s with newQ := s.newQ ++ [x] } else { s with shared := s.shared ++ [x] }

/-- The loop of `set_algo`. -/
def loop (s : State) (stolen : Option Cx) : Option (State × List Obs) :=
  match s.pc with
  | .test => if ready s then some ({ s with pc := .move }, []) else some ({ s with pc := .done }, [.finished])
  | .move =>
    match pick s stolen with
    | (some x, s1) => some ({ awaken s1 x with pc := .test }, [.moved x])
    | (none, s1) => some ({ s1 with pc := .dead }, [.null])
  | _ => none

/-- One step. -/
def step (s : State) : Event → Option (State × List Obs)
  | .go => loop s none
  | .found x => if s.old = .steal ∧ s.pc = .move ∧ s.oldQ = [] ∧ !pinned x then loop s (some x) else none
  | .take =>
    match s.shared with
    | x :: q => some ({ s with shared := q }, [.taken x])
    | [] => none
  | .thief =>
    match s.old, s.oldQ with
    | .steal, x :: q => if pinned x then none else some ({ s with oldQ := q }, [.taken x])
    | _, _ => none
  | .put x => if pinned x then none else some ({ s with shared := s.shared ++ [x] }, [.put x])

end Verif.SetAlgo
