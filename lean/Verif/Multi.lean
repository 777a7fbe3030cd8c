import Verif.Sched

/-!
# Threads that share their fibers: `shared_work` and `work_stealing`

`src/algo/shared_work.cpp`, `src/algo/work_stealing.cpp` (with `context_spinlock_queue` as ready queue, which is a FIFO
queue by C50) and the part of `src/scheduler.cpp` that calls them, for any number of threads that use the same
algorithm. A step is one access to a queue that other threads can access, or something local to a thread.

Simplifications: sleeping and remote wake-ups are left to `Verif/Sched.lean`; here a blocked fiber is made ready by the
thread it is attached to at an arbitrary moment. A dispatcher that has found nothing to run looks again at an arbitrary
moment. Locking `rqueue_mtx_` for one access is one step.
-/

namespace Verif.Multi

open Verif.Sch (Cx Tid set set_apply set_same set_other)

/-- `is_context( type::pinned_context)` (`type.hpp`). -/
def pinned : Cx → Bool
  | .work _ => false
  | _ => true

/-- Why the running fiber calls `pick_next`. -/
inductive Why
  | yield     -- `scheduler::yield`
  | block     -- `scheduler::suspend`, `wait_until`
  | finish    -- `scheduler::terminate`
  | exit      -- `~scheduler` (main fiber)
  | disp      -- `scheduler::dispatch`
  deriving DecidableEq, Repr

/-- Where a thread is. -/
inductive Pc
  | user
  | aw (x : Cx)                -- about to call `awakened( x)`
  | push (x : Cx)              -- in `awakened`: the worker is detached, not yet queued
  | pick (r : Why)             -- in `pick_next`
  | lpick (r : Why)            -- `shared_work`: the shared queue was empty
  | steal (r : Why) (c : Nat)  -- `work_stealing`: the own queue was empty; `count`
  | got (r : Why) (y : Cx)     -- has taken `y` from a queue, before `attach` and the switch
  | put (r : Why) (x : Cx)     -- has switched away from `x`, which is to be dealt with
  | idle                       -- dispatcher: in `suspend_until`
  deriving DecidableEq, Repr

inductive St
  | unborn | live | blocked | exiting | done
  deriving DecidableEq, Repr

structure State where
  stealing : Bool              -- `work_stealing` rather than `shared_work`
  size   : Nat                 -- `thread_count`
  run    : Tid → Option Cx
  pc     : Tid → Pc
  shared : List Cx             -- `shared_work::rqueue_`
  loc    : Tid → List Cx       -- `shared_work::lqueue_` / `work_stealing::rqueue_`
  wq     : Tid → List Cx       -- `worker_queue_`
  st     : Cx → St

inductive Event
  | thread (t : Tid)
  | spawn (t : Tid) (n : Nat) (dispatch : Bool)
  | wake (t : Tid) (x : Cx)    -- thread `t` makes its blocked fiber `x` ready
  | call (t : Tid) (r : Why)   -- the running fiber calls `pick_next`
  | disp (t : Tid)             -- the dispatcher at the start of its loop
  | go (t : Tid)
  | draw (t id : Tid)          -- `work_stealing::pick_next`: the random number is `id`

inductive Obs
  | started (t : Tid)
  | spawned (t : Tid) (x : Cx)
  | ready (t : Tid) (x : Cx)   -- `x` is put into a queue by thread `t`
  | take (t v : Tid) (x : Cx)  -- thread `t` takes `x` from the shared queue or the queue of thread `v`
  | run (t : Tid) (x : Cx)     -- thread `t` switches to `x`
  | direct (t : Tid) (x : Cx)  -- thread `t` switches to the new fiber `x`
  | blocked (t : Tid) (x : Cx)
  | woken (t : Tid) (x : Cx)
  | done (t : Tid) (x : Cx)
  | closing (t : Tid)          -- the main function of thread `t` has returned
  | ended (t : Tid)            -- the scheduler of thread `t` is destroyed
  | ub                         -- `pick_next` returns `nullptr` to a caller that dereferences the result
  deriving DecidableEq, Repr

def init (stealing : Bool) (size : Nat) : State :=
  { stealing := stealing, size := size, run := fun _ => none, pc := fun _ => .user, shared := [], loc := fun _ => [], wq := fun _ => [], st := fun _ => .unborn }

/-- `pick_next` returns `nullptr`: the dispatcher suspends the thread (`src/scheduler.cpp:154-167`), every other caller
dereferences the result. -/
def nothing (s : State) (t : Tid) (r : Why) : State × List Obs :=
  if r = .disp then ({ s with pc := upd s.pc t .idle }, []) else ({ s with pc := upd s.pc t .user }, [.ub])

/-- The next action of thread `t` inside the library (other than drawing a random number). -/
def go (s : State) (t : Tid) : Option (State × List Obs) :=
  match s.pc t with
  | .aw x =>                   -- `awakened`: `shared_work.cpp:23-31`, `work_stealing.cpp:50-54`
    if pinned x then some ({ s with loc := upd s.loc t (s.loc t ++ [x]), pc := upd s.pc t .user }, [.ready t x])
    else some ({ s with wq := upd s.wq t ((s.wq t).erase x), pc := upd s.pc t (.push x) }, [])
  | .push x =>                 -- `shared_work.cpp:32-35`, `work_stealing.cpp:54`
    if s.stealing then some ({ s with loc := upd s.loc t (s.loc t ++ [x]), pc := upd s.pc t .user }, [.ready t x])
    else some ({ s with shared := s.shared ++ [x], pc := upd s.pc t .user }, [.ready t x])
  | .pick r =>
    if s.stealing then         -- `work_stealing.cpp:59`
      match s.loc t with
      | [] => some ({ s with pc := upd s.pc t (.steal r 0) }, [])
      | y :: l => some ({ s with loc := upd s.loc t l, pc := upd s.pc t (.got r y) }, [.take t t y])
    else                       -- `shared_work.cpp:44-50`
      match s.shared with
      | [] => some ({ s with pc := upd s.pc t (.lpick r) }, [])
      | y :: l => some ({ s with shared := l, pc := upd s.pc t (.got r y) }, [.take t t y])
  | .lpick r =>                -- `shared_work.cpp:58-65`
    match s.loc t with
    | [] => some (nothing s t r)
    | y :: l => some ({ s with loc := upd s.loc t l, pc := upd s.pc t (.got r y) }, [.take t t y])
  | .got r y =>                -- `shared_work.cpp:52`, `work_stealing.cpp:62-64`, `:85`; `context::resume`
    match s.run t with
    | none => none
    | some x =>
      some ({ s with wq := if pinned y then s.wq else upd s.wq t (s.wq t ++ [y]), run := upd s.run t (some y), pc := upd s.pc t (.put r x) },
        [.run t y])
  | .put r x =>
    match r with
    | .yield | .disp => some ({ s with pc := upd s.pc t (.aw x) }, [])
    | .block => some ({ s with pc := upd s.pc t .user, st := set s.st x .blocked }, [.blocked t x])
    | .finish => some ({ s with pc := upd s.pc t .user, st := set s.st x .done, wq := upd s.wq t ((s.wq t).erase x) }, [.done t x])
    | .exit => some ({ s with pc := upd s.pc t .user, st := set s.st x .exiting }, [.closing t])
  | _ => none

/-- Which fibers may call `pick_next` for which reason. -/
def mayCall (t : Tid) (x : Cx) : Why → Bool
  | .yield | .block => x != .disp t
  | .finish => !pinned x
  | .exit => x == .main t
  | .disp => false

/-- One step. -/
def step (s : State) : Event → Option (State × List Obs)
  | .thread t =>               -- the dispatcher is handed to the algorithm (`scheduler::set_algo`, `attach_dispatcher_context`)
    if s.st (.main t) = .unborn ∧ t < s.size then
      some ({ s with run := upd s.run t (some (.main t)), st := set (set s.st (.main t) .live) (.disp t) .live, pc := upd s.pc t (.aw (.disp t)) },
        [.started t])
    else none
  | .spawn t n dispatch =>     -- `fiber::start_`: `attach`, then `schedule` or `resume( ctx, active)`
    match s.run t, s.pc t with
    | some x, .user =>
      if s.st (.work n) = .unborn ∧ x ≠ .disp t then
        let s1 := { s with st := set s.st (.work n) .live, wq := upd s.wq t (s.wq t ++ [Cx.work n]) }
        if dispatch then
          some ({ s1 with run := upd s.run t (some (.work n)), pc := upd s.pc t (.put .yield x) }, [.spawned t (.work n), .direct t (.work n)])
        else some ({ s1 with pc := upd s.pc t (.aw (.work n)) }, [.spawned t (.work n)])
      else none
    | _, _ => none
  | .wake t x =>               -- `scheduler::schedule`, from a fiber of this thread or from the dispatcher
    match s.run t, s.pc t with
    | some _, .user =>
      if s.st x = .blocked ∧ (x ∈ s.wq t ∨ x = .main t) then
        some ({ s with st := set s.st x .live, pc := upd s.pc t (.aw x) }, [.woken t x])
      else none
    | _, _ => none
  | .call t r =>
    match s.run t, s.pc t with
    | some x, .user => if mayCall t x r then some ({ s with pc := upd s.pc t (.pick r) }, []) else none
    | _, _ => none
  | .disp t =>                 -- `scheduler::dispatch` (`src/scheduler.cpp:123-174`)
    if s.run t = some (.disp t) ∧ (s.pc t = .user ∨ s.pc t = .idle) then
      if s.st (.main t) = .exiting ∧ s.wq t = [] then
        some ({ s with run := upd s.run t none, pc := upd s.pc t .user, st := set (set s.st (.main t) .done) (.disp t) .done }, [.ended t])
      else some ({ s with pc := upd s.pc t (.pick .disp) }, [])
    else none
  | .go t => go s t
  | .draw t id =>              -- `work_stealing.cpp:73-87`; `steal`: `context_spinlock_queue.hpp:98-109`
    match s.pc t with
    | .steal r c =>
      if id < s.size then
        if id = t then some ({ s with pc := upd s.pc t (.steal r (c + 1)) }, [])
        else
          match s.loc id with
          | y :: l =>
            if pinned y then
              if c + 1 < s.size then some ({ s with pc := upd s.pc t (.steal r (c + 1)) }, []) else some (nothing s t r)
            else some ({ s with loc := upd s.loc id l, pc := upd s.pc t (.got r y) }, [.take t id y])
          | [] => if c + 1 < s.size then some ({ s with pc := upd s.pc t (.steal r (c + 1)) }, []) else some (nothing s t r)
      else none
    | _ => none

end Verif.Multi
