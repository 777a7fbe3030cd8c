import Verif.Base

/-!
# The scheduler: threads, ready queues, switching, sleeping, remote wake-ups, shutdown

`src/scheduler.cpp`, the switching part of `src/context.cpp`, `src/algo/round_robin.cpp`, `fiber::start_`
(`src/fiber.cpp:23-41`), for any number of threads, each with its main fiber, its dispatcher fiber and any number of
worker fibers.

The code of one thread is sequential; a step is one action that other threads can observe (compare-exchange of a waker
epoch, push to or swap of the remote queue, `notify` of the algorithm, blocking on its condition variable), or one
switch between fibers, or one purely thread-local function. Simplifications:

* A fiber that blocks in a wait queue holds the spinlock of that queue until the thread has switched away from it
  (`resume(lk)`, `src/context.cpp:190-202`). The wait queues themselves are not modelled here (see `Verif/Waker.lean`
  and the synchronisation objects); what matters is that a *published* waker can only be used by somebody who holds
  that spinlock, hence not while its owner is still `parking`.
* Wakers of former suspensions may be used at any time (the compare-exchange then fails).
* Deadlines are finite (a deadline `time_point::max()` is never reached).
* Reading `algo_` and calling it is one action.
-/

namespace Verif.Sch

abbrev Tid := Nat

/-- Contexts: the main fiber and the dispatcher of each thread, and worker fibers. -/
inductive Cx
  | main (t : Tid) | disp (t : Tid) | work (n : Nat)
  deriving DecidableEq, Repr

def set {α : Type} (f : Cx → α) (x : Cx) (v : α) : Cx → α := fun y => if y = x then v else f y

theorem set_apply {α : Type} (f : Cx → α) (x y : Cx) (v : α) : set f x v y = if y = x then v else f y := rfl
@[simp] theorem set_same {α : Type} (f : Cx → α) (x : Cx) (v : α) : set f x v x = v := by simp [set]
@[simp] theorem set_other {α : Type} (f : Cx → α) {x y : Cx} (v : α) (h : y ≠ x) : set f x v y = f y := by simp [set, h]

/-- Where a context is. -/
inductive Pc
  | unborn
  | user                        -- in the code of the program (running, or about to be resumed into it)
  | yielding                    -- in `scheduler::yield`, before the switch
  | parking (ep : Nat)          -- in `suspend`/`wait_until`: waker made, spinlock held, before the switch
  | blocked (ep : Nat)          -- switched away, waiting for its waker
  | leaving                     -- in `scheduler::terminate`, before the switch
  | push (y : Cx)               -- has won the compare-exchange for `y` of another thread, in `schedule_from_remote`
  | notify (t : Tid)            -- about to call `algo_->notify()` of thread `t`
  | signal (t : Tid)            -- inside `notify`: flag set, about to `cnd_.notify_all()`
  | closing                     -- main fiber in `~scheduler`, before the switch
  | closed                      -- main fiber in `~scheduler`, switched away
  | ending                      -- main fiber back in `~scheduler`
  | top                         -- dispatcher: start of its loop
  | collect                     -- dispatcher: before `remote_ready2ready_`
  | clock                       -- dispatcher: `sleep2ready_` before reading the clock
  | timers (n : Nat)            -- dispatcher: in the loop of `sleep2ready_`, the clock read `n`
  | pick                        -- dispatcher: before `pick_next`
  | idle (dl : Option Nat)      -- dispatcher: in `suspend_until`, before locking `mtx_`
  | cnd (dl : Option Nat)       -- dispatcher: blocked in `cnd_`
  | last                        -- dispatcher: left the loop
  | dead
  deriving DecidableEq, Repr

structure State where
  active : Tid → Option Cx       -- `context_initializer::active_`; `none`: no such thread (yet, or any more)
  gone   : Tid → Bool            -- the scheduler of the thread has been destroyed
  pc     : Cx → Pc
  saved  : Cx → Bool             -- `c_` holds the suspended execution (`is_resumable`)
  hm     : Nat → Tid             -- `scheduler_` of a worker
  rq     : Tid → List Cx         -- ready queue of the algorithm
  rr     : Tid → List Cx         -- `remote_ready_queue_`
  sl     : Tid → List Cx         -- `sleep_queue_`
  tp     : Cx → Nat              -- `tp_`
  sep    : Cx → Nat              -- `sleep_waker_`
  wq     : Tid → List Cx         -- `worker_queue_`
  tq     : Tid → List Cx         -- `terminated_queue_`
  sd     : Tid → Bool            -- `shutdown_`
  flag   : Tid → Bool            -- `flag_` of the algorithm
  sig    : Tid → Bool            -- the wait on `cnd_` has been signalled
  epoch  : Cx → Nat              -- `waker_epoch_`
  pub    : Cx → List Nat         -- wakers of the context that others can use
  now    : Nat

/-- `scheduler_`: main and dispatcher belong to their thread, workers to the one they were attached to. -/
def homeOf (hm : Nat → Tid) : Cx → Tid
  | .main t => t
  | .disp t => t
  | .work n => hm n

abbrev State.home (s : State) (x : Cx) : Tid := homeOf s.hm x

inductive Act
  | yield                          -- `this_fiber::yield()`                       `src/scheduler.cpp:243-255`
  | spawn (n : Nat) (dispatch : Bool)   -- a new fiber                            `src/fiber.cpp:23-41`
  | wait (dl : Option Nat)         -- suspend in a wait queue                     `src/scheduler.cpp:280-302,311-314`
  | sleep (d : Nat)                -- `this_fiber::sleep_until`                   `src/scheduler.cpp:258-277`
  | wake (y : Cx) (ep : Nat)       -- use a waker                                 `src/context.cpp:299-316`
  | finish                         -- the function of the fiber returns           `src/scheduler.cpp:218-240`
  | setAlgo                        -- `use_scheduling_algorithm<round_robin>`     `src/scheduler.cpp:322-328`
  | exit                           -- the thread's main function returns          `src/scheduler.cpp:100-106`
  deriving DecidableEq, Repr

inductive Event
  | thread (t : Tid)
  | act (t : Tid) (a : Act)
  | run (t : Tid)
  | spurious (t : Tid)             -- spurious wake-up of the condition variable
  | tick (n : Nat)

inductive Obs
  | started (t : Tid)
  | spawned (t : Tid) (x y : Cx)   -- `x`, running on thread `t`, has created `y`
  | ready (t : Tid) (x : Cx)       -- `x` has become ready on thread `t`
  | run (t : Tid) (x : Cx)         -- thread `t` resumes `x`, the next ready fiber
  | direct (t : Tid) (x : Cx)      -- thread `t` switches to the new fiber `x` at once (launch::dispatch)
  | waits (x : Cx) (dl : Option Nat)    -- `x` suspends itself
  | woken (x : Cx)                 -- somebody woke `x`
  | expired (x : Cx) (n : Nat)     -- the deadline of `x` passed; the clock read `n`
  | looked (t : Tid) (n : Nat)     -- the dispatcher of `t` has looked for expired deadlines; the clock read `n`
  | finished (x : Cx)
  | released (x : Cx)              -- the dispatcher drops the scheduler's reference
  | exit (t : Tid)                 -- the main function of the thread has returned
  | stopped (t : Tid)              -- the dispatcher has left its loop and returned to the main fiber
  | ended (t : Tid)                -- the scheduler of the thread has been destroyed
  | assert (t : Tid)               -- `BOOST_ASSERT( ! shutdown_)` of `schedule_from_remote` fails
  | uaf (t : Tid)                  -- the destroyed scheduler of thread `t` is used
  | ub                             -- a context that is not suspended is resumed or released, or there is none to resume
  deriving DecidableEq, Repr

def init : State :=
  { active := fun _ => none, gone := fun _ => false, pc := fun _ => .unborn, saved := fun _ => false, hm := fun _ => 0,
    rq := fun _ => [], rr := fun _ => [], sl := fun _ => [], tp := fun _ => 0, sep := fun _ => 0, wq := fun _ => [],
    tq := fun _ => [], sd := fun _ => false, flag := fun _ => false, sig := fun _ => false, epoch := fun _ => 0,
    pub := fun _ => [], now := 0 }

/-- Insertion into the multiset ordered by `tp_`: behind the elements with the same key. -/
def insertBy (tp : Cx → Nat) (x : Cx) : List Cx → List Cx
  | [] => [x]
  | y :: l => if tp y ≤ tp x then y :: insertBy tp x l else x :: y :: l

/-- `scheduler::schedule` (`src/scheduler.cpp:177-192`), `round_robin::awakened`. -/
def schedule (s : State) (t : Tid) (y : Cx) : State × List Obs :=
  ({ s with sl := upd s.sl t ((s.sl t).erase y), rq := upd s.rq t (s.rq t ++ [y]) }, [.ready t y])

/-- The swap of `active_` and the stack switch of `context::resume` (`src/context.cpp:177-216`): `x` is saved, `y` goes on. -/
def switch (s : State) (t : Tid) (x y : Cx) : State × List Obs :=
  ({ s with active := upd s.active t (some y), saved := set (set s.saved x true) y false },
    if s.saved y then [] else [.ub])

/-- Moving all ready fibers to the new algorithm: `while (has_ready_fibers()) algo->awakened(algo_->pick_next())`. -/
def transfer : List Cx → List Cx → List Cx
  | [], new => new
  | x :: old, new => transfer old (new ++ [x])

/-- The calls of the running fiber `x` of thread `t`. -/
def act (s : State) (t : Tid) (x : Cx) (a : Act) : Option (State × List Obs) :=
  match a with
  | .yield => some ({ s with pc := set s.pc x .yielding }, [])
  | .spawn n dispatch =>
    if s.pc (.work n) = .unborn then
      let y := Cx.work n
      -- `make_worker_context…`, `attach_worker_context` (`src/scheduler.cpp:360-373`)
      let s1 := { s with pc := set s.pc y .user, hm := upd s.hm n t, wq := upd s.wq t (s.wq t ++ [y]), saved := set s.saved y true }
      if dispatch then
        -- `impl_->resume(ctx)`: the launcher is scheduled on the stack of the new fiber
        let (s2, o) := switch s1 t x y
        let (s3, o') := schedule s2 t x
        some (s3, .spawned t x y :: .direct t y :: (o ++ o'))
      else
        let (s2, o) := schedule s1 t y
        some (s2, .spawned t x y :: o)
    else none
  | .wait dl =>
    let ep := s.epoch x + 1
    let s1 := { s with epoch := set s.epoch x ep, pub := set s.pub x (ep :: s.pub x), pc := set s.pc x (.parking ep) }
    match dl with
    | none => some (s1, [.waits x none])
    | some d =>
      let tp := set s.tp x d
      some ({ s1 with tp := tp, sep := set s.sep x ep, sl := upd s.sl t (insertBy tp x (s.sl t)) }, [.waits x (some d)])
  | .sleep d =>
    let ep := s.epoch x + 1
    let tp := set s.tp x d
    some ({ s with epoch := set s.epoch x ep, pc := set s.pc x (.parking ep), tp := tp, sep := set s.sep x ep,
                   sl := upd s.sl t (insertBy tp x (s.sl t)) }, [.waits x (some d)])
  | .wake y ep =>
    if ep ∈ s.pub y ∧ s.pc y ≠ .parking ep then
      if s.epoch y = ep then
        let s1 := { s with epoch := set s.epoch y (ep + 1), pc := set s.pc y .user }
        if s.home y = t then
          let (s2, o) := schedule s1 t y
          some (s2, .woken y :: o)
        else some ({ s1 with pc := set s1.pc x (.push y) }, [.woken y])
      else some (s, [])
    else none
  | .finish =>
    match x with
    | .work _ =>
      some ({ s with pc := set s.pc x .leaving, tq := upd s.tq t (s.tq t ++ [x]), wq := upd s.wq t ((s.wq t).erase x) }, [.finished x])
    | _ => none
  | .setAlgo => some ({ s with rq := upd s.rq t (transfer (s.rq t) []), flag := upd s.flag t false }, [])
  | .exit => if x = .main t then some ({ s with sd := upd s.sd t true, pc := set s.pc x .closing }, [.exit t]) else none

/-- `release_terminated_` (`src/scheduler.cpp:25-46`). -/
def release (s : State) (t : Tid) : State × List Obs :=
  ({ s with tq := upd s.tq t [] }, (s.tq t).flatMap fun x => if s.saved x then [.released x] else [.released x, .ub])

/-- `remote_ready2ready_` after the swap (`src/scheduler.cpp:54-61`). -/
def scheduleAll (s : State) (t : Tid) : List Cx → State × List Obs
  | [] => (s, [])
  | y :: l =>
    let (s1, o) := schedule s t y
    let (s2, o') := scheduleAll s1 t l
    (s2, o ++ o')

/-- `pick_next()->resume(…)` (`round_robin.cpp:28-40`): the thread leaves `x` for the next ready fiber, then `k` happens. -/
def leave (s : State) (t : Tid) (x : Cx) (k : State → State × List Obs) : Option (State × List Obs) :=
  match s.rq t with
  | [] => some (s, [.ub])
  | y :: l =>
    let (s1, o) := switch { s with rq := upd s.rq t l } t x y
    let (s2, o') := k s1
    some (s2, .run t y :: (o ++ o'))

/-- What the context running on thread `t` does next. -/
def run (s : State) (t : Tid) (x : Cx) : Option (State × List Obs) :=
  match s.pc x with
  | .yielding => leave s t x fun s1 => schedule { s1 with pc := set s1.pc x .user } t x
  | .parking ep => leave s t x fun s1 => ({ s1 with pc := set s1.pc x (.blocked ep) }, [])
  | .leaving => leave s t x fun s1 => ({ s1 with pc := set s1.pc x .dead }, [])
  | .closing => leave s t x fun s1 => ({ s1 with pc := set s1.pc x .closed }, [])
  | .push y =>                   -- `schedule_from_remote` (`src/scheduler.cpp:196-214`)
    let t' := s.home y
    let s1 := { s with pc := set s.pc x (.notify t') }
    if s.gone t' then some (s1, [.uaf t'])
    else some ({ s1 with rr := upd s.rr t' (s.rr t' ++ [y]) }, if s.sd t' then [.assert t'] else [])
  | .notify t' =>                -- `round_robin::notify` (`round_robin.cpp:60-66`)
    if s.gone t' then some ({ s with pc := set s.pc x .user }, [.uaf t'])
    else some ({ s with flag := upd s.flag t' true, pc := set s.pc x (.signal t') }, [])
  | .signal t' =>
    if s.gone t' then some ({ s with pc := set s.pc x .user }, [.uaf t'])
    else some ({ s with sig := upd s.sig t' true, pc := set s.pc x .user }, [])
  | .top =>                      -- `scheduler::dispatch` (`src/scheduler.cpp:123-174`)
    if s.sd t then
      let s1 := { s with flag := upd s.flag t true }
      if s.wq t = [] then some ({ s1 with pc := set s.pc x .last }, [])
      else
        let (s2, o) := release s1 t
        some ({ s2 with pc := set s2.pc x .collect }, o)
    else
      let (s2, o) := release s t
      some ({ s2 with pc := set s2.pc x .collect }, o)
  | .collect =>
    let (s1, o) := scheduleAll { s with rr := upd s.rr t [] } t (s.rr t)
    some ({ s1 with pc := set s1.pc x .clock }, o)
  | .clock => some ({ s with pc := set s.pc x (.timers s.now) }, [])
  | .timers n =>                 -- `sleep2ready_` (`src/scheduler.cpp:66-94`)
    match s.sl t with
    | [] => some ({ s with pc := set s.pc x .pick }, [.looked t n])
    | y :: l =>
      if s.tp y ≤ n then
        let s1 := { s with sl := upd s.sl t l }
        if s.epoch y = s.sep y then
          let (s2, o) := schedule { s1 with epoch := set s.epoch y (s.epoch y + 1), pc := set s.pc y .user } t y
          some (s2, .expired y n :: o)
        else some (s1, [])
      else some ({ s with pc := set s.pc x .pick }, [.looked t n])
  | .pick =>
    if s.rq t = [] then
      some ({ s with pc := set s.pc x (.idle ((s.sl t).head?.map s.tp)) }, [])
    else leave s t x fun s1 => schedule { s1 with pc := set s1.pc x .top } t x
  | .idle dl =>                  -- `round_robin::suspend_until` (`round_robin.cpp:47-58`)
    if s.flag t then some ({ s with flag := upd s.flag t false, pc := set s.pc x .top }, [])
    else some ({ s with sig := upd s.sig t false, pc := set s.pc x (.cnd dl) }, [])
  | .cnd dl =>
    let late := dl.any (· ≤ s.now)
    if s.sig t ∨ late then
      if s.flag t ∨ late then some ({ s with flag := upd s.flag t false, pc := set s.pc x .top }, [])
      else some ({ s with sig := upd s.sig t false }, [])
    else none
  | .last =>
    let (s1, o) := release s t
    let (s2, o') := switch { s1 with pc := set (set s1.pc x .dead) (.main t) .ending } t x (.main t)
    some (s2, o ++ .stopped t :: o')
  | .ending =>
    some ({ s with active := upd s.active t none, gone := upd s.gone t true, pc := set s.pc x .dead }, [.ended t])
  | _ => none

def step (s : State) (e : Event) : Option (State × List Obs) :=
  match e with
  | .thread t =>                 -- `context_initializer::initialize` (`src/context.cpp:94-107`)
    if s.pc (.main t) = .unborn then
      some ({ s with pc := set (set s.pc (.main t) .user) (.disp t) .top, active := upd s.active t (some (.main t)),
                     saved := set (set s.saved (.main t) false) (.disp t) true, rq := upd s.rq t [.disp t] }, [.started t, .ready t (.disp t)])
    else none
  | .act t a =>
    match s.active t with
    | some x => if s.pc x = .user then act s t x a else none
    | none => none
  | .run t =>
    match s.active t with
    | some x => run s t x
    | none => none
  | .spurious t =>
    match s.pc (.disp t) with
    | .cnd _ => some ({ s with sig := upd s.sig t true }, [])
    | _ => none
  | .tick n => some ({ s with now := s.now + n }, [])

end Verif.Sch
