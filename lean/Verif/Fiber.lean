import Verif.WaitInv

/-!
# Fiber handles, join, termination and the lifetime of control blocks

`include/boost/fiber/fiber.hpp`, `src/fiber.cpp`, `context::join` and `context::terminate`
(`src/context.cpp:229-243,265-280`), `scheduler::terminate` and `release_terminated_`
(`src/scheduler.cpp:25-46,218-240`), `intrusive_ptr_add_ref/release` (`context.hpp:374-389`).

Fibers are named by numbers, *handles* are the `fiber` objects of the program, also named by numbers.
Simplifications:

* What a fiber does besides calls on handles is not modelled: between two calls it may block elsewhere
  (`elsewhere`), and it may return from its function at any time (`finish`).
* `splk_` of a context protects straight-line code (`context.cpp:233-242` up to the switch, `:267-279`), which
  is one atomic step. The test of the handle in `fiber::join` is part of that step: a `fiber` object is not
  shared between threads, and on one thread nobody runs between the test and the suspension. Several fibers may
  be blocked in `join` of one handle.
* A terminating fiber runs on its own stack until it has switched away; the dispatcher that releases it
  (`release_terminated_`) runs on the same thread, so `reap` comes after that switch (C41 is about this).
* Clean-up of fiber specific storage in `terminate` is the subject of C53 and C54.
* `std::terminate` ends the program: nothing happens after it.
-/

namespace Verif.Fib

abbrev Hid := Nat

/-- The operations on `fiber` objects. `h` is the object operated on, `h'` the other object involved. -/
inductive Op
  | spawn (h : Hid) (g : Fid)     -- fiber h{ fn }; the new fiber is `g`        `fiber.hpp:161-172`, `src/fiber.cpp:23-41`
  | mkEmpty (h : Hid)             -- fiber h;                                   `fiber.hpp:53`
  | move (h h' : Hid)             -- fiber h'{ std::move(h) };                  `fiber.hpp:183-186`
  | moveAssign (h h' : Hid)       -- h' = std::move(h);                         `fiber.hpp:188-197`
  | swap (h h' : Hid)             -- h.swap(h');                                `fiber.hpp:199-201`
  | destroy (h : Hid)             -- ~fiber                                     `fiber.hpp:174-178`
  | join (h : Hid)                -- h.join();                                  `src/fiber.cpp:43-56`
  | detach (h : Hid)              -- h.detach();                                `src/fiber.cpp:58-65`
  | joinable (h : Hid)            -- h.joinable();                              `fiber.hpp:207-209`
  deriving DecidableEq, Repr

inductive Res
  | ok | bool (b : Bool)
  | deadlock                      -- fiber_error(resource_deadlock_would_occur)
  | invalid                       -- fiber_error(invalid_argument)
  deriving DecidableEq, Repr

inductive Pc
  | unborn
  | idle
  | waiting (h : Hid) (g : Fid) (ep : Nat)   -- suspended in `join`
  | joined (h : Hid) (g : Fid)               -- `impl_->join()` returned, about to `impl_.reset()`
  | ending                                   -- the function returned, about to lock `splk_` in `terminate`
  | leaving                                  -- terminated, still on its own stack
  | gone                                     -- switched away for good
  | reaped                                   -- released by the dispatcher
  deriving DecidableEq, Repr

structure State where
  pc      : Fid → Pc
  main    : Fid → Bool             -- a thread's main fiber (no handle, never terminated)
  term    : Fid → Bool             -- `terminated_`
  refs    : Fid → Nat              -- `use_count_`
  live    : Fid → Bool             -- the control block (and stack) exists
  q       : Fid → List Waker       -- `wait_queue_`
  hd      : Hid → Option (Option Fid)   -- the handles that exist and `impl_`
  users   : Hid → List Fid         -- fibers inside `join` of the handle
  c       : Ctxs
  aborted : Bool                   -- std::terminate was called

inductive Event
  | thread (f : Fid)               -- a new thread with main fiber `f`
  | call (f : Fid) (op : Op)
  | finish (f : Fid)               -- the function of `f` returns
  | run (f : Fid)
  | reap (f : Fid)                 -- the dispatcher releases a terminated fiber
  | elsewhere (f : Fid) (n : Nat)

inductive Obs
  | called (f : Fid) (op : Op) (x : Option Fid)             -- the call and the fiber its handle refers to
  | ret (f : Fid) (op : Op) (x : Option Fid) (r : Res)
  | returned (f : Fid)                                      -- the function of `f` has returned
  | terminated (f : Fid) (ws : List Fid)                    -- `f` is over; the joiners made runnable
  | left (f : Fid)                                          -- `f` has left its stack for good
  | freed (f : Fid)                                         -- control block and stack of `f` are gone
  | abort (f : Fid) (op : Op)                               -- std::terminate
  | ub (f : Fid)                                            -- the control block or stack of `f` was used after it was freed
  deriving DecidableEq, Repr

def init : State :=
  { pc := fun _ => .unborn, main := fun _ => false, term := fun _ => false, refs := fun _ => 0, live := fun _ => false,
    q := fun _ => [], hd := fun _ => none, users := fun _ => [], c := Ctxs.init, aborted := false }

/-- Is the fiber off its stack? -/
def Pc.off : Pc → Bool
  | .gone | .reaped => true
  | _ => false

/-- `intrusive_ptr_release` (`context.hpp:379-389`). Freeing a stack somebody still runs on is undefined
behaviour. -/
def release (s : State) (g : Fid) : State × List Obs :=
  if s.live g then
    if s.refs g = 1 then
      ({ s with refs := upd s.refs g 0, live := upd s.live g false }, .freed g :: if (s.pc g).off then [] else [.ub g])
    else ({ s with refs := upd s.refs g (s.refs g - 1) }, [])
  else (s, [.ub g])

/-- A call that is over at once. -/
def ret (s : State) (f : Fid) (op : Op) (x : Option Fid) (r : Res) (o : List Obs := []) : Option (State × List Obs) :=
  some (s, .called f op x :: .ret f op x r :: o)

/-- std::terminate. -/
def abort (s : State) (f : Fid) (op : Op) (x : Option Fid) : Option (State × List Obs) :=
  some ({ s with aborted := true }, [.called f op x, .abort f op])

/-- The calls; `none`: the program has no such call (no such object, name in use, or the object is modified while
another fiber is inside `join` of it). -/
def call (s : State) (f : Fid) (op : Op) : Option (State × List Obs) :=
  match op with
  | .spawn h g =>        -- `make_worker_context…` (`context.hpp:487-511`: one reference for the scheduler, `:464`, one for the handle), `start_`
    if s.hd h = none ∧ s.pc g = .unborn then
      ret { s with hd := upd s.hd h (some (some g)), pc := upd s.pc g .idle, refs := upd s.refs g 2, live := upd s.live g true }
        f op (some g) .ok
    else none
  | .mkEmpty h => if s.hd h = none then ret { s with hd := upd s.hd h (some none) } f op none .ok else none
  | .move h h' =>
    match s.hd h with
    | none => none
    | some x =>
      if s.hd h' = none ∧ s.users h = [] then ret { s with hd := upd (upd s.hd h' (some x)) h (some none) } f op x .ok else none
  | .moveAssign h h' =>
    match s.hd h, s.hd h' with
    | some x, some y =>
      if s.users h = [] ∧ s.users h' = [] then
        if y.isSome then abort s f op y
        else if h = h' then ret s f op y .ok
        else ret { s with hd := upd (upd s.hd h' (some x)) h (some y) } f op y .ok
      else none
    | _, _ => none
  | .swap h h' =>
    match s.hd h, s.hd h' with
    | some x, some y =>
      if s.users h = [] ∧ s.users h' = [] then ret { s with hd := upd (upd s.hd h' (some x)) h (some y) } f op x .ok else none
    | _, _ => none
  | .destroy h =>
    match s.hd h with
    | none => none
    | some x =>
      if s.users h = [] then
        if x.isSome then abort s f op x else ret { s with hd := upd s.hd h none } f op x .ok
      else none
  | .join h =>
    match s.hd h with
    | none => none
    | some none => ret s f op none .invalid
    | some (some g) =>
      if g = f then ret s f op (some g) .deadlock
      else if s.live g then
        let s1 := { s with users := upd s.users h (f :: s.users h) }
        if s.term g then some ({ s1 with pc := upd s.pc f (.joined h g) }, [.called f op (some g)])
        else
          let (c, l) := enqueue s.c (s.q g) f
          some ({ s1 with c := c, q := upd s.q g l, pc := upd s.pc f (.waiting h g (s.c.epoch f + 1)) }, [.called f op (some g)])
      else some (s, [.called f op (some g), .ub g])
  | .detach h =>
    match s.hd h with
    | none => none
    | some none => ret s f op none .invalid
    | some (some g) =>
      if s.users h = [] then
        let s1 := { s with hd := upd s.hd h (some none) }
        ret (release s1 g).1 f op (some g) .ok (release s1 g).2
      else none
  | .joinable h =>
    match s.hd h with
    | none => none
    | some x => ret s f op x (.bool x.isSome)

def run (s : State) (f : Fid) : Option (State × List Obs) :=
  match s.pc f with
  | .waiting h g _ =>
    if s.c.ready f then some ({ s with c := consumeReady s.c f, pc := upd s.pc f (.joined h g) }, []) else none
  | .joined h g =>         -- `impl_.reset()` (`src/fiber.cpp:54`)
    let s1 := { s with pc := upd s.pc f .idle, users := upd s.users h ((s.users h).erase f) }
    match s.hd h with
    | some (some g') =>
      let s2 := { s1 with hd := upd s.hd h (some none) }
      some ((release s2 g').1, .ret f (.join h) (some g) .ok :: (release s2 g').2)
    | _ => some (s1, [.ret f (.join h) (some g) .ok])
  | .ending =>             -- `context::terminate` (`src/context.cpp:265-280`), `scheduler::terminate` (`src/scheduler.cpp:218-237`)
    if s.live f then
      let (c, ws) := notifyAll s.c (s.q f)
      some ({ s with term := upd s.term f true, c := c, q := upd s.q f [], pc := upd s.pc f .leaving }, [.terminated f ws])
    else some ({ s with pc := upd s.pc f .leaving }, [.ub f])
  | .leaving =>            -- `pick_next()->suspend_with_cc()` (`src/scheduler.cpp:239`)
    if s.live f then some ({ s with pc := upd s.pc f .gone }, [.left f]) else some ({ s with pc := upd s.pc f .gone }, [.ub f])
  | _ => none

def step (s : State) (e : Event) : Option (State × List Obs) :=
  if s.aborted then none
  else match e with
  | .thread f =>         -- `context_initializer::initialize` (`src/context.cpp:96-107`)
    if s.pc f = .unborn then
      some ({ s with pc := upd s.pc f .idle, main := upd s.main f true, refs := upd s.refs f 1, live := upd s.live f true }, [])
    else none
  | .call f op => if s.pc f = .idle then call s f op else none
  | .finish f =>         -- `worker_context::run_` (`context.hpp:437-456`)
    if s.pc f = .idle ∧ s.main f = false then some ({ s with pc := upd s.pc f .ending }, [.returned f]) else none
  | .run f => run s f
  | .reap f =>           -- `release_terminated_` (`src/scheduler.cpp:25-46`)
    if s.pc f = .gone then
      let s1 := { s with pc := upd s.pc f .reaped }
      some (release s1 f)
    else none
  | .elsewhere f n =>
    if s.pc f = .idle then some ({ s with c := { s.c with epoch := upd s.c.epoch f (s.c.epoch f + n) } }, []) else none

end Verif.Fib
