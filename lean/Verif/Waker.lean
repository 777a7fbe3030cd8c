import Verif.Base

/-!
# Wakers and wait queues

`include/boost/fiber/waker.hpp`, `src/waker.cpp`, `context::create_waker`
(`include/boost/fiber/context.hpp:288-291`), `context::wake` (`src/context.cpp:299-316`).
-/

namespace Verif

/-- `class waker` (`include/boost/fiber/waker.hpp:23-39`): a context and the epoch it was created in. -/
structure Waker where
  ctx : Fid
  ep  : Nat
  deriving DecidableEq, Repr

/-- The part of all `context` objects that waking touches: `waker_epoch_`
(`include/boost/fiber/context.hpp`, `std::atomic<size_t>`; modelled as an unbounded number) and whether
the context has been handed to its scheduler (`schedule`/`schedule_from_remote`) since it was last
resumed. -/
structure Ctxs where
  epoch : Fid → Nat
  ready : Fid → Bool

/-- All contexts fresh: epoch 0, not scheduled. -/
def Ctxs.init : Ctxs := { epoch := fun _ => 0, ready := fun _ => false }

/-- `context::create_waker` (`include/boost/fiber/context.hpp:288-291`): `return { this, ++waker_epoch_ }`. -/
def createWaker (c : Ctxs) (f : Fid) : Waker × Ctxs :=
  ({ ctx := f, ep := c.epoch f + 1 }, { c with epoch := upd c.epoch f (c.epoch f + 1) })

/-- `waker::wake` / `context::wake` (`src/waker.cpp:9-14`, `src/context.cpp:299-316`): compare-exchange of
the epoch; only the winner hands the context to its scheduler. Simplification: local and remote scheduling
are the same here (the difference is modelled in `Scheduler`). -/
def wake (c : Ctxs) (w : Waker) : Ctxs × Bool :=
  if c.epoch w.ctx = w.ep then
    ({ epoch := upd c.epoch w.ctx (w.ep + 1), ready := upd c.ready w.ctx true }, true)
  else (c, false)

/-- `wait_queue::notify_one` (`src/waker.cpp:50-58`): pop from the front until a `wake()` succeeds. The
third component (the fiber woken, if any) is not returned by the code; it is used to label traces. -/
def notifyOne (c : Ctxs) : List Waker → Ctxs × List Waker × Option Fid
  | [] => (c, [], none)
  | w :: ws =>
    let (c', ok) := wake c w
    if ok then (c', ws, some w.ctx) else notifyOne c' ws

/-- `wait_queue::notify_all` (`src/waker.cpp:61-67`): pop everything, waking each. The list of fibers
actually woken labels traces. -/
def notifyAll (c : Ctxs) : List Waker → Ctxs × List Fid
  | [] => (c, [])
  | w :: ws =>
    let (c', ok) := wake c w
    let (c'', woken) := notifyAll c' ws
    (c'', if ok then w.ctx :: woken else woken)

/-- The first half of `wait_queue::suspend_and_wait` (`src/waker.cpp:17-21`): create a waker and append it.
The context switch itself is the step boundary of the machine that uses it. -/
def enqueue (c : Ctxs) (q : List Waker) (f : Fid) : Ctxs × List Waker :=
  let (w, c') := createWaker c f
  (c', q ++ [w])

/-- Resuming a scheduled context consumes its place in the ready queue (`src/context.cpp:177-216`). -/
def consumeReady (c : Ctxs) (f : Fid) : Ctxs := { c with ready := upd c.ready f false }

/-! ## A machine in which any party may use any waker at any time -/

namespace WakeSys

/-- What a fiber is doing: running, running with a waker already published (`create_waker` done,
`suspend` not yet), or switched out. -/
inductive Mode
  | running | armed | suspended
  deriving DecidableEq, Repr

structure State where
  c      : Ctxs
  mode   : Fid → Mode
  issued : List Waker      -- every waker ever created; any party may hold a copy of any of them

inductive Event
  | create (f : Fid)       -- the running fiber calls create_waker
  | suspend (f : Fid)      -- the fiber switches away
  | attempt (w : Waker)    -- some party (notifier, timer, other thread) calls w.wake()
  | resume (f : Fid)       -- the scheduler runs the fiber

inductive Obs
  | issued (w : Waker)
  | attempt (w : Waker) (ok : Bool)
  | suspended (f : Fid)
  | resumed (f : Fid)
  deriving DecidableEq, Repr

def init : State := { c := Ctxs.init, mode := fun _ => .running, issued := [] }

/-- `create`: `context.hpp:288-291` (a fiber that was already scheduled through its published waker goes on
to suspend, it does not create another waker: `src/waker.cpp:18-21,29-32`,
`unbuffered_channel.hpp:135-140`). `suspend`: `src/context.cpp:219-226`. `attempt`: `src/context.cpp:299-316`.
`resume`: `src/context.cpp:177-216`. -/
def step (s : State) : Event → Option (State × List Obs)
  | .create f =>
    if s.mode f ≠ .suspended ∧ s.c.ready f = false then
      let (w, c) := createWaker s.c f
      some ({ c := c, mode := upd s.mode f .armed, issued := s.issued ++ [w] }, [.issued w])
    else none
  | .suspend f =>
    if s.mode f = .armed then
      some ({ s with mode := upd s.mode f .suspended }, [.suspended f])
    else none
  | .attempt w =>
    if w ∈ s.issued then
      let (c, ok) := wake s.c w
      some ({ s with c := c }, [.attempt w ok])
    else none
  | .resume f =>
    if s.mode f = .suspended ∧ s.c.ready f = true then
      some ({ s with c := consumeReady s.c f, mode := upd s.mode f .running }, [.resumed f])
    else none

end WakeSys
end Verif

namespace Verif

/-! ## The wait queue as a machine: waits, timed waits, expiry, notifications -/

namespace WaitQ

/-- Where a fiber is with respect to one `wait_queue`. -/
inductive Pc
  | idle
  | waiting (ep : Nat)                  -- suspended in suspend_and_wait (src/waker.cpp:21)
  | timedWaiting (ep : Nat) (d : Nat)   -- suspended in suspend_and_wait_until (src/waker.cpp:32)
  | unlinking (ep : Nat) (d : Nat)      -- resumed too late, about to relock and unlink (src/waker.cpp:34-43)
  deriving DecidableEq, Repr

structure State where
  c   : Ctxs
  q   : List Waker
  pc  : Fid → Pc
  now : Nat                             -- steady_clock

inductive Event
  | wait (f : Fid)                      -- suspend_and_wait
  | waitUntil (f : Fid) (d : Nat)       -- suspend_and_wait_until
  | tick (n : Nat)                      -- time passes
  | timer (f : Fid)                     -- scheduler::sleep2ready_ reaches this fiber
  | notifyOne
  | notifyAll
  | resume (f : Fid)                    -- the scheduler runs the fiber
  | unlink (f : Fid)                    -- relock, unlink, unlock, return false
  | elsewhere (f : Fid) (n : Nat)       -- f blocks and is woken elsewhere (its epoch moves on)

/-- What happens to waiters, as seen from outside. -/
inductive Obs
  | waits (f : Fid)                     -- f starts waiting
  | expired (f : Fid)                   -- f's timer released it
  | notifyOne (released : Option Fid)   -- a single notification, and whom it released
  | notifyAll (released : List Fid)
  | returned (f : Fid) (notified : Bool)  -- the wait of f returned (`false`: reports a timeout)
  deriving DecidableEq, Repr

def init : State := { c := Ctxs.init, q := [], pc := fun _ => .idle, now := 0 }

/-- One action under the caller's spinlock. `wait`: `src/waker.cpp:17-21`. `waitUntil`: `src/waker.cpp:26-32`
with `scheduler::wait_until` (`src/scheduler.cpp:280-298`). `timer`: `src/scheduler.cpp:66-94`, the sleep waker
is the same waker as the one queued. `resume`: `src/scheduler.cpp:298-301` — the outcome of the timed wait is
`now < deadline`. `unlink`: `src/waker.cpp:33-44`. -/
def step (s : State) : Event → Option (State × List Obs)
  | .wait f =>
    if s.pc f = .idle then
      let (c, q) := enqueue s.c s.q f
      some ({ s with c := c, q := q, pc := upd s.pc f (.waiting (s.c.epoch f + 1)) }, [.waits f])
    else none
  | .waitUntil f d =>
    if s.pc f = .idle then
      let (c, q) := enqueue s.c s.q f
      some ({ s with c := c, q := q, pc := upd s.pc f (.timedWaiting (s.c.epoch f + 1) d) }, [.waits f])
    else none
  | .tick n => some ({ s with now := s.now + n }, [])
  | .timer f =>
    match s.pc f with
    | .timedWaiting ep d =>
      if d ≤ s.now then
        let (c, ok) := wake s.c ⟨f, ep⟩
        some ({ s with c := c }, if ok then [.expired f] else [])
      else none
    | _ => none
  | .notifyOne =>
    let (c, q, r) := Verif.notifyOne s.c s.q
    some ({ s with c := c, q := q }, [.notifyOne r])
  | .notifyAll =>
    let (c, rs) := Verif.notifyAll s.c s.q
    some ({ s with c := c, q := [] }, [.notifyAll rs])
  | .resume f =>
    if s.c.ready f then
      match s.pc f with
      | .waiting _ =>
        some ({ s with c := consumeReady s.c f, pc := upd s.pc f .idle }, [.returned f true])
      | .timedWaiting ep d =>
        if s.now < d then
          some ({ s with c := consumeReady s.c f, pc := upd s.pc f .idle }, [.returned f true])
        else
          some ({ s with c := consumeReady s.c f, pc := upd s.pc f (.unlinking ep d) }, [])
      | _ => none
    else none
  | .unlink f =>
    match s.pc f with
    | .unlinking ep _ =>
      some ({ s with q := s.q.filter (· ≠ ⟨f, ep⟩), pc := upd s.pc f .idle }, [.returned f false])
    | _ => none
  | .elsewhere f n =>
    if s.pc f = .idle then
      some ({ s with c := { s.c with epoch := upd s.c.epoch f (s.c.epoch f + n) } }, [])
    else none

end WaitQ
end Verif
