import Verif.Base

/-!
# The locks inside of the library

The library protects its wait queues and ready queues by locks of its own: spinlocks (a thread that finds one taken spins, it cannot run other fibers meanwhile) and, in the
algorithms, mutexes of the operating system. A fiber may hold several of them at once, may wait for one while it holds another, and hands a lock over to the code that runs after
a context switch (`context::resume( spinlock_lock &)`, `src/context.cpp:190-202`). This file says, function by function, which of these locks are taken and
released in which order and where the fiber is switched; everything else a function does (what is in the queues, who owns a mutex, what time it is) is
replaced by a free choice, so that every behaviour of the code is among those of the model.

Simplifications:
* A loop that may go round any number of times gets the number of rounds as a free choice made in advance; when they are used up the model drops
  the call (at a point where it holds no lock). Every finite piece of an execution of the code is one of the model.
* Any fiber that no thread runs may be resumed at any time.
* Destructors, copies and moves of values of the user, clean-up functions (see C71), `fiber_properties` and algorithms other than those of the library are taken not to call the
  library while it holds a lock. A thread that sleeps in `suspend_until` is a thread between two critical sections of the mutex of its algorithm.
* `pick_next` of `work_stealing` returns (see C49).
* `barrier`, `promise`, `packaged_task`, `future` use the mutexes and condition variables of this file only, so that their functions are sequences of calls of this file.
* `recursive_mutex`, `timed_mutex` and `recursive_timed_mutex` take their lock at the same places as `mutex`.
-/

namespace Verif.LockOrder

abbrev Tid := Nat

/-- The locks. -/
inductive Lk
  /-- `condition_variable_any::wait_queue_splk_`, `condition_variable.hpp:48` -/
  | cv (o : Nat)
  /-- `wait_queue_splk_` of the mutexes, `mutex.hpp:37`, `timed_mutex.hpp:39`, `recursive_mutex.hpp:41`, `recursive_timed_mutex.hpp:43` -/
  | mtx (o : Nat)
  /-- `context::splk_`, `context.hpp:146` -/
  | ctx (f : Nat)
  /-- `buffered_channel::splk_`, `buffered_channel.hpp:43` -/
  | chan (o : Nat)
  /-- `unbuffered_channel::splk_producers_`, `unbuffered_channel.hpp:62` -/
  | prod (o : Nat)
  /-- `unbuffered_channel::splk_consumers_`, `unbuffered_channel.hpp:64` -/
  | cons (o : Nat)
  /-- `scheduler::remote_ready_splk_` of a thread, `scheduler.hpp:86` -/
  | remote (t : Nat)
  /-- `context_spinlock_queue::splk_` of the ready queue of a thread, `context_spinlock_queue.hpp:33` -/
  | queue (t : Nat)
  /-- `shared_work::rqueue_mtx_`, `shared_work.hpp:41` -/
  | shared
  /-- `mtx_` of the algorithm of a thread, `round_robin.hpp:38`, `shared_work.hpp:44`, `work_stealing.hpp:49` -/
  | sleep (t : Nat)
  deriving DecidableEq, Repr

/-- What a fiber still has to do of a call, as far as locks are concerned. -/
inductive Code
  | done
  /-- take a lock, spin while it is taken: `spinlock_ttas.hpp:42-105` and the other spinlocks, `std::mutex::lock` -/
  | acq (l : Lk) (k : Code)
  | rel (l : Lk) (k : Code)
  /-- `try_lock`, `spinlock_ttas.hpp:107-109` -/
  | tryAcq (l : Lk) (yes no : Code)
  /-- a choice that does not depend on locks -/
  | branch (k : Nat → Code)
  /-- `context::resume(…)` of another fiber, `src/context.cpp:177-216`; `post` is run on the stack of the other fiber and takes over the lock `l`; this fiber goes on with `k` when it is
  resumed -/
  | switch (l : Option Lk) (post : Code) (k : Code)

/-- Do `c`, then `k`. -/
def Code.bind : Code → Code → Code
  | .done, k => k
  | .acq l c, k => .acq l (c.bind k)
  | .rel l c, k => .rel l (c.bind k)
  | .tryAcq l c c', k => .tryAcq l (c.bind k) (c'.bind k)
  | .branch f, k => .branch fun n => (f n).bind k
  | .switch l p c, k => .switch l p (c.bind k)

/-- `n` times `f`, then `k`. -/
def times (f : Code → Code) : Nat → Code → Code
  | 0, k => k
  | n + 1, k => f (times f n k)

/-- a critical section without a call in it -/
def inside (l : Lk) (k : Code) : Code := .acq l (.rel l k)

/-! ### Scheduling -/

/-- `algorithm::awakened`: `round_robin.cpp:20-26` (no lock), `shared_work.cpp:22-37` (a lock unless the fiber is pinned), `work_stealing.cpp:49-55`, `context_spinlock_queue.hpp:79-86`;
called by `scheduler::schedule`, `src/scheduler.cpp:176-192` -/
def schedule (k : Code) : Code :=
  .branch fun
    | 0 => k
    | 1 => inside .shared k
    | t + 2 => inside (.queue t) k

/-- `algorithm::notify`: `round_robin.cpp:60-66`, `shared_work.cpp:84-92`, `work_stealing.cpp:106-114` (nothing without `suspend_`) -/
def algoNotify (k : Code) : Code :=
  .branch fun
    | 0 => k
    | t + 1 => inside (.sleep t) k

/-- `scheduler::schedule_from_remote`, `src/scheduler.cpp:195-214` -/
def scheduleRemote (k : Code) : Code :=
  .branch fun t => inside (.remote t) (algoNotify k)

/-- `waker::wake`, `src/waker.cpp:8-14`; `context::wake`, `src/context.cpp:299-316` -/
def wake (k : Code) : Code :=
  .branch fun
    | 0 => k
    | 1 => schedule k
    | _ + 2 => scheduleRemote k

/-- `wait_queue::notify_one` and `notify_all`, `src/waker.cpp:49-67`: wake any number of fibers -/
def notify (k : Code) : Code := .branch fun n => times wake n k

/-- `algorithm::pick_next`: `round_robin.cpp:28-40` (no lock), `shared_work.cpp:40-65`, `work_stealing.cpp:57-89`, `src/numa/algo/work_stealing.cpp:99-158` (the own queue, then
any number of queues of other threads), `context_spinlock_queue.hpp:88-110` -/
def pickNext (k : Code) : Code :=
  .branch fun
    | 0 => k
    | 1 => inside .shared k
    | t + 2 => inside (.queue t) (.branch fun n => times (fun k => .branch fun u => inside (.queue u) k) n k)

/-- `context::suspend( lk)`, `src/context.cpp:223-226`; `scheduler::suspend( lk)`, `src/scheduler.cpp:310-314`; `context::resume( lk)`, `src/context.cpp:190-202`: the lock is released after the switch;
also `wait_queue::suspend_and_wait`, `src/waker.cpp:16-23` -/
def suspendLk (l : Lk) (k : Code) : Code := pickNext (.switch (some l) (.rel l .done) k)

/-- `context::yield`, `src/context.cpp:245-249`; `scheduler::yield`, `src/scheduler.cpp:242-255`; `context::resume( context *)`, `src/context.cpp:204-216` and `context::schedule`,
`src/context.cpp:319-340`: the fiber is scheduled after the switch -/
def yield (k : Code) : Code :=
  pickNext (.switch none (.branch fun | 0 => schedule .done | _ + 1 => scheduleRemote .done) k)

/-- `context::suspend()` and `context::wait_until( tp)`, `src/context.cpp:218-221,282-287`, `src/scheduler.cpp:257-277,304-308` -/
def suspend (k : Code) : Code := pickNext (.switch none .done k)

/-- `for (;;) { if ( lk.try_lock() ) break; yield(); }`, `src/waker.cpp:34-38`, `buffered_channel.hpp:84-88`, at most `n` rounds -/
def relock (l : Lk) : Nat → Code → Code
  | 0, _ => .done
  | n + 1, k => .tryAcq l k (yield (relock l n k))

/-- `wait_queue::suspend_and_wait_until`, `src/waker.cpp:25-47`; `context::wait_until( tp, lk, w)`, `src/context.cpp:289-296`, `src/scheduler.cpp:279-302` -/
def suspendUntil (l : Lk) (timeout : Code) (woken : Code) : Code :=
  suspendLk l (.branch fun
    | 0 => woken
    | n + 1 => relock l n (.rel l timeout))

/-! ### Mutexes -/

/-- `mutex::lock`, `src/mutex.cpp:24-42`, `src/timed_mutex.cpp:40-57`, `src/recursive_mutex.cpp:22-40`, `src/recursive_timed_mutex.cpp:46-63`, at most `n` rounds: got it, throws, or
waits -/
def lockRounds (m : Nat) : Nat → Code → Code
  | 0, _ => .done
  | n + 1, k => .acq (.mtx m) (.branch fun
    | 0 => .rel (.mtx m) k
    | 1 => .rel (.mtx m) .done
    | _ + 2 => suspendLk (.mtx m) (lockRounds m n k))

def mutexLock (m : Nat) (k : Code) : Code := .branch fun n => lockRounds m n k

/-- `mutex::try_lock`, `src/mutex.cpp:44-60`, `src/timed_mutex.cpp:59-75`, `src/recursive_mutex.cpp:42-56`, `src/recursive_timed_mutex.cpp:65-79`: throws, or releases the lock and yields -/
def mutexTryLock (m : Nat) (k : Code) : Code :=
  .acq (.mtx m) (.branch fun
    | 0 => .rel (.mtx m) .done
    | _ + 1 => .rel (.mtx m) (yield k))

/-- `timed_mutex::try_lock_until_`, `src/timed_mutex.cpp:22-38`, `src/recursive_timed_mutex.cpp:22-44`, at most `n` rounds -/
def lockUntilRounds (m : Nat) : Nat → Code → Code
  | 0, k => k
  | n + 1, k => .acq (.mtx m) (.branch fun
    | 0 => .rel (.mtx m) k
    | _ + 1 => suspendUntil (.mtx m) k (lockUntilRounds m n k))

/-- `mutex::unlock`, `src/mutex.cpp:62-74`, `src/timed_mutex.cpp:77-89`, `src/recursive_mutex.cpp:58-71`, `src/recursive_timed_mutex.cpp:81-94`: throws, or wakes a fiber (not if a recursive mutex stays
locked) -/
def mutexUnlock (m : Nat) (throws k : Code) : Code :=
  .acq (.mtx m) (.branch fun
    | 0 => .rel (.mtx m) throws
    | 1 => .rel (.mtx m) k
    | _ + 2 => notify (.rel (.mtx m) k))

/-! ### Condition variables -/

/-- `condition_variable_any::notify_one` and `notify_all`, `src/condition_variable.cpp:18-28` -/
def cvNotify (c : Nat) (k : Code) : Code := .acq (.cv c) (notify (.rel (.cv c) k))

/-- `condition_variable_any::wait( lt)`, `condition_variable.hpp:65-84`, of a `std::unique_lock` of a mutex of the library; `wait( lt, pred)` (lines 86-91) is a sequence of such calls -/
def cvWait (c m : Nat) (k : Code) : Code :=
  .acq (.cv c) (mutexUnlock m (.rel (.cv c) .done) (suspendLk (.cv c) (mutexLock m k)))

/-- `condition_variable_any::wait_until( lt, …)`, `condition_variable.hpp:93-117`, of a `std::unique_lock` of a mutex of the library -/
def cvWaitUntil (c m : Nat) (k : Code) : Code :=
  .acq (.cv c) (mutexUnlock m (.rel (.cv c) .done) (suspendUntil (.cv c) (mutexLock m k) (mutexLock m k)))

/-- `condition_variable_any::wait( lt)`, `condition_variable.hpp:65-84`, of a lock of the user that is unlocked by `unlock` and locked by `lock`. (An `unlock` that throws is not
modelled.) -/
def cvWaitAny (c : Nat) (unlock lock : Code) : Code :=
  .acq (.cv c) (unlock.bind (suspendLk (.cv c) lock))

/-! ### Channels -/

/-- `buffered_channel::push`, `pop`, `value_pop`, `buffered_channel.hpp:145-188,277-321`, at most `n` rounds: the lock is busy, the channel is closed, it is full or empty, or the
operation takes place -/
def chanRounds (c : Nat) : Nat → Code → Code
  | 0, _ => .done
  | n + 1, k => .tryAcq (.chan c)
      (.branch fun
        | 0 => .rel (.chan c) k
        | 1 => notify (.rel (.chan c) k)
        | _ + 2 => suspendLk (.chan c) (chanRounds c n k))
      (yield (chanRounds c n k))

/-- `buffered_channel::push_wait_until`, `pop_wait_until`, `buffered_channel.hpp:204-257,330-357`, at most `n` rounds -/
def chanUntilRounds (c : Nat) : Nat → Code → Code
  | 0, _ => .done
  | n + 1, k => .tryAcq (.chan c)
      (.branch fun
        | 0 => .rel (.chan c) k
        | 1 => notify (.rel (.chan c) k)
        | _ + 2 => suspendUntil (.chan c) k (chanUntilRounds c n k))
      (yield (chanUntilRounds c n k))

/-- `buffered_channel::try_push`, `try_pop`, `is_closed`, `close`, `buffered_channel.hpp:82-143,259-275`: takes the lock and wakes any number of fibers -/
def chanTry (c : Nat) (k : Code) : Code :=
  .branch fun n => relock (.chan c) n (notify (notify (.rel (.chan c) k)))

/-- `unbuffered_channel::close`, `unbuffered_channel.hpp:111-126`: `lk1` is still held when `lk2` is taken -/
def unbufClose (c : Nat) (k : Code) : Code :=
  .branch fun
    | 0 => k
    | 1 => .acq (.prod c) (notify (.acq (.cons c) (notify (.rel (.cons c) (.rel (.prod c) k)))))
    | _ + 2 => wake (.acq (.prod c) (notify (.acq (.cons c) (notify (.rel (.cons c) (.rel (.prod c) k))))))

/-- `unbuffered_channel::push`, `unbuffered_channel.hpp:128-192`, at most `n` rounds: closed; the slot was free; else closed, slot free again, or wait -/
def unbufPushRounds (c : Nat) : Nat → Code → Code
  | 0, _ => .done
  | n + 1, k => .branch fun
    | 0 => k
    | 1 => .acq (.cons c) (notify (suspendLk (.cons c) k))
    | 2 => .acq (.prod c) (.rel (.prod c) k)
    | 3 => .acq (.prod c) (.rel (.prod c) (unbufPushRounds c n k))
    | _ + 4 => .acq (.prod c) (suspendLk (.prod c) (unbufPushRounds c n k))

/-- `unbuffered_channel::push_wait_until`, `unbuffered_channel.hpp:208-298`, at most `n` rounds -/
def unbufPushUntilRounds (c : Nat) : Nat → Code → Code
  | 0, _ => .done
  | n + 1, k => .branch fun
    | 0 => k
    | 1 => .acq (.cons c) (notify (suspendLk (.cons c) k))
    | 2 => .acq (.prod c) (.rel (.prod c) k)
    | 3 => .acq (.prod c) (.rel (.prod c) (unbufPushUntilRounds c n k))
    | _ + 4 => .acq (.prod c) (suspendUntil (.prod c) k (unbufPushUntilRounds c n k))

/-- `unbuffered_channel::pop`, `value_pop`, `unbuffered_channel.hpp:300-353`, at most `n` rounds -/
def unbufPopRounds (c : Nat) : Nat → Code → Code
  | 0, _ => .done
  | n + 1, k => .branch fun
    | 0 => .acq (.prod c) (notify (.rel (.prod c) (wake k)))
    | 1 => .acq (.cons c) (.rel (.cons c) k)
    | 2 => .acq (.cons c) (.rel (.cons c) (unbufPopRounds c n k))
    | _ + 3 => .acq (.cons c) (suspendLk (.cons c) (unbufPopRounds c n k))

/-- `unbuffered_channel::pop_wait_until`, `unbuffered_channel.hpp:362-392`, at most `n` rounds -/
def unbufPopUntilRounds (c : Nat) : Nat → Code → Code
  | 0, _ => .done
  | n + 1, k => .branch fun
    | 0 => .acq (.prod c) (notify (.rel (.prod c) (wake k)))
    | 1 => .acq (.cons c) (.rel (.cons c) k)
    | 2 => .acq (.cons c) (.rel (.cons c) (unbufPopUntilRounds c n k))
    | _ + 3 => .acq (.cons c) (suspendUntil (.cons c) k (unbufPopUntilRounds c n k))

/-! ### Fibers -/

/-- `context::join`, `src/context.cpp:228-243` -/
def join (f : Nat) (k : Code) : Code :=
  .acq (.ctx f) (.branch fun
    | 0 => .rel (.ctx f) k
    | _ + 1 => suspendLk (.ctx f) k)

/-- `context::terminate`, `src/context.cpp:264-280`; `scheduler::terminate`, `src/scheduler.cpp:217-240` -/
def terminate (f : Nat) : Code :=
  .acq (.ctx f) (notify (.rel (.ctx f) (suspend .done)))

/-- `~context`, `src/context.cpp:159-170` -/
def destroyCtx (f : Nat) (k : Code) : Code := inside (.ctx f) k

/-- `fiber::start_`, `src/fiber.cpp:23-41`, `launch::dispatch` -/
def launchDispatch (k : Code) : Code :=
  .switch none (.branch fun | 0 => schedule .done | _ + 1 => scheduleRemote .done) k

/-- one round of `scheduler::dispatch`, `src/scheduler.cpp:122-169`: `notify` when shutting down, `release_terminated_` (lines 24-46), `remote_ready2ready_` (49-62), `sleep2ready_` (65-94), then resume a fiber or
`suspend_until` (`round_robin.cpp:47-58`, `shared_work.cpp:69-82`, `work_stealing.cpp:91-104`) -/
def dispatchRound (t : Tid) : Code :=
  algoNotify (.branch fun n => times (fun k => .branch fun f => destroyCtx f k) n
    (inside (.remote t) (.branch fun m => times schedule m (.branch fun i => times wake i
      (pickNext (.branch fun
        | 0 => .done
        | 1 => inside (.sleep t) (inside (.sleep t) .done)
        | _ + 2 => .switch none (schedule .done) .done))))))

/-- `algorithm::has_ready_fibers`: `round_robin.cpp:42-45` (no lock), `shared_work.hpp:66-69`, `work_stealing.hpp:73-75` with `context_spinlock_queue.hpp:74-77` -/
def hasReady (k : Code) : Code :=
  .branch fun
    | 0 => k
    | 1 => inside .shared k
    | t + 2 => inside (.queue t) k

/-- `scheduler::set_algo`, `src/scheduler.cpp:321-328` -/
def setAlgo (k : Code) : Code :=
  .branch fun n => times (fun k => hasReady (pickNext (schedule k))) n (hasReady k)

/-! ### Calls -/

/-- The calls of a fiber. -/
inductive Call
  | lock (m n : Nat)
  | tryLock (m : Nat)
  | tryLockUntil (m n : Nat)
  | unlock (m : Nat)
  | notifyOne (c : Nat)
  | notifyAll (c : Nat)
  | wait (c m : Nat)
  | waitUntil (c m : Nat)
  /-- `wait` of a `condition_variable_any` with a lock of the user -/
  | waitAny (c : Nat) (unlock lock : Code)
  | push (c n : Nat)
  | pushUntil (c n : Nat)
  | pop (c n : Nat)
  | popUntil (c n : Nat)
  | tryPush (c : Nat)
  | tryPop (c : Nat)
  | close (c : Nat)
  | unbufPush (c n : Nat)
  | unbufPushUntil (c n : Nat)
  | unbufPop (c n : Nat)
  | unbufPopUntil (c n : Nat)
  | unbufClose (c : Nat)
  | join (f : Nat)
  /-- the function of fiber `f` has returned -/
  | exit (f : Nat)
  /-- the last handle of a fiber that has ended is gone -/
  | destroy (f : Nat)
  | post
  | dispatch
  | yield
  | sleep
  | useAlgorithm
  /-- a round of the dispatcher fiber -/
  | round (t : Tid)

def Call.code : Call → Code
  | .lock m n => lockRounds m n .done
  | .tryLock m => mutexTryLock m .done
  | .tryLockUntil m n => lockUntilRounds m n .done
  | .unlock m => mutexUnlock m .done .done
  | .notifyOne c => cvNotify c .done
  | .notifyAll c => cvNotify c .done
  | .wait c m => cvWait c m .done
  | .waitUntil c m => cvWaitUntil c m .done
  | .waitAny c u l => cvWaitAny c u l
  | .push c n => chanRounds c n .done
  | .pushUntil c n => chanUntilRounds c n .done
  | .pop c n => chanRounds c n .done
  | .popUntil c n => chanUntilRounds c n .done
  | .tryPush c => chanTry c .done
  | .tryPop c => chanTry c .done
  | .close c => chanTry c .done
  | .unbufPush c n => unbufPushRounds c n .done
  | .unbufPushUntil c n => unbufPushUntilRounds c n .done
  | .unbufPop c n => unbufPopRounds c n .done
  | .unbufPopUntil c n => unbufPopUntilRounds c n .done
  | .unbufClose c => LockOrder.unbufClose c .done
  | .join f => LockOrder.join f .done
  | .exit f => terminate f
  | .destroy f => destroyCtx f .done
  | .post => schedule .done
  | .dispatch => launchDispatch .done
  | .yield => LockOrder.yield .done
  | .sleep => suspend .done
  | .useAlgorithm => setAlgo .done
  | .round t => dispatchRound t

/-! ### The machine -/

/-- A fiber: the dispatcher fiber of a thread (`dispatcher_context`, `src/context.cpp:31-53`), or any other. -/
inductive Fib
  | disp (t : Tid)
  | worker (n : Nat)
  deriving DecidableEq, Repr

/-- Who holds locks: a fiber, or the code a thread runs right after a context switch. -/
inductive Agent
  | fib (f : Fib)
  | post (t : Tid)
  deriving DecidableEq, Repr

structure State where
  owner : Lk → Option Agent
  code : Agent → Code
  /-- the fiber a thread runs -/
  cur : Tid → Fib

def init : State := { owner := fun _ => none, code := fun _ => .done, cur := .worker }

inductive Event
  /-- the fiber thread `t` runs calls the library -/
  | begin (t : Tid) (c : Call)
  /-- thread `t` takes or releases a lock -/
  | go (t : Tid)
  /-- a free choice -/
  | choose (t : Tid) (i : Nat)
  /-- thread `t` goes over to fiber `g` -/
  | switch (t : Tid) (g : Fib)

def Event.thread : Event → Tid
  | .begin t _ => t
  | .go t => t
  | .choose t _ => t
  | .switch t _ => t

def Code.isDone : Code → Bool
  | .done => true
  | _ => false

/-- What thread `t` is about to execute. -/
def State.agent (s : State) (t : Tid) : Agent :=
  if (s.code (.post t)).isDone then .fib (s.cur t) else .post t

def setCode (s : State) (a : Agent) (c : Code) : State :=
  { s with code := fun b => if b = a then c else s.code b }

def setOwner (s : State) (l : Lk) (a : Option Agent) : State :=
  { s with owner := fun m => if m = l then a else s.owner m }

def setCur (s : State) (t : Tid) (f : Fib) : State :=
  { s with cur := fun u => if u = t then f else s.cur u }

/-- May fiber `f` call `c`? The dispatcher of a thread runs `scheduler::dispatch`, the others do not. -/
def mayCall : Fib → Call → Bool
  | .disp t, .round u => t == u
  | .disp _, _ => false
  | .worker _, .round _ => false
  | .worker _, _ => true

/-- May thread `t` resume `g`, given that `n` threads exist? -/
def mayResume (n : Nat) (s : State) (t : Tid) (g : Fib) : Bool :=
  (List.range n).all (fun u => !(s.cur u == g)) &&
  match g with
  | .disp u => u == t
  | .worker _ => true

/-- `n` threads; the events are the observations. -/
def step (n : Nat) (s : State) (e : Event) : Option (State × List Event) :=
  if e.thread < n then
    let t := e.thread
    let a := s.agent t
    match e, s.code a with
    | .begin t c, .done => if mayCall (s.cur t) c then some (setCode s a c.code, [e]) else none
    | .go _, .acq l k => if s.owner l = none then some (setCode (setOwner s l (some a)) a k, [e]) else none
    | .go _, .rel l k => some (setCode (setOwner s l none) a k, [e])
    | .go _, .tryAcq l y m =>
      if s.owner l = none then some (setCode (setOwner s l (some a)) a y, [e]) else some (setCode s a m, [e])
    | .choose _ i, .branch k => some (setCode s a (k i), [e])
    | .switch t g, .switch r p k =>
      if a = .fib (s.cur t) ∧ mayResume n s t g then
        let s := setCode (setCode s a k) (.post t) p
        let s := match r with | none => s | some l => setOwner s l (some (.post t))
        some (setCur s t g, [e])
      else none
    | _, _ => none
  else none

end Verif.LockOrder
