import Verif.Waker

/-!
# The four mutex classes

`src/mutex.cpp`, `src/timed_mutex.cpp`, `src/recursive_mutex.cpp`, `src/recursive_timed_mutex.cpp`.

The code between acquiring `wait_queue_splk_` and releasing it (or suspending with it) is one function
per class and operation; a fiber's call is a little program counter machine around these functions.
-/

namespace Verif.Mutex

inductive Kind
  | plain | timed | recursive | recTimed
  deriving DecidableEq, Repr

/-- `recursive_mutex` and `recursive_timed_mutex` count. -/
def Kind.isRec : Kind → Bool
  | .recursive | .recTimed => true
  | _ => false

/-- `timed_mutex` and `recursive_timed_mutex` offer `try_lock_until`/`try_lock_for`. -/
def Kind.hasTimed : Kind → Bool
  | .timed | .recTimed => true
  | _ => false

/-- `owner_` and `count_` (`include/boost/fiber/mutex.hpp:39`, `recursive_mutex.hpp:43-44`; the classes
without `count_` leave it 0). -/
structure M where
  owner : Option Fid
  count : Nat
  deriving DecidableEq, Repr

/-- The two `lock_error`s. -/
inductive Err
  | deadlock       -- std::errc::resource_deadlock_would_occur
  | notPermitted   -- std::errc::operation_not_permitted
  deriving DecidableEq, Repr

/-- Outcome of a lock attempt under the spinlock: throw, return having acquired, or suspend. -/
inductive LockRes
  | threw (e : Err)
  | acquired (m : M)
  | block
  deriving DecidableEq, Repr

/-- `mutex::lock` loop body (`src/mutex.cpp:27-40`). -/
def plainLock (m : M) (f : Fid) : LockRes :=
  if m.owner = some f then .threw .deadlock
  else if m.owner = none then .acquired { m with owner := some f }
  else .block

/-- `timed_mutex::lock` loop body (`src/timed_mutex.cpp:43-55`). -/
def timedLock (m : M) (f : Fid) : LockRes :=
  if m.owner = some f then .threw .deadlock
  else if m.owner = none then .acquired { m with owner := some f }
  else .block

/-- `recursive_mutex::lock` loop body (`src/recursive_mutex.cpp:25-38`). -/
def recLock (m : M) (f : Fid) : LockRes :=
  if m.owner = some f then .acquired { m with count := m.count + 1 }
  else if m.owner = none then .acquired { owner := some f, count := 1 }
  else .block

/-- `recursive_timed_mutex::lock` loop body (`src/recursive_timed_mutex.cpp:49-62`). -/
def recTimedLock (m : M) (f : Fid) : LockRes :=
  if m.owner = some f then .acquired { m with count := m.count + 1 }
  else if m.owner = none then .acquired { owner := some f, count := 1 }
  else .block

def lockCS : Kind → M → Fid → LockRes
  | .plain => plainLock
  | .timed => timedLock
  | .recursive => recLock
  | .recTimed => recTimedLock

/-- Outcome of the critical section of `try_lock`: throw, or go on to yield with this mutex state. -/
inductive TryRes
  | threw (e : Err)
  | go (m : M)
  deriving DecidableEq, Repr

/-- `mutex::try_lock` critical section (`src/mutex.cpp:46-55`). -/
def plainTry (m : M) (f : Fid) : TryRes :=
  if m.owner = some f then .threw .deadlock
  else if m.owner = none then .go { m with owner := some f }
  else .go m

/-- `timed_mutex::try_lock` critical section (`src/timed_mutex.cpp:61-70`). -/
def timedTry (m : M) (f : Fid) : TryRes :=
  if m.owner = some f then .threw .deadlock
  else if m.owner = none then .go { m with owner := some f }
  else .go m

/-- `recursive_mutex::try_lock` critical section (`src/recursive_mutex.cpp:44-52`). -/
def recTry (m : M) (f : Fid) : TryRes :=
  if m.owner = none then .go { owner := some f, count := 1 }
  else if m.owner = some f then .go { m with count := m.count + 1 }
  else .go m

/-- `recursive_timed_mutex::try_lock` critical section (`src/recursive_timed_mutex.cpp:67-75`). -/
def recTimedTry (m : M) (f : Fid) : TryRes :=
  if m.owner = none then .go { owner := some f, count := 1 }
  else if m.owner = some f then .go { m with count := m.count + 1 }
  else .go m

def tryCS : Kind → M → Fid → TryRes
  | .plain => plainTry
  | .timed => timedTry
  | .recursive => recTry
  | .recTimed => recTimedTry

/-- `timed_mutex::try_lock_until_` critical section (`src/timed_mutex.cpp:30-35`): no check for the caller
being the owner. -/
def timedUntil (m : M) (f : Fid) : LockRes :=
  if m.owner = none then .acquired { m with owner := some f } else .block

/-- `recursive_timed_mutex::try_lock_until_` critical section (`src/recursive_timed_mutex.cpp:30-41`). -/
def recTimedUntil (m : M) (f : Fid) : LockRes :=
  if m.owner = some f then .acquired { m with count := m.count + 1 }
  else if m.owner = none then .acquired { owner := some f, count := 1 }
  else .block

/-- The critical section of `try_lock_until_`; the classes without it have no such call (`call` below). -/
def untilCS : Kind → M → Fid → LockRes
  | .timed => timedUntil
  | .recTimed => recTimedUntil
  | .plain | .recursive => fun _ _ => .block

/-- Outcome of `unlock` under the spinlock: throw; keep holding (recursive); or free the mutex, after which
one waiter is notified. -/
inductive UnlockRes
  | threw (e : Err)
  | keep (m : M)
  | free (m : M)
  deriving DecidableEq, Repr

/-- `mutex::unlock` (`src/mutex.cpp:64-73`). -/
def plainUnlock (m : M) (f : Fid) : UnlockRes :=
  if m.owner ≠ some f then .threw .notPermitted else .free { m with owner := none }

/-- `timed_mutex::unlock` (`src/timed_mutex.cpp:79-88`). -/
def timedUnlock (m : M) (f : Fid) : UnlockRes :=
  if m.owner ≠ some f then .threw .notPermitted else .free { m with owner := none }

/-- `recursive_mutex::unlock` (`src/recursive_mutex.cpp:60-70`). `--count_` on a zero count (which
`Props/Mutex` proves impossible) would wrap in C++. -/
def recUnlock (m : M) (f : Fid) : UnlockRes :=
  if m.owner ≠ some f then .threw .notPermitted
  else if m.count - 1 = 0 then .free { owner := none, count := m.count - 1 }
  else .keep { m with count := m.count - 1 }

/-- `recursive_timed_mutex::unlock` (`src/recursive_timed_mutex.cpp:83-93`). -/
def recTimedUnlock (m : M) (f : Fid) : UnlockRes :=
  if m.owner ≠ some f then .threw .notPermitted
  else if m.count - 1 = 0 then .free { owner := none, count := m.count - 1 }
  else .keep { m with count := m.count - 1 }

def unlockCS : Kind → M → Fid → UnlockRes
  | .plain => plainUnlock
  | .timed => timedUnlock
  | .recursive => recUnlock
  | .recTimed => recTimedUnlock

/-- API calls. -/
inductive Op
  | lock | tryLock | tryLockUntil (d : Nat) | unlock
  deriving DecidableEq, Repr

/-- Where a fiber is. -/
inductive Pc
  | idle
  | lockEntry                        -- top of the loop in lock()
  | lockWait (ep : Nat)              -- suspended in lock() (`wait_queue_.suspend_and_wait`)
  | tryEntry                         -- about to enter try_lock()'s critical section
  | tryYield                         -- in `active_ctx->yield()` of try_lock()
  | untilEntry (d : Nat)             -- top of the loop in try_lock_until_, about to read the clock
  | untilCS (d : Nat)                -- clock read, about to take the spinlock
  | untilWait (ep : Nat) (d : Nat)   -- suspended in suspend_and_wait_until
  | untilUnlink (ep : Nat) (d : Nat) -- resumed late, about to relock and unlink (`src/waker.cpp:33-44`)
  | unlockEntry
  deriving DecidableEq, Repr

structure State where
  m   : M
  q   : List Waker
  c   : Ctxs
  pc  : Fid → Pc
  now : Nat

inductive Event
  | call (f : Fid) (op : Op)       -- an idle fiber makes a call
  | run (f : Fid)                  -- a fiber inside a call executes up to the next switch point
  | timer (f : Fid)                -- the scheduler finds f's sleep deadline reached
  | tick (n : Nat)                 -- the clock advances
  | elsewhere (f : Fid) (n : Nat)  -- an idle fiber blocks and is woken on something else

inductive Obs
  | called (f : Fid) (op : Op)
  | lockRet (f : Fid)                               -- lock() returned
  | tryRet (f : Fid) (b : Bool)                     -- try_lock() returned b
  | untilRet (f : Fid) (d : Nat) (b : Bool) (t : Nat)  -- try_lock_until(d) returned b at time t
  | unlockRet (f : Fid) (woken : Option Fid)        -- unlock() returned, having scheduled `woken`
  | threw (f : Fid) (op : Op) (e : Err)             -- the call threw
  | blocks (f : Fid)                                -- f was suspended on the mutex
  | expired (f : Fid)                               -- f was released by its timer
  deriving DecidableEq, Repr

def init : State :=
  { m := { owner := none, count := 0 }, q := [], c := Ctxs.init, pc := fun _ => .idle, now := 0 }

/-- Only the timed classes have `try_lock_until`/`try_lock_for`. -/
def offered (k : Kind) : Op → Bool
  | .tryLockUntil _ => k.hasTimed
  | _ => true

/-- Program counter after a call. -/
def entry : Op → Pc
  | .lock => .lockEntry
  | .tryLock => .tryEntry
  | .tryLockUntil d => .untilEntry d
  | .unlock => .unlockEntry

/-- The next action of a fiber inside a call. -/
def run (k : Kind) (s : State) (f : Fid) : Option (State × List Obs) :=
  match s.pc f with
  | .idle => none
  | .lockEntry =>
    match lockCS k s.m f with
    | .threw e => some ({ s with pc := upd s.pc f .idle }, [.threw f .lock e])
    | .acquired m => some ({ s with m := m, pc := upd s.pc f .idle }, [.lockRet f])
    | .block =>
      let (c, q) := enqueue s.c s.q f
      some ({ s with c := c, q := q, pc := upd s.pc f (.lockWait (s.c.epoch f + 1)) }, [.blocks f])
  | .lockWait _ =>     -- resumed: back to the top of the loop
    if s.c.ready f then
      some ({ s with c := consumeReady s.c f, pc := upd s.pc f .lockEntry }, [])
    else none
  | .tryEntry =>
    match tryCS k s.m f with
    | .threw e => some ({ s with pc := upd s.pc f .idle }, [.threw f .tryLock e])
    | .go m => some ({ s with m := m, pc := upd s.pc f .tryYield }, [])
  | .tryYield =>       -- `return active_ctx == owner_`
    some ({ s with pc := upd s.pc f .idle }, [.tryRet f (s.m.owner = some f)])
  | .untilEntry d =>   -- `if (now() > timeout_time) return false`
    if s.now > d then some ({ s with pc := upd s.pc f .idle }, [.untilRet f d false s.now])
    else some ({ s with pc := upd s.pc f (.untilCS d) }, [])
  | .untilCS d =>
    match untilCS k s.m f with
    | .threw e => some ({ s with pc := upd s.pc f .idle }, [.threw f (.tryLockUntil d) e])
    | .acquired m => some ({ s with m := m, pc := upd s.pc f .idle }, [.untilRet f d true s.now])
    | .block =>
      let (c, q) := enqueue s.c s.q f
      some ({ s with c := c, q := q, pc := upd s.pc f (.untilWait (s.c.epoch f + 1) d) }, [.blocks f])
  | .untilWait ep d =>  -- `src/scheduler.cpp:298-301`: `return now() < sleep_tp`
    if s.c.ready f then
      if s.now < d then
        some ({ s with c := consumeReady s.c f, pc := upd s.pc f (.untilEntry d) }, [])
      else
        some ({ s with c := consumeReady s.c f, pc := upd s.pc f (.untilUnlink ep d) }, [])
    else none
  | .untilUnlink ep d =>
    some ({ s with q := s.q.filter (· ≠ ⟨f, ep⟩), pc := upd s.pc f .idle }, [.untilRet f d false s.now])
  | .unlockEntry =>
    match unlockCS k s.m f with
    | .threw e => some ({ s with pc := upd s.pc f .idle }, [.threw f .unlock e])
    | .keep m => some ({ s with m := m, pc := upd s.pc f .idle }, [.unlockRet f none])
    | .free m =>
      let (c, q, r) := notifyOne s.c s.q
      some ({ s with m := m, c := c, q := q, pc := upd s.pc f .idle }, [.unlockRet f r])

/-- One event. -/
def step (k : Kind) (s : State) : Event → Option (State × List Obs)
  | .call f op =>
    if s.pc f = .idle ∧ offered k op = true then
      some ({ s with pc := upd s.pc f (entry op) }, [.called f op])
    else none
  | .run f => run k s f
  | .timer f =>         -- `scheduler::sleep2ready_` (`src/scheduler.cpp:66-94`)
    match s.pc f with
    | .untilWait ep d =>
      if d ≤ s.now then
        let (c, ok) := wake s.c ⟨f, ep⟩
        some ({ s with c := c }, if ok then [.expired f] else [])
      else none
    | _ => none
  | .tick n => some ({ s with now := s.now + n }, [])
  | .elsewhere f n =>
    if s.pc f = .idle then
      some ({ s with c := { s.c with epoch := upd s.c.epoch f (s.c.epoch f + n) } }, [])
    else none

end Verif.Mutex
