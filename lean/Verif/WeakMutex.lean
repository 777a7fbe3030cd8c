import Verif.Weak

/-!
# The mutexes under weak memory

`mutex` (`src/mutex.cpp`), `timed_mutex` (`src/timed_mutex.cpp`), `recursive_mutex` (`src/recursive_mutex.cpp`) and
`recursive_timed_mutex` (`src/recursive_timed_mutex.cpp`), on the memory of `Verif/Weak.lean`. `owner_`, `count_` and
`wait_queue_` are ordinary variables; only the spinlock `wait_queue_splk_` is atomic. Every single access to one of them is an
event. Fibers use data of their own (non-atomic, locations from 5 on) while they hold the mutex.

* Every fiber has its own view, as if it were a thread. Fibers of one thread, and those that are woken, know more; so this allows
  more behaviours.
* The spinlock is its `exchange( locked, acquire)` and `store( unlocked, release)`; the loop around them, and the other spinlock
  classes, are in `Verif/WeakLock.lean` (C73).
* A waiting fiber may be resumed at any time, and its timeout may come at any time; who is woken is in `Verif/Mutex.lean`.
* Where `context::active()`, `create_waker()` and the clock are read does not matter here.
-/

namespace Verif.WeakMutex

open Weak

/-- `wait_queue_splk_` -/
def SPL : Nat := 0
/-- `owner_` -/
def OWNER : Nat := 2
/-- `wait_queue_` -/
def QUEUE : Nat := 3
/-- `count_` -/
def COUNT : Nat := 4
/-- the user's data -/
def isData (x : Nat) : Prop := 5 ≤ x

instance (x : Nat) : Decidable (isData x) := inferInstanceAs (Decidable (5 ≤ x))

inductive Call
  | lock
  | tryLock
  /-- `try_lock_for`, `try_lock_until` -/
  | lockUntil
  | unlock
  deriving DecidableEq, Repr

/-- How a critical section of the spinlock ends. -/
inductive Res
  | got | tried | threw | unlocked | gaveUp
  | slept (k : Call)
  deriving DecidableEq, Repr

inductive Pc
  | out
  /-- takes the spinlock -/
  | want (k : Call)
  /-- reads `owner_` -/
  | dec (k : Call)
  /-- writes `owner_ = active_ctx` -/
  | own (k : Call)
  /-- writes `count_ = 1` or `++count_` -/
  | cnt (k : Call) (fresh : Bool)
  /-- `--count_` -/
  | less
  /-- `owner_ = nullptr` -/
  | free
  /-- `wait_queue_.notify_one()` -/
  | note
  /-- `slist_.push_back( w)`, `src/waker.cpp:19,30` -/
  | push (k : Call)
  /-- releases the spinlock -/
  | rel (r : Res)
  | sleeping (k : Call)
  /-- timeout: takes the spinlock again, `src/waker.cpp:34-38` -/
  | wantErase
  /-- `slist_.remove( w)`, `src/waker.cpp:40-42` -/
  | erase
  /-- `return active_ctx == owner_` of `try_lock()` -/
  | look
  deriving DecidableEq, Repr

/-- Has the spinlock. -/
def Pc.inside : Pc → Bool
  | .dec _ | .own _ | .cnt _ _ | .less | .free | .note | .push _ | .rel _ | .erase => true
  | _ => false

inductive Obs
  | called (f : Fid) (k : Call)
  /-- the call returned (`true`) and `f` has the mutex (once more) -/
  | acquired (f : Fid)
  /-- the call returned `false` or threw `lock_error` -/
  | failed (f : Fid)
  /-- `unlock()` returned -/
  | released (f : Fid)
  /-- `f` accesses the non-atomic location `x`; `race`: a former access does not happen before this one -/
  | acc (f : Fid) (x : Nat) (write race : Bool)
  deriving DecidableEq, Repr

structure State where
  /-- `recursive_mutex` or `recursive_timed_mutex` -/
  recur : Bool
  mem : Mem
  /-- the value of `owner_` -/
  owner : Option Fid
  /-- the value of `count_` -/
  count : Nat
  pc : Fid → Pc
  /-- how often the fiber has the mutex, judging from the calls that returned -/
  held : Fid → Nat

def init (recur : Bool) : State := ⟨recur, Weak.start (fun _ => 0), none, 0, fun _ => .out, fun _ => 0⟩

inductive Event
  | call (f : Fid) (k : Call)
  /-- one attempt to take the spinlock, reading the message with timestamp `t` -/
  | spin (f : Fid) (t : Nat)
  /-- the next access to `owner_`, `count_` or `wait_queue_` -/
  | run (f : Fid)
  /-- the spinlock is released, by a message with timestamp `t` -/
  | release (f : Fid) (t : Nat)
  /-- a waiting fiber is resumed -/
  | resume (f : Fid)
  /-- the wait of a fiber times out -/
  | expire (f : Fid)
  /-- the fiber finds that its time is over, before it tries (again) -/
  | late (f : Fid)
  /-- the fiber uses data while it has the mutex -/
  | use (f : Fid) (x : Nat)
  deriving DecidableEq, Repr

/-- `f` accesses location `x` and goes on at `p`. -/
def State.acc (s : State) (f : Fid) (x : Nat) (write : Bool) (p : Pc) : State × List Obs :=
  ({ s with mem := (touch s.mem f x).2, pc := upd s.pc f p }, [.acc f x write (touch s.mem f x).1])

/-- Where a fiber goes that has read `owner_` under the spinlock. -/
def decide_ (recur : Bool) (owner : Option Fid) (f : Fid) : Call → Pc
  -- `src/mutex.cpp:30-40`, `src/timed_mutex.cpp:46-55`, `src/recursive_mutex.cpp:28-38`, `src/recursive_timed_mutex.cpp:52-61`
  | .lock =>
    if owner = some f then (if recur then .cnt .lock false else .rel .threw)
    else if owner = none then .own .lock
    else .push .lock
  -- `src/mutex.cpp:48-55`, `src/timed_mutex.cpp:63-70`, `src/recursive_mutex.cpp:46-51`, `src/recursive_timed_mutex.cpp:69-74`
  | .tryLock =>
    if owner = some f then (if recur then .cnt .tryLock false else .rel .threw)
    else if owner = none then .own .tryLock
    else .rel .tried
  -- `src/timed_mutex.cpp:30-34` (a fiber that has the mutex already waits), `src/recursive_timed_mutex.cpp:31-40`
  | .lockUntil =>
    if owner = some f ∧ recur then .cnt .lockUntil false
    else if owner = none then .own .lockUntil
    else .push .lockUntil
  -- `src/mutex.cpp:66-70`, `src/timed_mutex.cpp:81-85`, `src/recursive_mutex.cpp:62-67`, `src/recursive_timed_mutex.cpp:85-90`
  | .unlock =>
    if owner = some f then (if recur then .less else .free) else .rel .threw

/-- What a call does when it has got the mutex. -/
def gotIt : Call → Res
  | .tryLock => .tried
  | _ => .got

def step (s : State) : Event → Option (State × List Obs)
  | .call f k =>
    match s.pc f with
    | .out => some ({ s with pc := upd s.pc f (.want k) }, [.called f k])
    | _ => none
  -- `detail::spinlock_lock lk{ wait_queue_splk_ }`; after a timeout `lk.try_lock()` until it succeeds
  | .spin f t =>
    match s.pc f with
    | .want k =>
      match rmw s.mem f SPL t (fun _ => 1) true false with
      | none => none
      | some (v, m) =>
        if v = 0 then some ({ s with mem := m, pc := upd s.pc f (.dec k) }, [])
        else some ({ s with mem := m }, [])
    | .wantErase =>
      match rmw s.mem f SPL t (fun _ => 1) true false with
      | none => none
      | some (v, m) =>
        if v = 0 then some ({ s with mem := m, pc := upd s.pc f .erase }, [])
        else some ({ s with mem := m }, [])
    | _ => none
  | .run f =>
    match s.pc f with
    | .dec k => some (s.acc f OWNER false (decide_ s.recur s.owner f k))
    -- `owner_ = active_ctx`
    | .own k =>
      some ({ s with owner := some f }.acc f OWNER true (if s.recur then .cnt k true else .rel (gotIt k)))
    -- `count_ = 1`, `++count_`
    | .cnt k fresh =>
      some ({ s with count := if fresh then 1 else s.count + 1 }.acc f COUNT true (.rel (gotIt k)))
    -- `src/recursive_mutex.cpp:67`, `src/recursive_timed_mutex.cpp:90`
    | .less =>
      some ({ s with count := s.count - 1 }.acc f COUNT true (if s.count - 1 = 0 then .free else .rel .unlocked))
    -- `src/mutex.cpp:71`, `src/timed_mutex.cpp:86`, `src/recursive_mutex.cpp:68`, `src/recursive_timed_mutex.cpp:91`
    | .free => some ({ s with owner := none }.acc f OWNER true .note)
    -- `src/waker.cpp:50-58`
    | .note => some (s.acc f QUEUE true (.rel .unlocked))
    | .push k => some (s.acc f QUEUE true (.rel (.slept k)))
    | .erase => some (s.acc f QUEUE true (.rel .gaveUp))
    -- `src/mutex.cpp:59`, `src/timed_mutex.cpp:74`, `src/recursive_mutex.cpp:55`, `src/recursive_timed_mutex.cpp:78`
    | .look =>
      let s' := s.acc f OWNER false .out
      if s.owner = some f then some ({ s'.1 with held := upd s.held f (s.held f + 1) }, s'.2 ++ [.acquired f])
      else some (s'.1, s'.2 ++ [.failed f])
    | _ => none
  -- the end of the scope of `lk`, `lk.unlock()`, or, in `suspend( lk)`, the fiber that runs next
  | .release f t =>
    match s.pc f with
    | .rel r =>
      match store s.mem f SPL t 0 true with
      | none => none
      | some m =>
        match r with
        | .got => some ({ s with mem := m, pc := upd s.pc f .out, held := upd s.held f (s.held f + 1) }, [.acquired f])
        | .unlocked => some ({ s with mem := m, pc := upd s.pc f .out, held := upd s.held f (s.held f - 1) }, [.released f])
        | .threw => some ({ s with mem := m, pc := upd s.pc f .out }, [.failed f])
        | .gaveUp => some ({ s with mem := m, pc := upd s.pc f .out }, [.failed f])
        | .tried => some ({ s with mem := m, pc := upd s.pc f .look }, [])
        | .slept k => some ({ s with mem := m, pc := upd s.pc f (.sleeping k) }, [])
    | _ => none
  | .resume f =>
    match s.pc f with
    | .sleeping k => some ({ s with pc := upd s.pc f (.want k) }, [])
    | _ => none
  | .expire f =>
    match s.pc f with
    | .sleeping .lockUntil => some ({ s with pc := upd s.pc f .wantErase }, [])
    | _ => none
  -- `src/timed_mutex.cpp:25-27`, `src/recursive_timed_mutex.cpp:25-27`
  | .late f =>
    match s.pc f with
    | .want .lockUntil => some ({ s with pc := upd s.pc f .out }, [.failed f])
    | _ => none
  | .use f x =>
    if s.pc f = .out ∧ 0 < s.held f ∧ isData x then some (s.acc f x true .out) else none

end Verif.WeakMutex
