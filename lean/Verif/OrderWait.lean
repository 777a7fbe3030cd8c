import Verif.Base

/-!
# Fibers that wait in an order

Fibers of a program that lock mutexes (`mutex`, `recursive_mutex`), set and wait for promises, and launch and join fibers. The wait queues of all these objects are modelled: a fiber that has to wait is
suspended until somebody wakes it.

Simplifications: operations on the objects are single steps (they are critical sections without waiting inside, see `Verif/Monitor.lean`); `set_value` is two, since it wakes the waiting
fibers after it has released the lock (`future/detail/shared_state.hpp:47-52`). Which fiber runs next is arbitrary: all scheduling algorithms and all numbers of threads are covered. Values are
numbers. What a program does besides is in `choose`: a number from anywhere (input, time, shared data) decides how it goes on. Programs are finite, but may be arbitrarily large.
-/

namespace Verif.OrderWait

abbrev Fid := Nat

/-- What fibers wait for. -/
inductive Rsc
  | mtx (m : Nat)
  | fut (p : Nat)
  /-- the end of a fiber -/
  | fib (f : Fid)
  /-- the launch of a fiber (nobody waits for that, but for what the fiber is to do) -/
  | start (f : Fid)
  deriving DecidableEq, Repr

/-- What a fiber does. -/
inductive Prog
  | done
  /-- `mutex::lock`, `src/mutex.cpp:25-42`; `recursive_mutex::lock`, `src/recursive_mutex.cpp:23-40` -/
  | lock (m : Nat) (k : Prog)
  /-- `try_lock`, `src/mutex.cpp:45-60`, `src/recursive_mutex.cpp:43-56` -/
  | tryLock (m : Nat) (k : Bool → Prog)
  /-- `timed_mutex::try_lock_until`, `src/timed_mutex.cpp:23-38`, `src/recursive_timed_mutex.cpp:23-44` -/
  | tryLockUntil (m : Nat) (k : Bool → Prog)
  /-- `unlock`, `src/mutex.cpp:63-74`, `src/recursive_mutex.cpp:59-71` -/
  | unlock (m : Nat) (k : Prog)
  /-- `promise::set_value`, `shared_state.hpp:47-52,162-178` -/
  | set (p : Nat) (v : Nat) (k : Prog)
  /-- the second part of `set_value`: `waiters_.notify_all()`, `shared_state.hpp:51` -/
  | notify (p : Nat) (k : Prog)
  /-- `future::get`, `shared_state.hpp:78-81,180-187` -/
  | get (p : Nat) (k : Nat → Prog)
  /-- the constructor of `fiber`, `fiber::start_`, `src/fiber.cpp:24-41` -/
  | launch (g : Fid) (k : Prog)
  /-- `fiber::join`, `src/fiber.cpp:44-57`; `context::join`, `src/context.cpp:229-243` (that the handle is joinable is not modelled here; a joiner is woken only by the end of the fiber, so looking again after
waking up, as modelled, is the same as not looking again) -/
  | join (g : Fid) (k : Prog)
  /-- anything else -/
  | choose (k : Nat → Prog)

inductive St
  /-- not launched -/
  | unborn
  | ready
  /-- suspended, in the wait queue of what it waits for -/
  | waits
  | ended
  deriving DecidableEq, Repr

structure State where
  code : Fid → Prog
  st : Fid → St
  owner : Nat → Option Fid
  count : Nat → Nat
  queue : Rsc → List Fid
  val : Nat → Option Nat
  /-- an operation threw: `lock_error`, `promise_already_satisfied`, `fiber_error` -/
  threw : Bool

/-- A program: `n` fibers, fiber 0 is the one it begins with. -/
structure Config where
  n : Nat
  recursive : Nat → Bool
  prog : Fid → Prog

def put {α β : Type} [DecidableEq α] (f : α → β) (a : α) (b : β) : α → β := fun x => if x = a then b else f x

def init (c : Config) : State where
  code := c.prog
  st f := if f = 0 then .ready else .unborn
  owner _ := none
  count _ := 0
  queue _ := []
  val _ := none
  threw := false

inductive Event
  /-- fiber `f` runs; `x` is what a `choose` gets, and, for `try_lock_until`, 1 says that the time is over -/
  | run (f : Fid) (x : Nat)
  /-- the time of a suspended `try_lock_until` is over -/
  | timeout (f : Fid)

/-- The fiber is added to a wait queue and suspended: `wait_queue::suspend_and_wait`, `src/waker.cpp:17-23`. -/
def suspend (s : State) (f : Fid) (r : Rsc) : State :=
  { s with st := put s.st f .waits, queue := put s.queue r (s.queue r ++ [f]) }

/-- `wait_queue::notify_one`, `src/waker.cpp:50-58` -/
def notifyOne (s : State) (r : Rsc) : State :=
  match s.queue r with
  | [] => s
  | g :: q => { s with st := put s.st g .ready, queue := put s.queue r q }

/-- `wait_queue::notify_all`, `src/waker.cpp:61-67` -/
def notifyAll (s : State) (r : Rsc) : State :=
  { s with st := fun g => if g ∈ s.queue r then .ready else s.st g, queue := put s.queue r [] }

def setCode (s : State) (f : Fid) (k : Prog) : State := { s with code := put s.code f k }

/-- The fiber becomes the owner of a mutex. -/
def own (s : State) (f : Fid) (m : Nat) : State := { s with owner := put s.owner m (some f), count := put s.count m 1 }

def again (s : State) (m : Nat) : State := { s with count := put s.count m (s.count m + 1) }

/-- An exception leaves the fiber's function. (The program is terminated then.) -/
def throws (s : State) (f : Fid) : State := { s with threw := true, st := put s.st f .ended }

/-- One step of the program of fiber `f`. -/
def runs (c : Config) (s : State) (f : Fid) (x : Nat) : Prog → State
  -- `context::terminate`, `src/context.cpp:265-280`
  | .done => notifyAll { s with st := put s.st f .ended } (.fib f)
  | .lock m k =>
    if s.owner m = some f then
      if c.recursive m then setCode (again s m) f k else throws s f
    else if s.owner m = none then setCode (own s f m) f k
    else suspend s f (.mtx m)
  | .tryLock m k =>
    if s.owner m = some f then
      if c.recursive m then setCode (again s m) f (k true) else throws s f
    else if s.owner m = none then setCode (own s f m) f (k true)
    else setCode s f (k false)
  | .tryLockUntil m k =>
    if x = 1 then setCode s f (k false)
    else if s.owner m = some f ∧ c.recursive m = true then setCode (again s m) f (k true)
    else if s.owner m = none then setCode (own s f m) f (k true)
    else suspend s f (.mtx m)
  | .unlock m k =>
    if s.owner m ≠ some f then throws s f
    else if c.recursive m = true ∧ s.count m ≠ 1 then setCode { s with count := put s.count m (s.count m - 1) } f k
    else notifyOne (setCode { s with owner := put s.owner m none, count := put s.count m 0 } f k) (.mtx m)
  | .set p v k => if (s.val p).isSome then throws s f else setCode { s with val := put s.val p (some v) } f (.notify p k)
  | .notify p k => notifyAll (setCode s f k) (.fut p)
  | .get p k =>
    match s.val p with
    | some v => setCode s f (k v)
    | none => suspend s f (.fut p)
  | .launch g k => if s.st g = .unborn then setCode { s with st := put s.st g .ready } f k else throws s f
  | .join g k => if g = f then throws s f else if s.st g = .ended then setCode s f k else suspend s f (.fib g)
  | .choose k => setCode s f (k x)

def step (c : Config) (s : State) : Event → Option (State × List Unit)
  | .run f x => if f < c.n ∧ s.st f = .ready then some (runs c s f x (s.code f), []) else none
  | .timeout f =>
    if s.st f = .waits then
      match s.code f with
      | .tryLockUntil m k => some (setCode { s with st := put s.st f .ready, queue := put s.queue (.mtx m) ((s.queue (.mtx m)).filter (· ≠ f)) } f (k false), [])
      | _ => none
    else none

/-! ## The order -/

/-- Who is to set a promise and to launch a fiber, and the order of waiting. -/
structure Plan where
  rank : Rsc → Nat
  /-- the mutexes that are locked with `try_lock_until` and `try_lock` only -/
  timed : Nat → Bool
  /-- the promises a fiber is to set and the fibers it is to launch -/
  duty : Fid → List Rsc

/-- Fiber `f`, which holds the mutexes and has still to set the promises and to launch the fibers in `held`, may wait for `r`: `r` is below all of them, and below the end of `f`. -/
def Below (P : Plan) (f : Fid) (held : List Rsc) (r : Rsc) : Prop := P.rank r < P.rank (.fib f) ∧ ∀ h ∈ held, P.rank r < P.rank h

/-- The program of fiber `f` follows the order: it waits only for what is below everything it holds or has still to do; it unlocks what it locks, and does its duties. Timed attempts to lock a mutex may be made
at any time, but only if all that wait for the mutex do so with a time limit: one that gives up does not pass on the wake-up it may have got (C03). -/
def Ordered (c : Config) (P : Plan) (f : Fid) : List Rsc → Prog → Prop
  | held, .done => held = []
  | held, .lock m k => P.timed m = false ∧ (Below P f held (.mtx m) ∨ (c.recursive m = true ∧ .mtx m ∈ held)) ∧ Ordered c P f (.mtx m :: held) k
  | held, .tryLock m k => (.mtx m ∈ held → c.recursive m = true) ∧ Ordered c P f (.mtx m :: held) (k true) ∧ Ordered c P f held (k false)
  | held, .tryLockUntil m k => P.timed m = true ∧ Ordered c P f (.mtx m :: held) (k true) ∧ Ordered c P f held (k false)
  | held, .unlock m k => .mtx m ∈ held ∧ Ordered c P f (held.erase (.mtx m)) k
  | held, .set p _ k => .fut p ∈ held ∧ Ordered c P f (held.erase (.fut p)) k
  | held, .notify p k => .fut p ∈ held ∧ Ordered c P f (held.erase (.fut p)) k
  | held, .get p k => Below P f held (.fut p) ∧ (∃ g, g < c.n ∧ .fut p ∈ P.duty g) ∧ ∀ v, Ordered c P f held (k v)
  | held, .launch g k => .start g ∈ held ∧ Ordered c P f (held.erase (.start g)) k
  | held, .join g k => Below P f held (.fib g) ∧ g < c.n ∧ Ordered c P f held k
  | held, .choose k => ∀ x, Ordered c P f held (k x)

/-- No part of the program is the internal second half of `set_value`. -/
def Plain : Prog → Prop
  | .done => True
  | .lock _ k => Plain k
  | .tryLock _ k => ∀ b, Plain (k b)
  | .tryLockUntil _ k => ∀ b, Plain (k b)
  | .unlock _ k => Plain k
  | .set _ _ k => Plain k
  | .notify _ _ => False
  | .get _ k => ∀ v, Plain (k v)
  | .launch _ k => Plain k
  | .join _ k => Plain k
  | .choose k => ∀ x, Plain (k x)

/-- A program whose fibers follow an order. -/
structure Follows (c : Config) (P : Plan) : Prop where
  ordered : ∀ f, f < c.n → Ordered c P f (P.duty f) (c.prog f)
  plain : ∀ f, f < c.n → Plain (c.prog f)
  /-- duties are to set promises and to launch fibers with greater numbers -/
  kinds : ∀ f r, r ∈ P.duty f → (∃ p, r = .fut p) ∨ ∃ g, r = .start g ∧ f < g ∧ g < c.n
  /-- each is the duty of one fiber, once -/
  once : ∀ f, (P.duty f).Nodup
  one : ∀ f g r, r ∈ P.duty f → r ∈ P.duty g → f = g
  /-- each fiber is to be launched, but the first -/
  born : ∀ g, 0 < g → g < c.n → ∃ f, .start g ∈ P.duty f
  /-- a fiber has to be launched before it does its duties and ends -/
  first : ∀ f r, f < c.n → r ∈ P.duty f → P.rank (.start f) ≤ P.rank r
  before : ∀ f, f < c.n → P.rank (.start f) ≤ P.rank (.fib f)

end Verif.OrderWait
