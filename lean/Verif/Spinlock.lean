import Verif.Base

/-!
# Spinlocks

The four spinlock classes (`detail/spinlock.hpp:46-76` selects one of them at compile time), one atomic operation per
step. `cpu_relax`, `sleep_for(0)`, `yield` and the random back-off after a collision only delay the thread: they are
the freedom of the schedule. `spinlock_rtm` (hardware transactions) is modelled in `Verif.Rtm`; `std::mutex` as spinlock is not modelled.
-/

namespace Verif

/-- A thread (or fiber) that uses a spinlock. -/
abbrev Who := Nat

/-- What a user of a spinlock sees. -/
inductive SlObs
  /-- `lock()` or `try_lock()` returned with the lock held. -/
  | locked (t : Who)
  /-- `try_lock()` returned `false`. -/
  | failed (t : Who)
  /-- `unlock()` was called by the holder. -/
  | unlocked (t : Who)
  deriving DecidableEq, Repr

/-- `BOOST_FIBERS_SPIN_BEFORE_SLEEP0`, `detail/config.hpp:58-60`. -/
def SLEEP0 : Nat := 32

/-- `BOOST_FIBERS_SPIN_BEFORE_YIELD`, `detail/config.hpp:62-64`. -/
def YIELD : Nat := 64

/-- 2 ^ 64: `std::size_t` on 64-bit platforms. -/
def SIZE : Nat := 2 ^ 64

namespace Ttas

/-- Where a thread is in `lock()` of `spinlock_ttas` (`detail/spinlock_ttas.hpp:42-105`) or `spinlock_ttas_adaptive`
(`detail/spinlock_ttas_adaptive.hpp:43-112`); `p` is `prev_retries`, `r` is `retries` (0 if not adaptive). -/
inductive Pc
  | out
  /-- adaptive only: about to load `retries_` (line 48) -/
  | prev
  /-- about to load `state_` in the `while` condition (`ttas:58`, `adaptive:63`) -/
  | test (p r : Nat)
  /-- about to exchange (`ttas:85`, `adaptive:92`) -/
  | xchg (p r : Nat)
  /-- adaptive only: has the lock, about to store `retries_` (line 105) -/
  | save (p r : Nat)
  /-- holds the lock -/
  | inside
  deriving DecidableEq, Repr

structure State where
  adaptive : Bool
  /-- `state_ == spinlock_status::locked` -/
  locked : Bool
  /-- `retries_` of `spinlock_ttas_adaptive` -/
  retries : Nat
  pc : Who → Pc

def init (adaptive : Bool) : State := ⟨adaptive, false, 0, fun _ => .out⟩

inductive Event
  | lock (t : Who)
  | tryLock (t : Who)
  | unlock (t : Who)
  | step (t : Who)
  deriving DecidableEq, Repr

/-- `retries` after another unsuccessful test, `detail/spinlock_ttas_adaptive.hpp:49-52,65-84`. -/
def spun (p r : Nat) : Nat :=
  if min SLEEP0 ((2 * p + 10) % SIZE) > r ∨ min YIELD ((2 * p + 10) % SIZE) > r then r + 1 else r

/-- `prev_retries + (retries - prev_retries) / 8` in `std::size_t`, `detail/spinlock_ttas_adaptive.hpp:107`. -/
def estimate (p r : Nat) : Nat := (p + (r + SIZE - p) % SIZE / 8) % SIZE

/-- The beginning of a turn of the outer loop (`ttas:45`, `adaptive:46-48`). -/
def start (s : State) : Pc := if s.adaptive then .prev else .test 0 0

def step (s : State) : Event → Option (State × List SlObs)
  | .lock t => if s.pc t = .out then some ({ s with pc := upd s.pc t (start s) }, []) else none
  -- `try_lock`, `detail/spinlock_ttas.hpp:107-109`, `spinlock_ttas_adaptive.hpp:114-116`
  | .tryLock t =>
    if s.pc t = .out then
      if s.locked then some ({ s with locked := true }, [.failed t])
      else some ({ s with locked := true, pc := upd s.pc t .inside }, [.locked t])
    else none
  -- `unlock`, `detail/spinlock_ttas.hpp:111-113`, `spinlock_ttas_adaptive.hpp:118-120`
  | .unlock t => if s.pc t = .inside then some ({ s with locked := false, pc := upd s.pc t .out }, [.unlocked t]) else none
  | .step t =>
    match s.pc t with
    | .prev => some ({ s with pc := upd s.pc t (.test s.retries 0) }, [])
    | .test p r =>
      if s.locked then some ({ s with pc := upd s.pc t (.test p (if s.adaptive then spun p r else 0)) }, [])
      else some ({ s with pc := upd s.pc t (.xchg p r) }, [])
    | .xchg p r =>
      if s.locked then some ({ s with locked := true, pc := upd s.pc t (start s) }, [])
      else if s.adaptive then some ({ s with locked := true, pc := upd s.pc t (.save p r) }, [])
      else some ({ s with locked := true, pc := upd s.pc t .inside }, [.locked t])
    | .save p r => some ({ s with retries := estimate p r, pc := upd s.pc t .inside }, [.locked t])
    | _ => none

end Ttas

namespace Ftx

/-- Where a thread is in `lock()` or `unlock()` of `spinlock_ttas_futex` (`detail/spinlock_ttas_futex.hpp:41-123`) or
`spinlock_ttas_adaptive_futex` (`detail/spinlock_ttas_adaptive_futex.hpp:42-132`); `p` is `prev_retries` (0 if not adaptive),
`r` is `retries`, `e` is `expected`. -/
inductive Pc
  | out
  /-- adaptive only: about to load `retries_` (line 45) -/
  | prev
  /-- at the `while` condition; the load of `value_` follows (`futex:45,56`, `adaptive:51,62`) -/
  | loop (p : Int) (r : Nat) (e : Nat)
  /-- about to compare-exchange (`futex:80`, `adaptive:86`) -/
  | cas (p : Int) (r : Nat)
  /-- about to exchange because `expected` is not 2 (`futex:104`, `adaptive:111`) -/
  | first (p : Int) (r : Nat)
  /-- about to call `futex_wait` (`futex:107`, `adaptive:114`) -/
  | wait (p : Int) (r : Nat)
  /-- suspended in `futex_wait` -/
  | asleep (p : Int) (r : Nat)
  /-- about to exchange after `futex_wait` (`futex:108`, `adaptive:115`) -/
  | again (p : Int) (r : Nat)
  /-- adaptive only: has the lock, about to store `retries_` (lines 101 and 118) -/
  | save (p : Int) (r : Nat)
  /-- holds the lock -/
  | inside
  /-- in `unlock`, about to store 0 (`futex:120`, `adaptive:129`) -/
  | zero
  /-- in `unlock`, about to call `futex_wake` (`futex:121`, `adaptive:130`) -/
  | wake
  deriving DecidableEq, Repr

structure State where
  adaptive : Bool
  /-- `BOOST_FIBERS_RETRY_THRESHOLD` -/
  limit : Nat
  /-- `value_` -/
  value : Nat
  /-- `retries_` of `spinlock_ttas_adaptive_futex` -/
  retries : Int
  /-- the kernel's queue of threads suspended on `value_` -/
  sleepers : List Who
  pc : Who → Pc

def init (adaptive : Bool) (limit : Nat) : State := ⟨adaptive, limit, 0, 0, [], fun _ => .out⟩

inductive Event
  | lock (t : Who)
  | tryLock (t : Who)
  | unlock (t : Who)
  | step (t : Who)
  /-- `futex_wake` of thread `t` wakes the `k`-th sleeper -/
  | wake (t : Who) (k : Nat)
  /-- `futex_wait` returns for another reason (a signal) -/
  | spurious (t : Who)
  deriving DecidableEq, Repr

/-- Having got the lock: `return` (`futex:97,110`) or store `retries_` first (`adaptive:101,118`). -/
def got (s : State) (t : Who) (p : Int) (r : Nat) : State × List SlObs :=
  if s.adaptive then ({ s with pc := upd s.pc t (.save p r) }, []) else ({ s with pc := upd s.pc t .inside }, [.locked t])

/-- `value_.exchange( 2)` and the test `0 != expected` (`futex:104-109`, `adaptive:111-116`). -/
def exchange (s : State) (t : Who) (p : Int) (r : Nat) : State × List SlObs :=
  if s.value = 0 then got { s with value := 2 } t p r else ({ s with value := 2, pc := upd s.pc t (.wait p r) }, [])

def step (s : State) : Event → Option (State × List SlObs)
  | .lock t => if s.pc t = .out then some ({ s with pc := upd s.pc t (if s.adaptive then .prev else .loop 0 0 0) }, []) else none
  -- `try_lock`, `detail/spinlock_ttas_futex.hpp:113-116`, `spinlock_ttas_adaptive_futex.hpp:122-125`
  | .tryLock t =>
    if s.pc t = .out then
      if s.value = 0 then some ({ s with value := 1, pc := upd s.pc t .inside }, [.locked t]) else some (s, [.failed t])
    else none
  -- the `fetch_sub` of `unlock`, `detail/spinlock_ttas_futex.hpp:119`, `spinlock_ttas_adaptive_futex.hpp:128`
  | .unlock t =>
    if s.pc t = .inside then
      some ({ s with value := s.value - 1, pc := upd s.pc t (if s.value = 1 then .out else .zero) }, [.unlocked t])
    else none
  | .wake t k =>
    if s.pc t = .wake then
      match s.sleepers[k]? with
      | some u =>
        match s.pc u with
        | .asleep p r => some ({ s with sleepers := s.sleepers.eraseIdx k, pc := upd (upd s.pc t .out) u (.again p r) }, [])
        | _ => none
      | none => if s.sleepers = [] then some ({ s with pc := upd s.pc t .out }, []) else none
    else none
  | .spurious t =>
    match s.pc t with
    | .asleep p r => some ({ s with sleepers := s.sleepers.filter (fun u => decide (u ≠ t)), pc := upd s.pc t (.again p r) }, [])
    | _ => none
  | .step t =>
    match s.pc t with
    | .prev => some ({ s with pc := upd s.pc t (.loop s.retries 0 0) }, [])
    | .loop p r e =>
      if r < s.limit then
        if s.value ≠ 0 then some ({ s with pc := upd s.pc t (.loop p (r + 1) s.value) }, [])
        else some ({ s with pc := upd s.pc t (.cas p (r + 1)) }, [])
      -- the test of `expected` reads no shared variable; it is joined to the operation that follows it
      else if e ≠ 2 then some ({ s with pc := upd s.pc t (.first p (r + 1)) }, [])
      else some ({ s with pc := upd s.pc t (.wait p (r + 1)) }, [])
    | .cas p r =>
      if s.value = 0 then some (got { s with value := 1 } t p r)
      else some ({ s with pc := upd s.pc t (.loop p r s.value) }, [])
    | .first p r => some (exchange s t p r)
    | .wait p r =>
      -- the kernel compares `value_` with 2 and suspends the thread in one atomic action (`detail/futex.hpp:58-60`)
      if s.value = 2 then some ({ s with sleepers := s.sleepers ++ [t], pc := upd s.pc t (.asleep p r) }, [])
      else some ({ s with pc := upd s.pc t (.again p r) }, [])
    | .again p r => some (exchange s t p r)
    | .save p r => some ({ s with retries := p + Int.tdiv (r - p) 8, pc := upd s.pc t .inside }, [.locked t])
    | .zero => some ({ s with value := 0, pc := upd s.pc t .wake }, [])
    | _ => none

end Ftx

end Verif
