import Verif.Weak
import Verif.Spinlock

/-!
# Spinlocks under weak memory

The four spinlock classes once more, on the memory of `Verif/Weak.lean`, with the memory orders of the code. Threads use
data (non-atomic locations) while they hold the lock. Location 0 is `state_` or `value_`, location 1 is `retries_`; data are the
locations from 2 on.

Every event carries the timestamp of the message that is read or written, that is, it decides which of the values the memory
model allows is read.
-/

namespace Verif

/-- What a user of a spinlock sees. -/
inductive WlObs
  | lock (o : SlObs)
  /-- data `x` is used, and all former uses are visible -/
  | used (w x : Nat)
  /-- data race: data `x` is used although a former use of it does not happen before -/
  | race (w x : Nat)
  deriving DecidableEq, Repr

def WlObs.lock? : WlObs → Option SlObs
  | .lock o => some o
  | _ => none

/-- A use of data `x` by thread `w`. -/
def useData (m : Weak.Mem) (w x : Nat) : Weak.Mem × List WlObs :=
  ((Weak.touch m w x).2, [if (Weak.touch m w x).1 then .race w x else .used w x])

namespace WeakTtas

open Weak
open Ttas (Pc spun estimate)

structure State where
  adaptive : Bool
  mem : Mem
  pc : Nat → Pc

/-- `state_` is unlocked (0), `retries_` is 0. -/
def init (adaptive : Bool) : State := ⟨adaptive, Weak.start (fun _ => 0), fun _ => .out⟩

inductive Event
  | lock (w : Nat)
  | tryLock (w t : Nat)
  | unlock (w t : Nat)
  | step (w t : Nat)
  | use (w x : Nat)
  deriving DecidableEq, Repr

/-- The beginning of a turn of the outer loop (`ttas:45`, `adaptive:46-48`). -/
def begin_ (s : State) : Pc := if s.adaptive then .prev else .test 0 0

def step (s : State) : Event → Option (State × List WlObs)
  | .lock w => if s.pc w = .out then some ({ s with pc := upd s.pc w (begin_ s) }, []) else none
  -- `exchange( locked, acquire)`, `detail/spinlock_ttas.hpp:107-109`, `spinlock_ttas_adaptive.hpp:114-116`
  | .tryLock w t =>
    if s.pc w = .out then
      match rmw s.mem w 0 t (fun _ => 1) true false with
      | none => none
      | some (v, m) =>
        if v = 0 then some ({ s with mem := m, pc := upd s.pc w .inside }, [.lock (.locked w)])
        else some ({ s with mem := m }, [.lock (.failed w)])
    else none
  -- `store( unlocked, release)`, `detail/spinlock_ttas.hpp:111-113`, `spinlock_ttas_adaptive.hpp:118-120`
  | .unlock w t =>
    if s.pc w = .inside then
      match store s.mem w 0 t 0 true with
      | none => none
      | some m => some ({ s with mem := m, pc := upd s.pc w .out }, [.lock (.unlocked w)])
    else none
  | .use w x =>
    if s.pc w = .inside ∧ 2 ≤ x then some ({ s with mem := (useData s.mem w x).1 }, (useData s.mem w x).2) else none
  | .step w t =>
    match s.pc w with
    -- `retries_.load( relaxed)`, `adaptive:48`
    | .prev =>
      match load s.mem w 1 t false with
      | none => none
      | some (v, m) => some ({ s with mem := m, pc := upd s.pc w (.test v 0) }, [])
    -- `state_.load( relaxed)`, `ttas:57`, `adaptive:63`
    | .test p r =>
      match load s.mem w 0 t false with
      | none => none
      | some (v, m) =>
        if v = 0 then some ({ s with mem := m, pc := upd s.pc w (.xchg p r) }, [])
        else some ({ s with mem := m, pc := upd s.pc w (.test p (if s.adaptive then spun p r else 0)) }, [])
    -- `state_.exchange( locked, acquire)`, `ttas:87`, `adaptive:93`
    | .xchg p r =>
      match rmw s.mem w 0 t (fun _ => 1) true false with
      | none => none
      | some (v, m) =>
        if v = 0 then
          if s.adaptive then some ({ s with mem := m, pc := upd s.pc w (.save p r) }, [])
          else some ({ s with mem := m, pc := upd s.pc w .inside }, [.lock (.locked w)])
        else some ({ s with mem := m, pc := upd s.pc w (begin_ s) }, [])
    -- `retries_.store( …, relaxed)`, `adaptive:107`
    | .save p r =>
      match store s.mem w 1 t (estimate p r) false with
      | none => none
      | some m => some ({ s with mem := m, pc := upd s.pc w .inside }, [.lock (.locked w)])
    | _ => none

end WeakTtas

namespace WeakFtx

open Weak
open Ftx (Pc)

structure State where
  adaptive : Bool
  /-- Every read-modify-write is also a release operation, as on x86 processors; the code asks for acquire only. -/
  strong : Bool
  /-- `BOOST_FIBERS_RETRY_THRESHOLD` -/
  limit : Nat
  mem : Mem
  pc : Nat → Pc

/-- `value_` and `retries_` are 0. `retries_` may become negative; its value decides nothing and is taken modulo sign. -/
def init (adaptive strong : Bool) (limit : Nat) : State := ⟨adaptive, strong, limit, Weak.start (fun _ => 0), fun _ => .out⟩

inductive Event
  | lock (w : Nat)
  | tryLock (w t : Nat)
  | unlock (w t : Nat)
  | step (w t : Nat)
  | use (w x : Nat)
  deriving DecidableEq, Repr

/-- Having got the lock: `return` (`futex:98,110`) or store `retries_` first (`adaptive:105,119`). -/
def got (s : State) (w : Nat) (p : Int) (r : Nat) : State × List WlObs :=
  if s.adaptive then ({ s with pc := upd s.pc w (.save p r) }, []) else ({ s with pc := upd s.pc w .inside }, [.lock (.locked w)])

/-- `value_.exchange( 2, acquire)` and the test `0 != expected` (`futex:104-110`, `adaptive:111-117`). -/
def exchange (s : State) (w t : Nat) (p : Int) (r : Nat) : Option (State × List WlObs) :=
  match rmw s.mem w 0 t (fun _ => 2) true s.strong with
  | none => none
  | some (v, m) => if v = 0 then some (got { s with mem := m } w p r) else some ({ s with mem := m, pc := upd s.pc w (.wait p r) }, [])

def step (s : State) : Event → Option (State × List WlObs)
  | .lock w => if s.pc w = .out then some ({ s with pc := upd s.pc w (if s.adaptive then .prev else .loop 0 0 0) }, []) else none
  -- `compare_exchange_strong( 0, 1, acquire)`, `detail/spinlock_ttas_futex.hpp:113-116`, `spinlock_ttas_adaptive_futex.hpp:122-125`
  | .tryLock w t =>
    if s.pc w = .out then
      match cas s.mem w 0 t 0 1 true s.strong true with
      | none => none
      | some (b, _, m) =>
        if b then some ({ s with mem := m, pc := upd s.pc w .inside }, [.lock (.locked w)]) else some ({ s with mem := m }, [.lock (.failed w)])
    else none
  -- `fetch_sub( 1, acquire)`, `detail/spinlock_ttas_futex.hpp:119`, `spinlock_ttas_adaptive_futex.hpp:128`
  | .unlock w t =>
    if s.pc w = .inside then
      match rmw s.mem w 0 t (fun v => v - 1) true s.strong with
      | none => none
      | some (v, m) => some ({ s with mem := m, pc := upd s.pc w (if v = 1 then .out else .zero) }, [.lock (.unlocked w)])
    else none
  | .use w x =>
    if s.pc w = .inside ∧ 2 ≤ x then some ({ s with mem := (useData s.mem w x).1 }, (useData s.mem w x).2) else none
  | .step w t =>
    match s.pc w with
    -- `retries_.load( relaxed)`, `adaptive:45`
    | .prev =>
      match load s.mem w 1 t false with
      | none => none
      | some (v, m) => some ({ s with mem := m, pc := upd s.pc w (.loop v 0 0) }, [])
    | .loop p r e =>
      if r < s.limit then
        -- `value_.load( relaxed)`, `futex:56`, `adaptive:62`
        match load s.mem w 0 t false with
        | none => none
        | some (v, m) =>
          if v ≠ 0 then some ({ s with mem := m, pc := upd s.pc w (.loop p (r + 1) v) }, [])
          else some ({ s with mem := m, pc := upd s.pc w (.cas p (r + 1)) }, [])
      else if e ≠ 2 then some ({ s with pc := upd s.pc w (.first p (r + 1)) }, [])
      else some ({ s with pc := upd s.pc w (.wait p (r + 1)) }, [])
    -- `compare_exchange_strong( 0, 1, acquire)`, `futex:84`, `adaptive:90`
    | .cas p r =>
      match cas s.mem w 0 t 0 1 true s.strong true with
      | none => none
      | some (b, v, m) =>
        if b then some (got { s with mem := m } w p r)
        else some ({ s with mem := m, pc := upd s.pc w (.loop p r v) }, [])
    | .first p r => exchange s w t p r
    -- `futex_wait` (`futex:108`, `adaptive:115`) returns at an arbitrary moment; see `Verif/Spinlock.lean` for lost wake-ups
    | .wait p r => some ({ s with pc := upd s.pc w (.again p r) }, [])
    | .again p r => exchange s w t p r
    -- `retries_.store( …, relaxed)`, `adaptive:105,119`
    | .save p r =>
      match store s.mem w 1 t (p + Int.tdiv (r - p) 8).natAbs false with
      | none => none
      | some m => some ({ s with mem := m, pc := upd s.pc w .inside }, [.lock (.locked w)])
    -- `value_.store( 0, release)`, `futex:120`, `adaptive:129`; `futex_wake` does not change memory
    | .zero =>
      match store s.mem w 0 t 0 true with
      | none => none
      | some m => some ({ s with mem := m, pc := upd s.pc w .out }, [])
    | _ => none

end WeakFtx

end Verif
