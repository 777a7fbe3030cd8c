import Verif.Base

/-!
# The barrier of threads: `detail/thread_barrier.hpp` (and `performance/fiber/barrier.hpp`, the same class)

A call of `wait()` holds the mutex from `:46` until it unlocks (`:51`) or waits (`:55`): this is one step. `std::condition_variable` may wake a thread at
any moment (event `wake`); a thread that is awake takes the mutex again and looks at the predicate (`:55`).

Simplifications: threads are numbers, those below `threads` use the barrier. The number of calls made and the number of the call that a thread is in,
counted from 0, are not in the code: they name calls in observations.
-/

namespace Verif.ThreadBarrier

/-- `initial_` (`thread_barrier.hpp:29`) and the number of threads that use the barrier. -/
structure Prog where
  n : Nat
  threads : Nat

/-- Where a thread is in `wait()` (`thread_barrier.hpp:45-57`); `c` is its local variable `cycle` (`:47`). -/
inductive Pc
  | idle                       -- not in `wait()`
  | asleep (c : Bool)          -- in `cond_.wait` (`:55`)
  | awake (c : Bool)           -- woken, before the mutex is taken again (`:55`)
  | notify                     -- before `cond_.notify_all()` (`:52`)
  deriving DecidableEq

/-- `current_`, `cycle_` (`thread_barrier.hpp:30-31`), the threads, and how calls are numbered. -/
structure State where
  current : Nat
  cycle : Bool
  pc : Nat → Pc
  calls : Nat
  idx : Nat → Nat

/-- `call t k`: thread `t` makes the call number `k`; `ret t k b`: this call returns `b`. -/
inductive Obs
  | call (t k : Nat)
  | ret (t k : Nat) (b : Bool)
  deriving DecidableEq

/-- The next action of a thread, or a wakeup by the condition variable without a notification. -/
inductive Event
  | call (t : Nat)
  | go (t : Nat)
  | wake (t : Nat)

/-- The constructor (`thread_barrier.hpp:36-40`). -/
def init (P : Prog) : State := { current := P.n, cycle := true, pc := fun _ => .idle, calls := 0, idx := fun _ => 0 }

/-- `notify_all`: who waits is woken. -/
def wakeAll (f : Nat → Pc) (t : Nat) : Pc :=
  match f t with
  | .asleep c => .awake c
  | x => x

/-- One action (`thread_barrier::wait`, `thread_barrier.hpp:45-57`). -/
def step (P : Prog) (s : State) : Event → Option (State × List Obs)
  | .call t =>
    if t < P.threads ∧ s.pc t = .idle then
      if s.current - 1 = 0 then
        some ({ s with cycle := !s.cycle, current := P.n, pc := upd s.pc t .notify, calls := s.calls + 1, idx := upd s.idx t s.calls }, [.call t s.calls])
      else
        some ({ s with current := s.current - 1, pc := upd s.pc t (.asleep s.cycle), calls := s.calls + 1, idx := upd s.idx t s.calls }, [.call t s.calls])
    else none
  | .go t =>
    match s.pc t with
    | .notify => some ({ s with pc := wakeAll (upd s.pc t .idle) }, [.ret t (s.idx t) true])
    | .awake c =>
      if s.cycle = c then some ({ s with pc := upd s.pc t (.asleep c) }, [])
      else some ({ s with pc := upd s.pc t .idle }, [.ret t (s.idx t) false])
    | _ => none
  | .wake t =>
    match s.pc t with
    | .asleep c => some ({ s with pc := upd s.pc t (.awake c) }, [])
    | _ => none

end Verif.ThreadBarrier
