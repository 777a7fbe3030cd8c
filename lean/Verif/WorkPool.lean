import Verif.Base

/-!
# A pool of threads that run fibers until all fibers are done

The program of `examples/work_sharing.cpp` (`doc/migration.qbk`), for any number of threads and of worker fibers, each of which yields any number of times. The main fiber of each thread waits for the number of unfinished fibers to become 0, by a `condition_variable_any` with a `std::mutex`; meanwhile its thread runs worker fibers. `examples/work_stealing.cpp` is the same but for the barrier, and for the queues from which threads take fibers.

Simplifications: a thread whose main fiber is suspended may run any ready worker fiber (`shared_work` takes the first of one queue, `src/algo/shared_work.cpp:41-67`; that a fiber that yields is taken by another thread only after it has been switched from is the subject of `Multi`). An idle thread makes no steps. A thread whose main fiber has been woken may first run other fibers. The barrier's critical sections are single steps. Printing is left out; what a fiber does between two yields is one step, with the observation `ran`.
-/

namespace Verif.WorkPool
open Verif

/-- Where a thread is. The main fiber is suspended from `idle` to `finish`. -/
inductive Pc
  /-- `main` launches fiber `i`, `examples/work_sharing.cpp:99` -/
  | launch (i : Nat)
  /-- `++fiber_count`, `:100` -/
  | incr (i : Nat)
  /-- has not been created, `:103-109` -/
  | notStarted
  /-- calls `wait` of the barrier, `:72`, `:110` -/
  | barrier
  | inBarrier
  /-- locks `mtx_count`, `:73`, `:112` -/
  | lock
  /-- calls the predicate, `:74`, `condition_variable.hpp:86-88` -/
  | check
  /-- locks `wait_queue_splk_`, `condition_variable.hpp:68` -/
  | wait1
  /-- `lt.unlock()`, `condition_variable.hpp:69` -/
  | wait2
  /-- links its waker, suspends, and lets go of `wait_queue_splk_`, `condition_variable.hpp:70` -/
  | wait3
  | idle
  /-- runs worker `w`, `examples/work_sharing.cpp:33-50` -/
  | work (w : Nat)
  /-- `w` locks `mtx_count`, `:52` -/
  | decLock (w : Nat)
  /-- `0 == --fiber_count`, `:53` -/
  | dec (w : Nat)
  /-- unlocks, `:54`, `:57` -/
  | unl (w : Nat) (zero : Bool)
  /-- `notify_all` locks `wait_queue_splk_`, `:55`, `src/condition_variable.cpp:26` -/
  | notLock (w : Nat)
  /-- and wakes the waiting fibers, `src/condition_variable.cpp:27` -/
  | notify (w : Nat)
  /-- `w` terminates -/
  | finish (w : Nat)
  /-- the main fiber has been resumed, and locks `mtx_count` again, `condition_variable.hpp:74` -/
  | relock
  /-- unlocks `mtx_count` after the wait, `examples/work_sharing.cpp:81`, `:119` -/
  | leave
  /-- `main` waits for thread after thread, `:124-126` -/
  | join
  | ended
  deriving DecidableEq, Repr

structure State where
  /-- how often a worker still yields -/
  left : Nat → Nat
  /-- the worker fibers that are ready -/
  ready : List Nat
  /-- `fiber_count` -/
  count : Nat
  /-- `mtx_count` -/
  mtx : Option Nat
  /-- `wait_queue_splk_` of `cnd_count` -/
  splk : Option Nat
  /-- `wait_queue_` of `cnd_count`: threads whose main fibers wait -/
  waiters : List Nat
  /-- threads whose main fibers have been woken -/
  woken : Nat → Bool
  /-- threads that have come to the barrier -/
  arrived : Nat
  pc : Nat → Pc

inductive Obs
  /-- worker `w` has run on thread `t` up to its next yield, or its end -/
  | ran (w t : Nat)
  /-- thread `t` waits no more -/
  | left (t : Nat)
  /-- `main` has joined all threads, and returns -/
  | joined
  deriving DecidableEq, Repr

inductive Event
  /-- thread `t` goes on -/
  | go (t : Nat)
  /-- thread `t` resumes worker `w` -/
  | pick (t w : Nat)
  /-- thread `t` resumes its main fiber -/
  | resume (t : Nat)
  deriving DecidableEq

/-- The number of threads (the main thread is 0), of workers, and how often each yields. -/
structure Cfg where
  n : Nat
  m : Nat
  y : Nat → Nat

def init (c : Cfg) : State where
  left := c.y
  ready := []
  count := 0
  mtx := none
  splk := none
  waiters := []
  woken := fun _ => false
  arrived := 0
  pc := fun t => if t = 0 then .launch 0 else if t < c.n then .notStarted else .ended

def step (c : Cfg) (s : State) : Event → Option (State × List Obs)
  | .go t =>
    match s.pc t with
    | .launch i =>
      if i < c.m then some ({ s with ready := s.ready ++ [i], pc := Verif.upd s.pc t (.incr i) }, [])
      else some ({ s with pc := fun t => if t < c.n then .barrier else .ended }, [])
    | .incr i => some ({ s with count := s.count + 1, pc := Verif.upd s.pc t (.launch (i + 1)) }, [])
    | .barrier => some ({ s with arrived := s.arrived + 1, pc := Verif.upd s.pc t .inBarrier }, [])
    | .inBarrier => if s.arrived = c.n then some ({ s with pc := Verif.upd s.pc t .lock }, []) else none
    | .lock => if s.mtx = none then some ({ s with mtx := some t, pc := Verif.upd s.pc t .check }, []) else none
    | .check => if s.count = 0 then some ({ s with pc := Verif.upd s.pc t .leave }, []) else some ({ s with pc := Verif.upd s.pc t .wait1 }, [])
    | .wait1 => if s.splk = none then some ({ s with splk := some t, pc := Verif.upd s.pc t .wait2 }, []) else none
    | .wait2 => some ({ s with mtx := none, pc := Verif.upd s.pc t .wait3 }, [])
    | .wait3 => some ({ s with waiters := s.waiters ++ [t], splk := none, pc := Verif.upd s.pc t .idle }, [])
    | .work w =>
      if s.left w = 0 then some ({ s with pc := Verif.upd s.pc t (.decLock w) }, [.ran w t])
      else some ({ s with left := Verif.upd s.left w (s.left w - 1), ready := s.ready ++ [w], pc := Verif.upd s.pc t .idle }, [.ran w t])
    | .decLock w => if s.mtx = none then some ({ s with mtx := some t, pc := Verif.upd s.pc t (.dec w) }, []) else none
    | .dec w => some ({ s with count := s.count - 1, pc := Verif.upd s.pc t (.unl w (s.count - 1 = 0)) }, [])
    | .unl w z => some ({ s with mtx := none, pc := Verif.upd s.pc t (if z then .notLock w else .finish w) }, [])
    | .notLock w => if s.splk = none then some ({ s with splk := some t, pc := Verif.upd s.pc t (.notify w) }, []) else none
    | .notify w => some ({ s with splk := none, woken := fun i => s.woken i || decide (i ∈ s.waiters), waiters := [], pc := Verif.upd s.pc t (.finish w) }, [])
    | .finish _ => some ({ s with pc := Verif.upd s.pc t .idle }, [])
    | .relock => if s.mtx = none then some ({ s with mtx := some t, pc := Verif.upd s.pc t .check }, []) else none
    | .leave => some ({ s with mtx := none, pc := Verif.upd s.pc t (if t = 0 then .join else .ended) }, [.left t])
    | .join => if (List.range c.n).all (fun i => i = 0 ∨ s.pc i = .ended) then some ({ s with pc := Verif.upd s.pc t .ended }, [.joined]) else none
    | .notStarted | .idle | .ended => none
  | .pick t w =>
    if s.pc t = .idle ∧ w ∈ s.ready then some ({ s with ready := s.ready.erase w, pc := Verif.upd s.pc t (.work w) }, []) else none
  | .resume t =>
    if s.pc t = .idle ∧ s.woken t then some ({ s with woken := Verif.upd s.woken t false, pc := Verif.upd s.pc t .relock }, []) else none

/-- How often worker `w` has run. -/
def rounds (w : Nat) (tr : List Obs) : Nat := tr.countP fun o => match o with | .ran w' _ => w' = w | _ => false

end Verif.WorkPool
