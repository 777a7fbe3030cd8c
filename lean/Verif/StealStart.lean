import Verif.Base

/-!
# Starting work-stealing threads

The constructors of `algo::work_stealing` (`src/algo/work_stealing.cpp:26-47`) and `numa::algo::work_stealing`
(`src/numa/algo/work_stealing.cpp:52-89`), the barrier they use (`include/boost/fiber/detail/thread_barrier.hpp:27-58`), and the access to the
scheduler that is stolen from (`src/algo/work_stealing.cpp:66-81`, `src/numa/algo/work_stealing.cpp:115-127,136-147`).

* The static variables of the two classes are independent; a run of the machine is about one of the classes (`numa`).
* Initialisation of a static local variable and `std::call_once` happen once, before anybody passes.
* The mutex of the barrier is held from `wait()` to its end or to the wait on the condition variable, so arriving is one event; a
  waiting thread may look at `cycle_` again at any time (it does so when it is notified, or spuriously).
* The pick itself, and what it finds in the queues, is in `Verif/Steal.lean`.
-/

namespace Verif.StealStart

/-- The arguments of the constructor. -/
inductive Req
  /-- `work_stealing( n)` -/
  | plain (n : Nat)
  /-- `numa::work_stealing( cpu, …, topo)`; `cpus`: the logical CPUs of all nodes of `topo` -/
  | numa (cpu : Nat) (cpus : List Nat)
  deriving DecidableEq, Repr

/-- `thread_count`: `src/algo/work_stealing.cpp:36`, `src/numa/algo/work_stealing.cpp:78-81`. -/
def Req.count : Req → Nat
  | .plain n => n
  | .numa _ cpus => cpus.length

/-- How long `init_` makes `schedulers_`: `src/algo/work_stealing.cpp:33`, `src/numa/algo/work_stealing.cpp:55-63`. -/
def Req.size : Req → Nat
  | .plain n => n
  | .numa _ cpus => cpus.foldl max 0 + 1

/-- From whom the thread may steal (apart from itself): `src/algo/work_stealing.cpp:69-78`,
`src/numa/algo/work_stealing.cpp:111-122,136-142`. -/
def Req.victims : Req → List Nat
  | .plain n => List.range n
  | .numa _ cpus => cpus

inductive Pc
  | none
  /-- in the constructor, with its place in `schedulers_`; before: the barrier is made if need be -/
  | born (r : Req) (i : Nat)
  /-- before: `call_once` -/
  | once (r : Req) (i : Nat)
  /-- before: it registers -/
  | reg (r : Req) (i : Nat)
  /-- before: `b.wait()` -/
  | arrive (r : Req) (i : Nat)
  /-- waits for the end of the cycle `c` -/
  | wait (r : Req) (i : Nat) (c : Bool)
  /-- the constructor has returned -/
  | runs (r : Req) (i : Nat)
  /-- the thread has ended -/
  | gone
  /-- undefined behaviour -/
  | bad
  deriving DecidableEq, Repr

inductive Obs
  /-- thread `w` calls the constructor; `i`: its place in `schedulers_` -/
  | made (w : Nat) (r : Req)
  /-- the constructor returns -/
  | left (w : Nat)
  /-- thread `w` asks the scheduler of thread `v` for work -/
  | asked (w v : Nat)
  | ended (w : Nat)
  /-- access outside `schedulers_`, to a null pointer, or a barrier for nobody -/
  | ub (w : Nat)
  deriving DecidableEq, Repr

structure State where
  /-- `counter_` -/
  counter : Nat
  /-- `b`: `initial_`, `current_`, `cycle_` -/
  bar : Option (Nat × Nat × Bool)
  /-- `schedulers_`: its size, and whose scheduler is where -/
  size : Option Nat
  slot : Nat → Option Nat
  pc : Nat → Pc

def init : State := ⟨0, none, none, fun _ => none, fun _ => .none⟩

inductive Event
  | make (w : Nat) (r : Req)
  /-- the next step of the constructor -/
  | go (w : Nat)
  /-- the thread has no work and picks place `i` to steal from -/
  | ask (w : Nat) (i : Nat)
  | end_ (w : Nat)
  deriving DecidableEq, Repr

def State.bad (s : State) (w : Nat) : State × List Obs := ({ s with pc := upd s.pc w .bad }, [.ub w])

def step (s : State) : Event → Option (State × List Obs)
  | .make w r =>
    match s.pc w, r with
    -- `id_{ counter_++ }`, `src/algo/work_stealing.cpp:37`
    | .none, .plain _ => some ({ s with counter := s.counter + 1, pc := upd s.pc w (.born r s.counter) }, [.made w r])
    | .none, .numa cpu _ => some ({ s with pc := upd s.pc w (.born r cpu) }, [.made w r])
    | _, _ => none
  | .go w =>
    match s.pc w with
    -- `static thread_barrier b{ thread_count }`, with `BOOST_ASSERT( 0 != initial)`
    | .born r i =>
      match s.bar with
      | some _ => some ({ s with pc := upd s.pc w (.once r i) }, [])
      | none =>
        if r.count = 0 then some (s.bad w)
        else some ({ s with bar := some (r.count, r.count, true), pc := upd s.pc w (.once r i) }, [])
    -- `std::call_once( flag, & work_stealing::init_, …)`
    | .once r i =>
      match s.size with
      | some _ => some ({ s with pc := upd s.pc w (.reg r i) }, [])
      | none => some ({ s with size := some r.size, slot := fun _ => none, pc := upd s.pc w (.reg r i) }, [])
    -- `schedulers_[id_] = this`
    | .reg r i =>
      match s.size with
      | some n =>
        if i < n then some ({ s with slot := upd s.slot i (some w), pc := upd s.pc w (.arrive r i) }, []) else some (s.bad w)
      | none => some (s.bad w)
    -- `thread_barrier::wait()`, `thread_barrier.hpp:46-54`
    | .arrive r i =>
      match s.bar with
      | some (n, c, y) =>
        if c - 1 = 0 then some ({ s with bar := some (n, n, !y), pc := upd s.pc w (.runs r i) }, [.left w])
        else some ({ s with bar := some (n, c - 1, y), pc := upd s.pc w (.wait r i y) }, [])
      | none => some (s.bad w)
    -- `cond_.wait( lk, [&](){ return cycle != cycle_; })`, `thread_barrier.hpp:55`
    | .wait r i y =>
      match s.bar with
      | some (_, _, y') => if y ≠ y' then some ({ s with pc := upd s.pc w (.runs r i) }, [.left w]) else none
      | none => none
    | _ => none
  -- `schedulers_[id]->steal()`
  | .ask w i =>
    match s.pc w with
    | .runs r j =>
      if i ∈ r.victims ∧ i ≠ j then
        match s.size, s.slot i with
        | some n, some v => if i < n then some (s, [.asked w v]) else some (s.bad w)
        | _, _ => some (s.bad w)
      else none
    | _ => none
  | .end_ w =>
    match s.pc w with
    | .runs _ _ => some ({ s with pc := upd s.pc w .gone }, [.ended w])
    | _ => none

end Verif.StealStart
