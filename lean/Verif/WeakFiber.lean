import Verif.WeakKnow

/-!
# Launching, joining, waking and migrating fibers under weak memory

Any number of threads, each with its scheduler and one of the algorithms `round_robin`, `shared_work`, `work_stealing` (with the
spinlock queue), on the memory of `Verif/Weak.lean`. Every atomic operation is an event of its own; the non-atomic accesses that
follow it are made together with the next change of place. Fibers launch and join fibers, yield, end, and use data (non-atomic).

* Locations: for each fiber `waker_epoch_` and `splk_` (atomic), its private memory (stack, `c_`, hooks of the queues of its
  thread), the part of it that other threads use too (`scheduler_`, `remote_ready_hook_`, the `waker_with_hook` on its stack), and
  `terminated_` with `wait_queue_`; for each thread `remote_ready_splk_` (atomic) and `remote_ready_queue_`; for each shared ready
  queue its lock (atomic) and its contents.
* Locks are `detail::spinlock` as `exchange( locked, acquire)` and `store( unlocked, release)` (`Verif/WeakLock.lean`, C73);
  `std::mutex` of `shared_work` likewise.
* Queues that only their own thread uses need no location. Which of the ready fibers is picked is left open (orders: C42, C50).
* Not here: sleeping, the idle thread (`suspend_until`, `notify`: C44), the end of threads (C47, C65), destruction (C40).
* The initial values of `terminated_`, `wait_queue_`, `splk_`, `waker_epoch_` of a new fiber are seen by everybody: who may use a
  handle has got it from whoever launched the fiber.
-/

namespace Verif.WeakFiber

open Weak

/-- A fiber: `3 w` is the main fiber and `3 w + 1` the dispatcher fiber of thread `w`, the others are worker fibers. -/
abbrev Fib := Nat

/-- `is_context( type::pinned_context)`: main and dispatcher fiber (`include/boost/fiber/type.hpp:26-33`). -/
def pinned (f : Fib) : Bool := decide (f % 3 ≠ 2)
def isDisp (f : Fib) : Bool := decide (f % 3 = 1)
/-- The thread of a main or dispatcher fiber. -/
def homeOf (f : Fib) : Nat := f / 3

/-- `waker_epoch_` (atomic) -/
def EP (f : Fib) : Nat := 10 * f
/-- `splk_` (atomic) -/
def SPL (f : Fib) : Nat := 10 * f + 1
/-- stack, `c_`, `worker_hook_`, `ready_hook_` -/
def PRV (f : Fib) : Nat := 10 * f + 2
/-- `scheduler_`, `remote_ready_hook_`, the waker on the stack of a waiting fiber -/
def WK (f : Fib) : Nat := 10 * f + 3
/-- `terminated_`, `wait_queue_` -/
def WQ (f : Fib) : Nat := 10 * f + 4
/-- `remote_ready_splk_` (atomic) -/
def RS (w : Nat) : Nat := 10 * w + 5
/-- `remote_ready_queue_` -/
def RQ (w : Nat) : Nat := 10 * w + 6
/-- the user's data -/
def US (x : Nat) : Nat := 10 * x + 7
/-- the lock of a shared ready queue (atomic): `shared_work::rqueue_mtx_` (0), `context_spinlock_queue::splk_` of thread `w` (`w + 1`) -/
def QS (j : Nat) : Nat := 10 * j + 8
/-- its contents -/
def QL (j : Nat) : Nat := 10 * j + 9

/-- Locks are at these locations. -/
def isLock (l : Nat) : Prop := l % 10 = 1 ∨ l % 10 = 5 ∨ l % 10 = 8

inductive Alg
  | roundRobin | sharedWork | workStealing
  deriving DecidableEq, Repr

/-- Where `awakened( ctx)` puts a fiber: into a queue of the thread's own (`none`) or into a shared one. `src/algo/round_robin.cpp:21-26`,
`src/algo/shared_work.cpp:23-36`, `src/algo/work_stealing.cpp:50-55`. -/
def target (a : Alg) (w : Nat) (h : Fib) : Option Nat :=
  match a with
  | .roundRobin => none
  | .sharedWork => if pinned h then none else some 0
  | .workStealing => some (w + 1)

/-- Where `pick_next()` looks. `src/algo/shared_work.cpp:43`, `src/algo/work_stealing.cpp:59,81`. -/
def looksAt (a : Alg) (j : Nat) : Bool :=
  match a with
  | .roundRobin => false
  | .sharedWork => decide (j = 0)
  | .workStealing => decide (j ≠ 0)

/-- What is to be done when the next fiber has been picked: what `resume` does on the next fiber's stack (`src/context.cpp:177-216`). -/
inductive After
  /-- `resume( lk)`: the fiber `f` waits for `g`, whose `splk_` is released -/
  | susp (f g : Fib)
  /-- `resume( f)`: the fiber `f` is scheduled again -/
  | yield (f : Fib)
  /-- `suspend_with_cc()`: the fiber `f` has ended -/
  | gone (f : Fib)
  deriving DecidableEq, Repr

def After.prev : After → Fib
  | .susp f _ | .yield f | .gone f => f

/-- Where `schedule( h)` returns to. -/
inductive Ret
  | run (n : Fib)
  /-- the loop of `notify_all()` of the ending fiber `f` -/
  | note (f : Fib)
  /-- the loop of `remote_ready2ready_()` of the dispatcher fiber `f` -/
  | fetch (f : Fib) (l : List Fib)
  deriving DecidableEq, Repr

/-- What a thread is doing. -/
inductive Ph
  | run (f : Fib)
  -- `context::join()`, `src/context.cpp:228-243`
  | jSpin (f g : Fib) | jLook (f g : Fib) | jDone (f g : Fib)
  -- `suspend_and_wait`, `src/waker.cpp:16-23`
  | jArm (f g : Fib) | jWaker (f g : Fib) (e : Nat) | jPush (f g : Fib) (e : Nat)
  -- `algo_->pick_next()` and the switch
  | pick (a : After) | qLook (a : After) (j : Nat) | qRel (a : After) (j : Nat) (n : Option Fib) | att (a : After) (n : Fib)
  | sw (a : After) (n : Fib) | unl (f g n : Fib) | own (f n : Fib)
  -- `scheduler::schedule( h)` and `awakened( h)`
  | sch (h : Fib) (k : Ret) | qSpin (h : Fib) (k : Ret) (j : Nat) | qPush (h : Fib) (k : Ret) (j : Nat) | qFree (k : Ret) (j : Nat)
  -- `context::terminate()`, `src/context.cpp:265-280`, `src/scheduler.cpp:218-241`
  | tSpin (f : Fib) | tMark (f : Fib) | tNote (f : Fib) | tRel (f : Fib)
  -- `context::wake()`, `src/context.cpp:299-316`
  | tCas (f h : Fib) (e : Nat) | tWoke (f h : Fib)
  -- `scheduler::schedule_from_remote()`, `src/scheduler.cpp:196-214`
  | rSpin (f h : Fib) (v : Nat) | rPush (f h : Fib) (v : Nat) | rRel (f : Fib) (v : Nat)
  -- `scheduler::remote_ready2ready_()`, `src/scheduler.cpp:50-62`
  | fSpin (f : Fib) | fSwap (f : Fib) | fRel (f : Fib) (l : List Fib) | fLoop (f : Fib) (l : List Fib)
  /-- undefined behaviour: a null pointer was used -/
  | crashed
  deriving DecidableEq, Repr

def Ret.ph : Ret → Ph
  | .run n => .run n
  | .note f => .tNote f
  | .fetch f l => .fLoop f l

inductive Obs
  /-- fiber `f` uses the data `x`; `race`: the last use of `x` does not happen before -/
  | acc (f : Fib) (x : Nat) (race : Bool)
  /-- thread `w` uses non-atomic data of the library; `race`: the last use does not happen before -/
  | lib (w : Nat) (race : Bool)
  | spawned (f g : Fib)
  /-- the function of fiber `f` has returned -/
  | finished (f : Fib)
  /-- `join()` for `g` has returned in `f` -/
  | joined (f g : Fib)
  /-- `wake()` for `h` by the ending fiber `f`: its result -/
  | woke (f h : Fib) (ok : Bool)
  /-- a null pointer was used -/
  | null (w : Nat)
  deriving DecidableEq, Repr

structure State where
  alg : Nat → Alg
  mem : Mem
  ph : Nat → Ph
  /-- the value of `scheduler_` -/
  sched : Fib → Option Nat
  /-- the value of `terminated_` -/
  term : Fib → Bool
  /-- the value of `wait_queue_`: fibers with the epochs of their wakers -/
  wq : Fib → List (Fib × Nat)
  /-- the value of `remote_ready_queue_` -/
  rq : Nat → List Fib
  /-- the ready fibers in a queue of the thread's own -/
  own : Nat → List Fib
  /-- the shared ready queues -/
  sq : Nat → List Fib
  /-- the worker fibers that have been launched -/
  born : Fib → Bool
  /-- the fiber is about to return from (or blocked in) `join()` for this fiber -/
  cont : Fib → Option Fib

/-- Every thread runs its main fiber; its dispatcher fiber is ready (`src/context.cpp:96-109`, `src/scheduler.cpp:343-361`). -/
def init (alg : Nat → Alg) : State where
  alg := alg
  mem := Weak.start (fun _ => 0)
  ph := fun w => .run (3 * w)
  sched := fun f => if pinned f then some (homeOf f) else none
  term := fun _ => false
  wq := fun _ => []
  rq := fun _ => []
  own := fun w => if alg w = .workStealing then [] else [3 * w + 1]
  sq := fun j => if j ≠ 0 ∧ alg (j - 1) = .workStealing then [3 * (j - 1) + 1] else []
  born := fun _ => false
  cont := fun _ => none

inductive Event
  /-- the running fiber uses the data `x` -/
  | use (w x : Nat)
  /-- it launches the fiber `g`; `now`: with `launch::dispatch` -/
  | spawn (w : Nat) (g : Fib) (now : Bool)
  | join (w : Nat) (g : Fib)
  /-- `join()` returns -/
  | ret (w : Nat)
  | yield (w : Nat)
  /-- its function returns -/
  | finish (w : Nat)
  /-- the dispatcher fiber looks for fibers woken by other threads -/
  | fetch (w : Nat)
  /-- the next step; `t`: the timestamp of the message that an atomic operation reads or writes -/
  | go (w t : Nat)
  /-- picks `n` from a queue of the thread's own -/
  | own (w : Nat) (n : Fib)
  /-- tries to lock the shared queue `j` -/
  | look (w j t : Nat)
  /-- picks `n` from the shared queue that it has locked -/
  | took (w : Nat) (n : Fib)
  /-- finds nothing there -/
  | left (w : Nat)
  /-- the dispatcher fiber finds nothing at all -/
  | nothing (w : Nat)
  deriving DecidableEq, Repr

/-- Thread `w` uses non-atomic data `xs` of the library and goes on at `p`. -/
def State.lib (s : State) (w : Nat) (xs : List Nat) (p : Ph) : State × List Obs :=
  ({ s with mem := (touches s.mem w xs).2, ph := upd s.ph w p }, [.lib w (touches s.mem w xs).1])

/-- One attempt to take the lock `l`. -/
def State.lock (s : State) (w l t : Nat) (p : Ph) : Option (State × List Obs) :=
  match rmw s.mem w l t (fun _ => 1) true false with
  | none => none
  | some (v, m) => if v = 0 then some ({ s with mem := m, ph := upd s.ph w p }, []) else some ({ s with mem := m }, [])

/-- Release of the lock `l`. -/
def State.unlock (s : State) (w l t : Nat) (p : Ph) : Option (State × List Obs) :=
  match store s.mem w l t 0 true with
  | none => none
  | some m => some ({ s with mem := m, ph := upd s.ph w p }, [])

def go (s : State) (w t : Nat) : Option (State × List Obs) :=
  match s.ph w with
  -- `src/context.cpp:233`: `std::unique_lock< detail::spinlock > lk{ splk_ }`
  | .jSpin f g => s.lock w (SPL g) t (.jLook f g)
  -- `src/context.cpp:235`
  | .jLook f g => some (s.lib w [WQ g] (if s.term g then .jDone f g else .jArm f g))
  | .jDone f g => { s with cont := upd s.cont f (some g) }.unlock w (SPL g) t (.run f)
  -- `create_waker()`, `include/boost/fiber/context.hpp:288-291`
  | .jArm f g =>
    match rmw s.mem w (EP f) t (· + 1) true true with
    | none => none
    | some (v, m) => some ({ s with mem := m, ph := upd s.ph w (.jWaker f g (v + 1)) }, [])
  | .jWaker f g e => some (s.lib w [PRV f, WK f] (.jPush f g e))
  -- `slist_.push_back( w)`, `src/waker.cpp:19`
  | .jPush f g e =>
    some ({ s with wq := upd s.wq g (s.wq g ++ [(f, e)]), cont := upd s.cont f (some g) }.lib w
      (WQ g :: WK f :: (s.wq g).map fun q : Fib × Nat => WK q.1) (.pick (.susp f g)))
  | .qRel a j n => s.unlock w (QS j) t (match n with | none => .pick a | some n => .att a n)
  -- `context::active()->attach( ctx)`, `src/scheduler.cpp:363-377`
  | .att a n =>
    if pinned n then some ({ s with ph := upd s.ph w (.sw a n) }, [])
    else some ({ s with sched := upd s.sched n (some w) }.lib w [WK n, PRV n] (.sw a n))
  -- `std::move( c_).resume_with( …)`, `prev->c_ = std::move( c)`, `src/context.cpp:177-216,252-262`
  | .sw a n =>
    some (s.lib w [PRV n, PRV a.prev] (match a with | .susp f g => .unl f g n | .yield f => .sch f (.run n) | .gone _ => .run n))
  -- `lk.unlock()`, `src/context.cpp:198`: the lock, then the flag in `lk`, which is on the stack of `f`
  | .unl f g n => s.unlock w (SPL g) t (.own f n)
  | .own f n => some (s.lib w [PRV f] (.run n))
  -- `src/scheduler.cpp:177-193` and `awakened()`; `ctx->detach()`: `src/scheduler.cpp:379-395`
  | .sch h k =>
    match target (s.alg w) w h with
    | none => some ({ s with own := upd s.own w (s.own w ++ [h]) }.lib w [PRV h] k.ph)
    | some j =>
      if pinned h then some ({ s with ph := upd s.ph w (.qSpin h k j) }, [])
      else some ({ s with sched := upd s.sched h none }.lib w [WK h, PRV h] (.qSpin h k j))
  | .qSpin h k j => s.lock w (QS j) t (.qPush h k j)
  | .qPush h k j => some ({ s with sq := upd s.sq j (s.sq j ++ [h]) }.lib w [QL j] (.qFree k j))
  | .qFree k j => s.unlock w (QS j) t k.ph
  -- `src/context.cpp:267-271`
  | .tSpin f => s.lock w (SPL f) t (.tMark f)
  | .tMark f => some ({ s with term := upd s.term f true }.lib w [WQ f] (.tNote f))
  -- `notify_all()`, `src/waker.cpp:61-67`
  | .tNote f =>
    match s.wq f with
    | [] => some (s.lib w [WQ f] (.tRel f))
    | (h, e) :: l => some ({ s with wq := upd s.wq f l }.lib w [WQ f, WK h] (.tCas f h e))
  -- `src/context.cpp:301-307`
  | .tCas f h e =>
    match cas s.mem w (EP h) t e (e + 1) true true true with
    | none => none
    | some (b, _, m) => some ({ s with mem := m, ph := upd s.ph w (if b then .tWoke f h else .tNote f) }, [.woke f h b])
  -- `src/context.cpp:310-314`
  | .tWoke f h =>
    match s.sched h with
    | none => some ({ s with ph := upd s.ph w .crashed }, [.null w])
    | some v => some (s.lib w [WK h] (if v = w then .sch h (.note f) else .rSpin f h v))
  -- `src/scheduler.cpp:205-211`
  | .rSpin f h v => s.lock w (RS v) t (.rPush f h v)
  | .rPush f h v =>
    some ({ s with rq := upd s.rq v (s.rq v ++ [h]) }.lib w (RQ v :: WK h :: (s.rq v).map WK) (.rRel f v))
  | .rRel f v => s.unlock w (RS v) t (.tNote f)
  -- `src/scheduler.cpp:238-240`
  | .tRel f => s.unlock w (SPL f) t (.pick (.gone f))
  -- `src/scheduler.cpp:51-61`
  | .fSpin f => s.lock w (RS w) t (.fSwap f)
  | .fSwap f => some ({ s with rq := upd s.rq w [] }.lib w (RQ w :: (s.rq w).map WK) (.fRel f (s.rq w)))
  | .fRel f l => s.unlock w (RS w) t (.fLoop f l)
  | .fLoop f [] => some ({ s with ph := upd s.ph w (.run f) }, [])
  | .fLoop f (h :: l) => some (s.lib w [WK h] (.sch h (.fetch f l)))
  | _ => none

def step (s : State) : Event → Option (State × List Obs)
  | .use w x =>
    match s.ph w with
    | .run f =>
      if s.cont f = none ∧ isDisp f = false then
        let m := touches s.mem w [PRV f]
        let p := touch m.2 w (US x)
        some ({ s with mem := p.2 }, [.lib w m.1, .acc f x p.1])
      else none
    | _ => none
  -- `fiber::start_()`, `src/fiber.cpp:22-40`
  | .spawn w g now =>
    match s.ph w with
    | .run f =>
      if s.cont f = none ∧ isDisp f = false ∧ pinned g = false ∧ s.born g = false then
        let p := { s with sched := upd s.sched g (some w), born := upd s.born g true }.lib w [PRV f, PRV g, WK g]
          (if now then .sch f (.run g) else .sch g (.run f))
        some (p.1, p.2 ++ [.spawned f g])
      else none
    | _ => none
  | .join w g =>
    match s.ph w with
    | .run f =>
      if s.cont f = none ∧ isDisp f = false ∧ g ≠ f ∧ pinned g = false ∧ s.born g then some (s.lib w [PRV f] (.jSpin f g)) else none
    | _ => none
  | .ret w =>
    match s.ph w with
    | .run f =>
      match s.cont f with
      | some g => some ({ s with cont := upd s.cont f none }, [.joined f g])
      | none => none
    | _ => none
  -- `src/scheduler.cpp:243-256`; for the dispatcher fiber: `src/scheduler.cpp:143-155`
  | .yield w =>
    match s.ph w with
    | .run f => if s.cont f = none then some (s.lib w [PRV f] (.pick (.yield f))) else none
    | _ => none
  | .finish w =>
    match s.ph w with
    | .run f => if s.cont f = none ∧ pinned f = false then some ({ s with ph := upd s.ph w (.tSpin f) }, [.finished f]) else none
    | _ => none
  | .fetch w =>
    match s.ph w with
    | .run f => if isDisp f then some ({ s with ph := upd s.ph w (.fSpin f) }, []) else none
    | _ => none
  | .go w t => go s w t
  | .own w n =>
    match s.ph w with
    | .pick a => if n ∈ s.own w then some ({ s with own := upd s.own w ((s.own w).erase n) }.lib w [PRV n] (.sw a n)) else none
    | _ => none
  | .look w j t =>
    match s.ph w with
    | .pick a => if looksAt (s.alg w) j then s.lock w (QS j) t (.qLook a j) else none
    | _ => none
  | .took w n =>
    match s.ph w with
    | .qLook a j =>
      if n ∈ s.sq j ∧ (pinned n = true → j = w + 1) then
        some ({ s with sq := upd s.sq j ((s.sq j).erase n) }.lib w [QL j] (.qRel a j (some n)))
      else none
    | _ => none
  | .left w =>
    match s.ph w with
    | .qLook a j => some (s.lib w [QL j] (.qRel a j none))
    | _ => none
  -- `src/scheduler.cpp:156-168`
  | .nothing w =>
    match s.ph w with
    | .pick (.yield f) => if isDisp f then some ({ s with ph := upd s.ph w (.run f) }, []) else none
    | _ => none

/-! ## What users rely on: the order of events

Program order within a fiber, launching before everything the new fiber does, and everything that a fiber does before the return of
`join()` for it. -/

/-- The fiber that does something. -/
def Obs.actor : Obs → Option Fib
  | .acc f _ _ | .spawned f _ | .finished f | .joined f _ => some f
  | _ => none

/-- The `i`-th event of the trace happens before the `j`-th. -/
inductive HB (tr : List Obs) : Nat → Nat → Prop
  /-- the same fiber does both -/
  | prog (f : Fib) {i j : Nat} {a b : Obs} : i < j → tr[i]? = some a → tr[j]? = some b → a.actor = some f → b.actor = some f → HB tr i j
  /-- `g` is launched, `g` does something -/
  | launch (f g : Fib) {i j : Nat} {b : Obs} : i < j → tr[i]? = some (.spawned f g) → tr[j]? = some b → b.actor = some g → HB tr i j
  /-- `g` does something, `join()` for `g` returns -/
  | join (f g : Fib) {i j : Nat} {a : Obs} : i < j → tr[i]? = some a → a.actor = some g → tr[j]? = some (.joined f g) → HB tr i j
  | trans {i j k : Nat} : HB tr i j → HB tr j k → HB tr i k

/-! For the proofs, the same order in numbers. -/

/-- `know f x`: the last use of `x` that is ordered before what `f` does next (they are numbered from 1); `count x`: the uses of `x`
so far. -/
structure Order where
  know : Fib → Nat → Nat
  count : Nat → Nat

def Order.next (o : Order) : Obs → Order
  | .acc f x _ => ⟨upd o.know f (upd (o.know f) x (o.count x + 1)), upd o.count x (o.count x + 1)⟩
  | .spawned f g => ⟨upd o.know g (fun x => max (o.know g x) (o.know f x)), o.count⟩
  | .joined f g => ⟨upd o.know f (fun x => max (o.know f x) (o.know g x)), o.count⟩
  | _ => o

/-- The order of events of a trace. -/
def order (tr : List Obs) : Order := tr.foldl Order.next ⟨fun _ _ => 0, fun _ => 0⟩

end Verif.WeakFiber
