# Formal model of boostorg/fiber in Lean 4 — design

Source: `/repo` (read as text, never built or run). Lean project: `/verif/lean`.
Property list: `/verif/properties.jsonl`; status per property: `/verif/MANIFEST.json`;
mutation experiments: `/verif/seeded/LOG.jsonl`.

## 1. Shape of the model

Every concurrent component is a labelled transition system

    step : State → Event → Option (State × List Obs)

`Event` is one scheduling decision: *which fiber (or timer, or thread) performs its next atomic
action*, together with the choices the environment makes (which call it issues, how far the clock
advances, what a predicate evaluates to). `none` means "this event cannot happen now". `Obs` are the
API-level observations (a call returned with this result, threw this error). `Verif.Reach step s₀ s tr`
says that some finite list of events leads from `s₀` to `s` with observations `tr`; all theorems about
concurrent components quantify over `Reach`, that is, over every schedule, every number of fibers,
every history and every clock behaviour. Nothing is bounded.

Specifications are written over the trace `tr` (what a user can observe) with small functions that
do not mention the model's internal state, wherever the property is about observable results; the
"nobody is stranded" properties are stated as: *if no fiber inside a call can take a step, then no
fiber is blocked although it should not be*, where "can take a step" is `step … ≠ none`.

Granularity of atomic actions:

* code executed while holding a spinlock is one action (mutual exclusion of the spinlocks themselves
  is C52, proved at the level of single atomic operations). Exceptions where the *position* of the lock
  operation is the point of the property: `condition_variable::wait` keeps the explicit spinlock between
  releasing the user's lock and enqueuing; the context-switch model (C41) keeps it until the switch.
* lock-free code (unbuffered channel slot, Chase-Lev deque, spinlocks, reference counts, waker epochs)
  is modelled one atomic operation per action.
* sequential consistency is assumed for atomics except in the `Weak*` modules (see trusted base).

The layers (file → code modelled):

| module | models |
|---|---|
| `Base` | transition systems, reachability, traces |
| `Waker` (`WaitInv`: the invariant of wait queues shared by all blocking objects) | `src/waker.cpp`, `context::wake`, `context::create_waker` |
| `Mutex` | `src/mutex.cpp`, `timed_mutex.cpp`, `recursive_mutex.cpp`, `recursive_timed_mutex.cpp` |
| `CondVar` | `condition_variable.hpp`, `src/condition_variable.cpp` |
| `Barrier` | `src/barrier.cpp`, `detail/thread_barrier.hpp` |
| `Ring`, `BufferedChannel` | `buffered_channel.hpp` |
| `UnbufferedChannel` | `unbuffered_channel.hpp` |
| `ChannelIter` | `buffered_channel::iterator`, `unbuffered_channel::iterator`, range-for loops over the two channel machines |
| `Future` (`FutureInv`, `FutureCore`, `FutureSpec`, …) | `future/*.hpp`, `future/detail/*.hpp` |
| `Fiber` (`FiberInv`, `FiberSpec`) | `fiber.hpp`, `src/fiber.cpp`, `context::join/terminate`, `intrusive_ptr_*` |
| `Sched` (`SchedA`–`SchedD`: invariants, `SchedSpec`, `SchedSim`, `SchedTrace`, `SchedLive`) | `src/scheduler.cpp`, the switching part of `src/context.cpp`, `fiber::start_`, `src/algo/round_robin.cpp` |
| `Multi` (`MultiSpec`, `MultiInv`, `MultiQ`, `MultiStep`) | several threads with `src/algo/shared_work.cpp` or `src/algo/work_stealing.cpp`, together with the parts of `src/scheduler.cpp` that attach, detach and shut down |
| `SetAlgo` | `scheduler::set_algo` with every pair of the three algorithms |
| `Numa` | `src/numa/linux/topology.cpp`, the CPU lists and the search of `src/numa/algo/work_stealing.cpp` |
| `NumaSys` | the topology with distances on AIX, FreeBSD, Linux, Solaris and Windows, and `pin_thread` on them (`src/numa/*/topology.cpp`, `src/numa/*/pin_thread.cpp`) |
| `SpinQueue`, `Spmc` (`SpmcInv`) | `detail/context_spinlock_queue.hpp`, `detail/context_spmc_queue.hpp` |
| `Spinlock` | `detail/spinlock_ttas*.hpp`, `detail/futex.hpp` |
| `Fss` | `fss.hpp`, `context::{get,set}_fss_data`, `context::terminate` (`src/context.cpp`) |
| `FssRe` | the same with cleanup functions that call `reset`/`release` (nested calls, map nodes with identity); `FssWait`: cleanup functions that suspend, `context::join` |
| `Properties` | `algo/algorithm.hpp` (`algorithm_with_properties`), `properties.hpp`, `src/properties.cpp`, together with `scheduler::set_algo` |
| `Gpu` | `cuda/waitfor.hpp`, `hip/waitfor.hpp` |
| `StackLayout` | `make_worker_context_with_properties` and the main/dispatcher contexts of `context.hpp` |
| `FiberId` | `context::id`, `fiber::id`, `type.hpp` |
| `Weak` | a memory with the C++ memory orders: timestamped messages, per-thread views, release sequences, fences, data races |
| `WeakLock` | the four spinlocks of `detail/spinlock_ttas*.hpp` on that memory |
| `WeakSpmc` (`WeakSpmcMem`, `WeakSpmcInv`, `WeakSpmcStep`, `WeakSpmcReach`) | `detail/context_spmc_queue.hpp` on that memory: relaxed and acquire loads, release and seq_cst fences, growing arrays |
| `WeakUnbuf` (`WeakUnbufInv`, `WeakUnbufStep`, `WeakUnbufMove`, `WeakUnbufReach`, `WeakUnbufSlot`, `WeakUnbufAll`, `WeakUnbufTrace`) | `push`, `pop`, `close` of `unbuffered_channel.hpp` on that memory, with data that is handed over |
| `WeakRef` | `intrusive_ptr_add_ref`/`intrusive_ptr_release` of `context`, `shared_state_base`, `algorithm`, `fss_cleanup_function` on that memory |
| `WeakMutex` (`WeakMutexInv`, `WeakMutexStep`) | the mutexes of `src/*mutex.cpp` on that memory |
| `WeakKnow`, `WeakFiber` (`WeakFiberInv`, `WeakFiberStr`, `WeakFiberMem`, `WeakFiberStep`, `WeakFiberGo`, `WeakFiberOrd`) | ownership and knowledge of non-atomic data; launching, joining, waking and migrating fibers on that memory |
| `Deadline` | deadlines of timed operations: `detail/convert.hpp`, `now() + duration`, 64-bit clocks |
| `StealStart` | constructors of both work-stealing algorithms, `detail/thread_barrier.hpp` |
| `Rtm` (`RtmInv`, `RtmStep`) | `detail/spinlock_rtm.hpp`, `detail/rtm.hpp` over an abstract transactional memory |
| `Launch` (`LaunchInv`, `LaunchTrace`, `LaunchHist`) | constructors of `fiber` (`fiber.hpp`), `worker_context`, `make_worker_context_with_properties` (`context.hpp`): objects, exceptions, stack |
| `WeakDrf` (`WeakDrfInv`, `WeakDrfAtomic`, `WeakDrfLive`) | arbitrary programs that use `detail/spinlock_ttas.hpp`, on the memory of `Weak` |
| `Monitor` (`MonitorInv`, `MonitorLive`), `MonitorMutex` | arbitrary objects whose operations are critical sections, and programs that use them, on `WeakDrf`; `src/mutex.cpp` as such an object |
| `MonitorSec`, `MonitorHand`, `MonitorChan` (`MonitorChanInv`) | `buffered_channel.hpp` as such an object; data handed over through objects |
| `MonitorBarrier` (`MonitorBarrierInv`) | `src/barrier.cpp` as such an object over mutexes |
| `MonitorFuture` (`MonitorFutureInv`) | `future/detail/shared_state.hpp` as such an object over mutexes |
| `LockOrder` (`LockOrderInv`, `LockOrderLive`) | the locks inside of the library: `src/mutex.cpp` and its siblings, `condition_variable`, `src/waker.cpp`, both channels, `src/context.cpp`, `src/scheduler.cpp`, `src/algo/*.cpp`, as far as they take, release and hand over locks |
| `MonitorNet` (`MonitorNetInv`, `MonitorNetDet`) | networks of buffered channels with one producer and one consumer each, on `MonitorChan` |
| `OrderWait` (`OrderWaitInv`, `OrderWaitLive`) | programs of fibers with mutexes, promises, launches and joins: wait queues, orders of waiting |
| `ThreadInit` | how a thread gets its scheduler and how it is destroyed: Schwarz counter, thread_local objects |
| `SchedTurn` | when a thread switches between its fibers; programs of one thread and the order of their calls |
| `AsioYield` (`AsioYieldInv`) | `examples/asio/yield.hpp`, `examples/asio/detail/yield.hpp`: completion handlers that resume fibers |
| `WaitStuff` (`WaitStuffInv`) | `examples/wait_stuff.cpp`: waiting for the first, and for all, of several functions |
| `Priority` (`PriorityInv`) | `examples/priority.cpp` with the scheduler: fibers with priorities, the dispatcher among them |
| `AsioLoop` (`AsioLoopInv`, `AsioLoopLive`) | `examples/asio/round_robin.hpp`: fibers and the loop of an `io_context` on one thread |
| `Callback` (`CallbackInv`) | the functions of `examples/adapt_callbacks.cpp` and `adapt_method_calls.cpp` that wait for a callback: promise, future, shared state and its references, fiber and thread of the callback |
| `Nonblocking` | `read_chunk`, `read_desired`, `read` of `examples/adapt_nonblocking.cpp` over any answers of the interface |
| `WorkPool` (`WorkPoolInv`, `WorkPoolLive`) | the program of `examples/work_sharing.cpp` for any number of threads and fibers: counting, waiting and notifying, barrier, joining |
| `MutexTurn` | infinite executions of `Mutex`: fairness, releases, overtaking |
| `Fair`, `BarrierLive` | Infinite executions of any machine, weak fairness, executions that come to rest or repeat; the barrier as a machine whose steps lower a number |
| `BufLive` | infinite fair executions of the buffered channel: which calls return (C109, C110) |
| `UnbufLive` | fair infinite executions of the unbuffered channel: coming to rest, counting calls and offers |
| `FibLive` | fair executions of the machine of fibers and handles (C113) |
| `FutLive` | fair executions of the machine of futures, promises and tasks (C114) |
| `MutexLive` | mutexes on fair executions: calls that return whatever the others do |
| `CvLive` | condition variables on fair executions: notifications, notified, timed and predicate waits return (C116) |
| `UnbufTimed` | timed calls on the unbuffered channel on fair executions: they return if the slot is left alone, and need not otherwise (C117) |
| `SchedFair` | the scheduler on fair executions: ready, woken and timed-out fibers are resumed, threads end (C118) |
| `MultiFair` | infinite executions of `Multi`: ready fibers are resumed with `work_stealing` and `shared_work` |
| `PubSub`, `PubSubInv` | the publish/subscribe server of `examples/asio/ps` |
| `Echo` (`EchoInv`, `EchoEnd`) | `examples/asio/autoecho.cpp`: echo server, sessions, clients, the barrier at the end |
| `Skynet` | `performance/fiber/skynet_join.cpp`, `skynet_detach.cpp`: `skynet`; a tree of calls, each with its channel, any interleaving |
| `AsyncTree` | `performance/fiber/skynet_stealing_async.cpp`: `skynet`; a tree of `async` calls with outcomes that are values or exceptions, any interleaving |
| `FutureErr` | `src/future.cpp`, `exceptions.hpp`: the error category of futures, codes, conditions, messages |
| `PingPong` | `examples/ping_pong.cpp` for any number of rounds |
| `Pipe` | `examples/range_for.cpp`, `examples/asio/exchange.cpp` for any values, receivers and kind of channel |
| `ThreadBarrier` | `detail/thread_barrier.hpp`, `performance/fiber/barrier.hpp`; mutex sections are steps; the condition variable may wake anybody at any moment |
| `JoinRef` | `examples/join.cpp` for any numbers of iterations |

For each component `X` the definitions live in `Verif/X.lean` (model), helper lemmas in
`Verif/XLemmas.lean` where needed, and the property theorems with their specification and their
non-vacuity `example`s in `Verif/Props/X.lean`.

## 2. Plan per property

Mutexes (one machine, the critical sections of the four classes as separate functions):
* **C01** invariant: for every fiber, (successful returns − unlocks in the trace) + (1 if a successful
  try_lock is still yielding) = depth stored in the mutex if it is the owner, else 0. Spec: `depth tr f`.
* **C02** invariant: owner free ∧ live registration in the queue ⇒ some fiber is already past its wake-up
  and before its attempt. Lifted to: no enabled fiber step ⇒ no blocked fiber on a free mutex.
* **C03** expected false (a notified timed waiter that resumes after its deadline swallows the
  notification): refutation by a concrete schedule, plus `_partial` for runs in which no *notified* waiter
  gives up.
* **C04**, **C05**, **C06** decision logic on reachable states + trace invariants.
* **C07**, **C08** `Waker`: epochs; a state machine in which any number of parties hold wakers of any age.

Condition variable / barrier:
* **C09–C13** machine with abstract user mutex (owner, atomic acquire/release — justified by C01/C02),
  explicit cv spinlock, wait queue with epochs, timers. C13's documented converse expected false
  (notified but resumed late reports timeout): refutation + partial.
* **C14–C16** barrier = mutex + cv machine; invariants over cycles, history-based counting of batches.

Buffered channel:
* **C17/C18** ring buffer with real index arithmetic refines a bounded FIFO list; machine over ops with
  blocking; trace spec: popped values ++ contents = pushed values.
* **C19, C20, C22** invariants of the blocking machine; **C21** expected false: refutation + partial.
* **C23** iterator object-lifetime model; expected false (double destruction): refutation + partial
  (values visited once, in order).

Unbuffered channel (atomic-operation granularity; slots as heap objects with lifetime so that a dangling
access is the distinct outcome `ub`):
* **C24, C25, C28, C29** invariants for push/pop without close and timeouts, as far as they hold with them;
  **C26, C27** expected false: refutations + partial.

Futures:
* **C30–C33, C35–C37** machine over handles (promise/packaged_task/future/shared_future), shared states
  with reference counts, waiters; **C34** expected false for `reset` (old future is never made ready):
  refutation + partial.

Fibers and scheduler:
* **C38** join/terminate machine. **C39** handle machine. **C40** reference-count machine.
* **C41–C47** multi-scheduler machine: threads, ready queues, remote-ready queues, sleep queues,
  terminated queues, active fibers. C47 for `shared_work` expected false (detached ready fibers are not in
  the worker queue, so shutdown does not wait for them): refutation + theorem for round_robin.
* **C48, C49** shared_work / work_stealing machines. C49 expected false for thread_count = 1 and for a
  node with a single local CPU: refutation (the inner loop has no exit) + partial.
* **C50** ring with growth refines FIFO. **C51** Chase-Lev machine; `pop` on an empty fresh deque computes
  `0 - 1` in `size_t`: to be examined with 64-bit arithmetic.

Low level:
* **C52** atomic-step machines of each spinlock, invariants. **C53/C54** map model; C54 expected false for
  custom clean-up (null entry inserted by `release()`/destructor): refutation + partial.
* **C55** property bookkeeping machine. **C56** parser over character lists. **C57** rendezvous machine.
  **C58** address arithmetic on naturals with explicit no-wrap hypotheses. **C59** order laws on optional
  addresses.

Added later:
* **C60, C61, C62** mutex machine (C60, C61 false of the code: refutation + partial). **C63** unbuffered channel machine
  (false: two refutations + partial). **C64** futures machine with `lax := true`, where a promise may be destroyed while a
  `set_value` on it is merely notifying (false: refutation + partial).
* **C65, C66** scheduler machine (both false: refutation + partial). **C67** lock-free queue machine (false: two
  refutations + partial).

* **C68** `Multi` (refuted for shared_work, proved for work_stealing) and `Sched` (round_robin). **C69** spinlock machines
  (false for spinlock_ttas_adaptive: refutation + partial).
* **C70/C71** `FssRe`: nested calls as a stack of frames; both refuted with concrete runs, partials for cleanup functions that use
  greater keys / do not wait.
* **C72** `Properties` (refuted for `launch::dispatch`; partial).
* **C73** `WeakLock` (proved for the plain spinlocks; visibility refuted for the futex spinlocks). **C74** `WeakRef` (proved).
* **C75** `WeakSpmc` (proved). **C76** `WeakSpmc` (false: two refutations + partials).
* **C77** `WeakUnbuf` (proved): ownership of data is handed over with the calls; invariant: the owner has seen all former uses.
  **C78** `WeakUnbuf` (false: two refutations; proved with a release order, and as a partial for pops after `close`).
  **C79** `WeakUnbuf` (proved).
* **C80** channel machines with an event `fail f` (the copy or move that fiber `f` is about to do throws): false in both channels;
  partial for the buffered one.
* **C81** `Deadline`: how deadlines are computed, in 64 bit integers, from durations and other clocks (false: refutations + partials).
* **C82** `WeakMutex`: the four mutexes on the memory of `Weak`, every access to `owner_`, `count_` and `wait_queue_` an event (exclusion, visibility proved; data races: refutation + partial).
* **C83** `StealStart`: constructors of both work-stealing algorithms, `thread_barrier` (one group: proved; more: refutation).
* **C84** `WeakFiber`: threads, three algorithms, launch, join, wake-up within and across threads, migration, on `Weak` memory; ownership of every non-atomic location by a thread or a lock, knowledge as views.
* **C85** `Rtm`: `spinlock_rtm` over an abstract transactional memory with flat nesting, arbitrary rollbacks and conflicts, arbitrary programs; refinement of the same programs with ordinary locks (`Legal`); honesty of `try_lock` refuted.
* **C86** `Launch`: one launch, construction by construction and destruction by destruction, through all layers of parameters, with exceptions; exact description of which objects exist and which hold values; both refutations.
* **C87** `WeakDrf`: arbitrary programs over the spinlock code on the memory of `Weak`; invariant: whoever has the right to access data, a thread or a lock, knows all former accesses; then Lipton reduction on histories. This is what justifies taking critical sections as single steps in the other models.
* **C88** `Monitor`: a compiler from programs that call operations to programs with locks; invariant between the program with locks and the history of critical sections; then C87. `MonitorMutex`: the code of the mutex, refinement to a lock. The two compose: objects over mutexes over spinlocks over weak memory.
* **C89** `MonitorSec`: critical sections as trees, evaluated on ordinary memory. `MonitorHand`: a general theorem on objects through which data are handed over. `MonitorChan`: the code of the channel; invariant: contents of the ring, pushed = popped ++ contents, data in a channel are those in its ring. Then C88.
* **C90** `MonitorBarrier`: the code of the barrier over mutexes; invariant: every fiber is in the current phase, or has arrived, or has been released; the number of those that have arrived. The shares of the data go into the barrier with those that arrive, and come out with those that return. Then C88.
* **C91** `MonitorFuture`: the code of the shared state over mutexes; a plan says which shares of the data go to whom with which promise; invariant: what was published is with the promise until its receiver takes it. Then C88.
* **C92** `LockOrder`: every function that takes a lock, as a tree of lock operations, choices and context switches, on a machine of threads and fibers. A static check shows that locks are taken in the order of a rank and that a fiber that is switched holds just the lock it hands over; from that progress by induction on the rank, termination by a well-founded measure over all threads.
* **C93** `LockOrder` with calls of `wait` whose `unlock` is any tree of lock operations; two stopped states as witnesses.
* **C94** `MonitorNet`: on the histories of C89, what an operation returns is a function of the pasts of the producer and the consumer of its channel (`answer`). By induction on the lengths of two histories: pasts of each thread fit, and data a thread has are the same when its past is; data that come with an element are traced back to the history before it was pushed. Progress: the first step of the longer history that the shorter one has not made can be made there.
* **C95** `OrderWait`: fibers with programs as trees, mutexes with owners and counts, wait queues of mutexes, promises and ends of fibers. Invariant: the rest of each program follows the order with what the fiber holds; queues contain exactly the suspended fibers; of a free mutex with waiting fibers one that wants it is ready. If nobody can run, somebody waits for something of least rank, whose holder (or the launcher of its holder) waits for less: contradiction. Termination: rests of programs by well-founded subterm order, then the number of fibers that have not ended, then the number of ready ones.
* **C96** `ThreadInit`: the Schwarz counter, the thread_local static of `context::active()`, the stack of thread_local objects, the destruction of the scheduler with fibers that run meanwhile. Invariant by the state of the static object, with the created and destroyed schedulers of the trace.
* **C97** `SchedTurn`: one-step lemma (the running fiber stays) by cases over all events with the invariants of `Sched`; for the order a relation between states that differ only in the clock and the condition variable of the dispatcher, and induction over both executions; a dispatcher that goes to sleep never finds work again.
* **C98** `AsioYield`: one operation is the fiber's program counter, the handler's, state, lock, count and stack variables; steps at every access to the shared object; invariant of one operation and of what the trace says about it; measure for progress.
* **C99** `WaitStuff`: the program counters of the fibers and of the caller, the channel, `limit_` with its load and store, the barrier; on one thread a fiber goes on until it waits. Invariant for all runs, a second one for one thread; ghost lists of the fibers that have decremented the counter and that have arrived.
* **C100** `Priority`: the queue of `priority_scheduler`, the sleep queue, the remote queue, the dispatcher; a specification (`spec`) that tells from the observations who is ready since when. Invariant: the queue holds exactly the ready fibers and is ordered by priority and time; a fiber's index in the queue goes down with every fiber taken.
* **C101** `AsioLoop`: the algorithm, the loop of the main fiber, the timer, the dispatcher, other threads in `schedule_from_remote` and the two statements of `notify`. Invariants: `counter_` counts the ready fibers besides the dispatcher; as long as a remotely woken fiber is unseen, a notification is under way, a handler of the timer is due, or the dispatcher is ahead of the main fiber in the queue; in calm runs a timer is armed for the first deadline wherever the loop may go to sleep.
* **C102** `Callback`: the waiting fiber and the thread with the callback as two sequences of steps, for the five functions and the three ways in which the callback holds the promise. Invariants: the references to the shared state are those of the future, the promise, and nothing else; the promise is alive as long as its holder is.
* **C103** `Nonblocking`: the three functions against an interface that answers as it likes. Induction over the answers.
* **C104** `WorkPool`: the statements of the example's three functions for every thread, the mutex, the spinlock and waiters of the condition variable. Invariants: the counter is the number of ready and running fibers that have not been counted off; a thread that waits, while the counter is 0, is about to be notified. A measure that every step decreases.
* **C105** Infinite executions of `Mutex` (`MutexTurn`). The number of fibers on their way to the mutex, plus one if it is owned, never grows without overtaking and drops whenever a scheduled fiber comes too late; between two such drops a waiting fiber moves forward with every release. The counterexample is an explicit periodic execution.
* **C106** `NumaSys`: the operating system is a parameter (domains, masks, a tree of groups, a buffer of records, files). Sets are built by insertion into increasing lists; induction over domains, records and trees.
* **C107** `NumaSys`: the calls of the operating system as functions of the CPUs that are there; arithmetic of the casts.
* **C108** `BarrierLive` on the machine of C16: infinite executions (`Fair`); a weighted count of the calls to come and the steps of those under way decreases with every step, so the execution comes to rest; at rest, everyone inside sleeps for the batch that is being collected.
* **C109** `BufLive` on the machine of C17: infinite executions (`Fair`); every successful call pays for a bounded number of wake-ups, so with finitely many calls the execution comes to rest, and then `quiescent_blocked` (C20) and the order of values (C17) fix the numbers.
* **C110** As C109; the sole consumer can go on whenever there is a value (`blocked_means_served_partial` of C20), and nobody else can take it. `Run.lasso` makes the execution that repeats for ever.
* **C111** `UnbufLive` on the machine of C24: infinite executions (`Fair`); every access to shared memory that can send another fiber around its loop again is paid for by progress of a call, so with finitely many calls the execution comes to rest; there the numbers of calls, offers and offers taken (`reach_c`), the unanswered offers (`Off`) and `no_mutual_block` (C28) fix the result.
* **C112** As C111, with `close_releases_partial` (C29) at rest; infinite executions do nothing undefined. `Run.lasso` makes the execution that repeats for ever.
* **C113** `FibLive` on the machine of C38 to C41: infinite executions (`Fair`); a fiber that has returned terminates and leaves, its joiners are ready from then on (`reach_inv`), so each comes back; nested joins by induction on the depth.
* **C114** `FutLive` on the machine of C30 to C36: infinite executions (`Fair`); once a result is ready nobody enters the wait queue any more, so its spinlock is free for ever, the notifier runs (`reach_wi`) and every position of a call has finitely many steps left.
* **C115** `MutexLive` on the machine of C01 to C06: infinite executions (`Fair`); after the deadline every position of a timed call has finitely many steps left, and a fiber that sleeps there is woken by its timer.
* **C116** `CvLive` on the machine of C09 to C13: infinite executions (`Strong`); the spinlock is free again and again because its holder runs; each position of a call that has been notified, whose deadline has passed or whose predicate is true for good has finitely many steps left.
* **C117** `UnbufTimed` on the machine of C24: infinite executions (`Strong`); both spinlocks are free again and again because their holders run; when the deadline has passed and the slot is left alone, each position of the call has finitely many steps left. The refutations are lassos.
* **C118** `SchedFair` on the scheduler machine `Sched`: infinite executions. A thread with ready fibers switches (each position of the running context has finitely many steps left), each switch moves the queue up. Under a pending remote fiber or a passed deadline the dispatcher cannot stay asleep (invariants `rem`, `sg`, `idl`), so it comes round, empties the remote queue and the expired sleepers.
* **C119** `MultiFair` on the machine `Multi` of threads that share fibers: infinite executions. A thread that has not ended comes to `pick_next` again and again; its queue (or the shared one) loses its first element then, and thieves only take first elements, so the position of a ready fiber cannot stay the same for ever. A thread is in the loop that looks for victims only if its own queue is empty (`steal_empty`), so the random numbers do not matter.
* **C120** `PubSub`: a step is what a session does between two suspensions (one thread runs all fibers). `record s tr` collects from the observations what was published on the queue of subscriber `s`, what was written to its client and how its session stands; the invariant `Ok` relates it to the state. Completeness is refuted: each subscriber has one buffer, overwritten by the next message.
* **C121** `PubSub`: the same invariant `Ok`; the refutation follows one subscriber through every further execution (`waits_for_ever`): once its queue is gone it is in no queue, so nobody notifies it.
* **C122** `PubSub`: invariant `Owned` (an active publisher's queue exists, and no two active publishers have the same queue) for a queue name that nobody was rejected for. Undefined behaviour is the observation `ub`.
* **C123** `Echo`: sessions and clients as fibers suspended in asynchronous operations, connections as two streams of bytes. Invariant `Link`: what is at the client, in the session, at the session and still to be sent is together the message; connections of different clients are different.
* **C124** `Echo`: invariants about the barrier (who has arrived) and the replies; a state in which only failures are possible is shown to be one where all have ended, by cases on where a client can be. `EchoEnd`: every step lowers a number (bytes and iterations to go), so executions are finite.
* **C125** `Skynet`: calls named by their path in the tree, each with its place in the code, its arguments and its channel. Invariants: which calls exist and with which arguments (`Tree`); what a call has taken and what is in its channel is together what its fibers have pushed (`Chan`). At rest: induction on the depth of the tree. Bound: the steps left, summed over the tree.
* **C126** `AsyncTree`: calls named by their path in the tree, each with its place in the code, its arguments and, at the end, its outcome. Invariants: which calls exist and with which arguments (`Tree`); what a call has added up is the outcome of its first parts (`Vals`). Outcomes form a monoid, in which an exception absorbs what follows. At rest: induction on the depth. Bound: the steps left, summed over the tree.
* **C127** `FutureErr`: codes and conditions as pairs, other categories as arbitrary functions; by cases on the value.
* **C128** `PingPong`: both fibers and both channels, printing as a step of its own. The reachable states of a round are enumerated (`Inv`), for any round.
* **C129** `Pipe`: sender, receivers and what is in the channel. Invariant: what was taken, what is in the channel and what is still to be sent is together what there was to send; a receiver has ended only if the channel is closed and empty.
* **C130** `ThreadBarrier`: mutex sections as steps, `cond_` with wakeups at any moment. Invariants: `current_` and `cycle_` are functions of the number of calls; with few threads all calls that have not returned are of the current batch or the one before, and who sleeps in the latter will be notified (counting the threads of the current batch).
* **C131** `JoinRef`: the three fibers and the handle. Invariant: the handle is not joinable exactly after the iteration with `join`, and then the first fiber has returned.

Every property is expressible in part; none is planned as not applicable.

## 3. Trusted base

* Lean 4.33.0's kernel; the axioms reported by `#print axioms` for the property theorems: at most
  `propext`, `Classical.choice`, `Quot.sound`. No axioms of our own, no `sorry`, no `native_decide`,
  no `bv_decide`.
* The reading of the C++ source embodied in the definitions (each cites file and lines).
* Sequential consistency of `std::atomic` operations in every module but `Weak*`. The `Weak*` modules use the
  promise-free view semantics of C++ atomics (as in RC11/the promising semantics without promises): a load may read
  any message not older than the thread's view, a read-modify-write extends the message it reads, release writes carry the
  writer's view, acquire reads join it. Load-buffering outcomes (forbidden by RC11, formally allowed by the
  standard's text) are excluded. `memory_order_consume` (one load in
  `context_spmc_queue.hpp`) is treated as acquire, `seq_cst` read-modify-writes as acquire/release, `seq_cst` fences as in RC11.
* Boost.Context: `resume_with` runs its argument on the target stack after the source context was saved.
* Boost.Intrusive / std containers behave as sequences and maps; hooks tell linked/unlinked truthfully.
* `steady_clock` is monotone (the model's clock only advances). Epoch and cycle counters are modelled as
  unbounded naturals (`size_t` wrap after 2^64 steps is not modelled).
* User callables neither destroy a primitive in use nor violate documented preconditions, unless the
  theorem is about that.

Not modelled: stack switching itself, allocators, memory reclamation of stacks, weak memory outside the `Weak*` modules,
Windows/BSD futex differences, the real timing and cache behaviour of hardware transactions (`Rtm` is abstract), the examples other than those named above, performance counters, tests.

## 4. Disagreements between code and documentation / defects found

Each line: property, refuting theorem(s) — a concrete reachable schedule checked by the kernel — and the cause.

| property | theorem | cause |
|---|---|---|
| C03 | `Mutex.timed_giveup_strands` | a notified timed waiter that resumes after its deadline gives up without passing the notification on |
| C13 | `CondVar.notified_but_timeout` | the status of a timed wait is decided by the clock at resumption, not by who released the waiter |
| C21 | `BufCh.timed_giveup_strands_consumer`, `_producer` | as C03, in the buffered channel |
| C26 | `Unbuf.closed_but_received`, `timeout_but_received`, `closed_then_taken` | the value stays in the slot after the push returned `closed`/`timeout` |
| C27 | `Unbuf.close_leaves_dangling_slot`, `timed_push_dangling_slot` | the slot lives on the producer's stack |
| C29 | `Unbuf.late_push_strands` | `is_closed()` is tested before the slot is published |
| C34 | `Fut.reset_abandons` | `packaged_task::reset` moves the old state into a temporary with `obtained_ == false` |
| C60 | `Mutex.passed_deadline_fails` | the clock is tested before the first attempt |
| C61 | `Mutex.timed_owner_blocks_itself` | `timed_mutex::try_lock_until_` has no owner test |
| C63 | `Unbuf.timed_push_giveup_strands`, `timed_pop_giveup_strands` | as C03, in the unbuffered channel |
| C64 | `Fut.destroy_after_get_is_ub` | `mark_ready_and_notify_` notifies after releasing the mutex through a borrowed pointer |
| C42 | `Sch.dispatch_overtakes`, `dispatch_starves` | `launch::dispatch` switches to the new fiber directly; chains of such launches starve ready fibers |
| C65 | `Sch.notify_after_free` | `schedule_from_remote` calls `algo_->notify()` after unlocking `remote_ready_splk_` |
| C66 | `Sch.shutdown_assert` | `BOOST_ASSERT(!shutdown_)` although fibers may still be waiting when `main` returns |
| C51 | `Spmc.fresh_pop_breaks` | `bottom_ - 1` wraps around in `pop` on a queue that was never pushed to |
| C67 | `Spmc.steal_touches_taken`, `steal_touches_null` | `steal` dereferences the element before its compare-exchange |
| C46 | `SetAlgo.shared_to_shared`, `shared_race`, `steal_race` | `set_algo` moves fibers while `has_ready_fibers()`; shared_work's queue is static, and other threads may empty it between test and `pick_next` |
| C47 | `Multi.shared_shutdown_loses`, `stealing_shutdown_loses` | `awakened` detaches a worker from its scheduler, so it is not in the `worker_queue_` the dispatcher waits for |
| C49 | `Multi.alone_never_returns`, `Numa.alone_on_node`, `Numa.unknown_node` | the inner `do … while ( id == id_)` has no exit if there is no other thread; an unknown node leaves `local_cpus_` empty |
| C56 | `Numa.range_to_max`, `empty_line_throws`, `cpu_lost` | 32-bit loop counter; `std::stoul("")`; CPUs without node directory are skipped |
| C68 | `Multi.shared_starves` | `pick_next` of shared_work looks at the pinned fibers only if the shared queue is empty |
| C69 | `Ttas.estimate_explodes` | unsigned subtraction `retries - prev_retries` in spinlock_ttas_adaptive |
| C53 | `Fss.main_not_cleaned` | only `context::terminate` runs cleanup functions, and the main fiber never executes it |
| C54 | `Fss.release_then_exit`, `destroy_then_exit` | `set_fss_data` inserts an entry for a null pointer; `terminate` does not test for null |
| C70 | `FssRe.stored_at_end_lost`, `reset_in_cleanup_twice`, `reset_in_reset_twice` | `do_cleanup` is called while an iterator is held, before the entry is replaced |
| C71 | `FssWait.wait_in_cleanup_hangs` | `terminate` runs cleanup functions with `splk_` held |
| C23 | `ChanIter.destroyed_twice`, `refuted`, `leak`, `copied_iterator` | `operator++` destroys the value and then `increment_` destroys it again; the iterator has no destructor and its copy constructor does not copy the value |
| C55 | `Prop.C55_dispatched_change_fails`, `C55_change_to_destroyed_algorithm`, `C55_reported_to_wrong_algorithm`, `C55_wrong_class` | `fiber_properties::algo_` is set only by an `awakened` with properties; nothing resets it when the fiber is passed to another kind of algorithm |
| C72 | `Prop.C72_false` | properties are created by `awakened`, which a fiber launched with `dispatch` has not passed through |
| C57 | `Gpu.Many.C57_refused_is_ub`, `C57_early_callback`, `C57_notify_after_return`, `Gpu.One.C57_one_notify_after_return` | the constructor iterates over `stx_` without lock while it, or a callback, erases the current element; `notify` unlocks before `cv_.notify_one()` on an object of the waiting fiber |
| C59 | `Ident.C59_stale_alias` | ids are addresses of control blocks; memory is reused |
| C73 | `WeakFtx.C73_unlock_releases_nothing`, `WeakFtx.C73_refuted` | `unlock()` of the futex spinlocks is `fetch_sub(1, memory_order_acquire)`: no release, so the next holder's accesses race with the previous holder's |
| C76 | `WeakSpmc.steal_races` | `array_.store( a, std::memory_order_relaxed)` (context_spmc_queue.hpp:131) after `resize`: a thief may use `capacity_` and `storage_` of an array whose construction does not happen before |
| C76 | `WeakSpmc.steal_reads_unseen` | `ctx->is_context(...)` (context_spmc_queue.hpp:177) on a pointer read by a relaxed load: an overtaken thief reads a fiber whose construction it has not seen |
| C78 | `WeakUnbuf.close_publishes_false`, `WeakUnbuf.close_publishes_false_pop` | `closed_.exchange( true, std::memory_order_acquire)` (unbuffered_channel.hpp:113) releases nothing: a call that returns `closed` need not see what the closing fiber did before `close()` |
| C80 | `BufCh.throwing_pop_strands_consumer`, `throwing_push_strands_producer`, `Unbuf.throwing_pop_loses_value`, `throwing_pop_strands_producer` | a released fiber whose copy/move throws swallows the release; `unbuffered_channel::pop` takes the slot (`try_pop_`) before `std::move( s->value)`, and wakes the producer only afterwards |
| C81 | `Deadline.max_overflows`, `max_times_out_at_once` | `steady_clock::now() + timeout_duration` without saturation |
| C81 | `Deadline.early_by_order`, `early_by_adjustment`, `late_by_adjustment` | `convert.hpp:34` adds two clock readings taken at different times in unspecified order, once, before waiting |
| C82 | `WeakMutex.try_lock_races`, `try_lock_races_rec` | `return active_ctx == owner_` after `lk.unlock()` in every `try_lock()` (src/mutex.cpp:59, timed_mutex.cpp:74, recursive_mutex.cpp:55, recursive_timed_mutex.cpp:78) |
| C83 | `StealStart.second_group_ub`, `different_counts_ub` | `id_{ counter_++ }` with a static counter that is never reset, `schedulers_[id_] = this` unchecked (src/algo/work_stealing.cpp:37,45) |
| C85 | `Props.Rtm.not_TryLockIsHonest`, `try_lock_may_fail_for_ever` | `try_lock` returns `false` whenever its transaction is rolled back and never falls back to `splk_.try_lock()` (detail/spinlock_rtm.hpp:102-114); `suspend_and_wait_until` repeats it without bound (src/waker.cpp:34-38) |
| C86 | `Props.Launch.not_FailedLaunchKeepsNoStack` | `make_worker_context_with_properties` allocates the stack and has no handler for exceptions of the constructor of `worker_context` (context.hpp:486-504) |
| C86 | `Props.Launch.not_JoinedMeansDestroyed` | `run_` moves `fn_` and `arg_` into locals that die before `terminate()` (context.hpp:440-453), but where a move is a copy the members keep their values until `~context` (context.hpp:385), which the dispatcher may run after `join` returned |
| C93 | `Props.LockOrder.not_AnyLockMayBeUsed` | `condition_variable_any::wait` calls `lt.unlock()` while it holds `wait_queue_splk_` (condition_variable.hpp:70-72, 100-103) |
| C96 | `ThreadInit.claim_fails` | fibers used in the destructor of a thread_local object that is older than the library's: `active()` returns null (`src/context.cpp:147-152`, `src/scheduler.cpp:114`) |
| C99 | `fibers_hang` | `wait_all_until_error` (`examples/wait_stuff.cpp:730-754`) leaves the channel open when `future.get()` throws; when it is full, the other fibers wait in `push` for ever |
| C99 | `threads_hang` | `nchannel::limit_` (`examples/wait_stuff.cpp:578-592`) is decremented without a lock |
| C99 | `none_hangs` | `wait_first_simple()` without functions waits for a `Done` nobody notifies (`examples/wait_stuff.cpp:147-175`) |
| C100 | `sleeper_starves` | the dispatcher, which wakes sleeping and remotely woken fibers, is scheduled like any other fiber, with priority 0 (`examples/priority.cpp:97-118`, `src/scheduler.cpp:122-174`); fibers of positive priority keep it from running |
| C100 | `yield_to_lower` | `scheduler::yield` (`src/scheduler.cpp:242-255`) takes the next fiber before the yielding one is put back into the queue (`src/context.cpp:204-216`), so its priority does not count |
| C101 | `dispatch_hangs`, `handler_yield_hangs` | the timer is set only in `suspend_until` (`examples/asio/round_robin.hpp:131-158`), which the dispatcher calls only if the queue is empty; the loop (`:81-96`) calls `run_one` whenever no fiber is ready, without having let the dispatcher find that out |
| C101 | `notify_hangs` | `notify` (`examples/asio/round_robin.hpp:162-182`) moves the timer that is set for the next deadline; if the woken fiber has been seen before, no fiber becomes ready, the loop does not wait for the dispatcher, and `suspend_until` is not called again |
| C101 | `poll_starves`, `blocked_handler_spins`, `timer_race` | `while (io_ctx_->poll())` (`:84`) ends only when no handler is due; `suspend_until` returns at once (`:157`), also if the main fiber does not wait for `cnd_`; `suspend_timer_` is used from `notify`, which other threads call, and from `suspend_until`, without a lock |
| C102 | `read_ub`, `read_twice_ub` | the callback of `read` captures the promise by reference (`examples/adapt_callbacks.cpp:221`); `set_value` still uses the shared state after `ready_` has been set (`shared_state.hpp:49-51`), when the fiber may already return and destroy both references |
| C102 | `dropped_hangs` | the promise is on the stack of the waiting function (`read`), or in a `shared_ptr` it keeps (`examples/adapt_method_calls.cpp:125-130`), so that it lives as long as the function waits, and `broken_promise` is never set |
| C105 | `starves` | `unlock()` does not hand the mutex over: the scheduled fiber competes with newcomers (`src/mutex.cpp:26-41`, `64-73`) |
| C106 | `aix_skips`, `solaris_no_cpu`, `windows_no_cpu` | made-up distances compare `n.id` with an index (src/numa/aix/topology.cpp:69-75 and the same lines of the other systems) |
| C106 | `linux_gap` | distances of Linux are indexed by position among the nodes that are online (src/numa/linux/topology.cpp:181-191) |
| C106 | `solaris_twice`, `solaris_loses` | CPUs are taken from the whole subtree of each group with memory, and only of those (src/numa/solaris/topology.cpp:23-38) |
| C106 | `solaris_no_cpu`, `windows_no_cpu` | nodes without CPUs are listed (src/numa/solaris/topology.cpp:28-38, src/numa/windows/topology.cpp:110-118); `init_` reads `* node.logical_cpus.rbegin()` (src/numa/algo/work_stealing.cpp:55-58) |
| C107 | `pin_solaris_unpins`, `pin_aix_other`, `pin_windows_other` | `cpuid` is cast to a narrower or signed type without a check (src/numa/solaris/pin_thread.cpp:35, src/numa/aix/pin_thread.cpp:32, src/numa/windows/pin_thread.cpp:40) |
| C107 | `pin_freebsd_outside`, `pin_windows_shift` | `CPU_SET` and the shift have no check of the range (src/numa/freebsd/pin_thread.cpp:33, src/numa/windows/pin_thread.cpp:42-44) |
| C110 | `starves` | `notify_one` wakes a consumer without giving it the value; a `pop()` that comes by takes it, and the woken fiber goes to the end of the queue, again and again |
| C112 | `starves` | `notify_one` wakes a consumer without giving it the offer; a `pop()` that comes by takes it, and the woken fiber queues up again, again and again |
| C117 | `timed_push_spins`, `timed_pop_spins` | `push_wait_until` and `pop_wait_until` look at the clock only when they suspend; the `continue` after `is_empty_()` does not (`include/boost/fiber/unbuffered_channel.hpp:243-245,287-289,384-386`). While other fibers exchange values, a timed call can go round for ever after its deadline |
| C119 | `pinned_fiber_starves` | `shared_work::pick_next` looks into the thread's own queue only when the shared queue is empty: on an infinite fair execution the main fiber is ready and never resumed while two worker fibers yield to each other |
| C120 | `message_lost` | `subscriber_session` has one buffer `data_` and no flag that says whether its content has been written: a second `publish` before the subscriber is resumed overwrites the first message |
| C120 | `last_message_lost` | the destructor of `subscriptions` writes `<fini>` into the same buffer: a message published just before the publisher leaves is lost |
| C121 | `subscriber_hangs` | `subscriber_session::run` calls `cond_.wait` without a predicate: `<fini>` published while the fiber is in `async_write` notifies nobody, and the subscriber then waits on a queue that no longer exists |
| C122 | `foreign_queue_removed` | `publisher_session::run` calls `unregister_queue( queue)` also when `register_queue` has thrown because the queue belongs to another publisher |
| C122 | `empty_queue_removed` | a publisher whose first read fails unregisters the queue with the empty name |
| C122 | `full_message_ub` | `std::string( data)` and `queue = data` expect a null character in the `max_length` characters read, and the client need not send one |
| C124 | `client_hangs` | `client` returns on `eof` without calling `barrier.wait()`, which counts it: the other clients wait for ever, nobody closes the acceptor and `io_context::run` does not return |
