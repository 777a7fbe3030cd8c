{"id": "C01", "title": "Mutual exclusion of every mutex type", "statement": "For mutex, timed_mutex, recursive_mutex and recursive_timed_mutex: at any moment at most one fiber is between a successful lock()/try_lock()/try_lock_until() and the unlock() that gives its ownership up. lock(), and a try_lock()/try_lock_until() that returns true, return only with the calling fiber as owner.", "quantifier": "every number of fibers and threads, every interleaving of lock, try_lock, try_lock_until and unlock calls, every arrival of timeouts and wake-ups", "why_tests_cant": "tests run a handful of fibers on a handful of schedules; a double owner needs one specific interleaving of a wake-up with a barging locker", "anchors": ["src/mutex.cpp: mutex::lock, mutex::try_lock, mutex::unlock", "src/timed_mutex.cpp", "src/recursive_mutex.cpp", "src/recursive_timed_mutex.cpp"]}
{"id": "C02", "title": "No fiber is left blocked on a free mutex", "statement": "For mutex and recursive_mutex (and for timed_mutex/recursive_timed_mutex as long as no timed attempt gives up): whenever nobody owns the mutex while some fiber is blocked in lock(), some other fiber has already been made runnable to attempt the lock. So if every runnable fiber gets to run, a released mutex never strands a waiter.", "quantifier": "every number of waiters, every history of lock/try_lock/unlock calls including barging lockers and failed try_locks, every schedule", "why_tests_cant": "a lost wake-up is an absence: a test only hangs when the one bad interleaving occurs", "anchors": ["src/mutex.cpp: mutex::lock, mutex::unlock", "src/recursive_mutex.cpp", "src/waker.cpp: wait_queue::suspend_and_wait, wait_queue::notify_one"]}
{"id": "C03", "title": "A timed lock attempt that gives up does not strand other waiters", "statement": "For timed_mutex and recursive_timed_mutex: when try_lock_until()/try_lock_for() returns false, the mutex is still able to serve everybody else, that is, if nobody owns it then no other fiber is left blocked in lock() or in an unexpired timed attempt with nobody scheduled to take the mutex.", "quantifier": "every interleaving of timer expiry, unlock() and the resumption of the timed waiter", "why_tests_cant": "needs unlock() to pick a waiter whose deadline passes between being picked and being resumed, a window unit tests never hit deterministically", "anchors": ["src/timed_mutex.cpp: timed_mutex::try_lock_until_", "src/recursive_timed_mutex.cpp: recursive_timed_mutex::try_lock_until_", "src/waker.cpp: wait_queue::suspend_and_wait_until", "src/scheduler.cpp: scheduler::wait_until"]}
{"id": "C04", "title": "Misuse of a mutex is reported and changes nothing", "statement": "lock() or try_lock() on a mutex/timed_mutex the caller already owns throws lock_error(resource_deadlock_would_occur); unlock() by a fiber that is not the owner throws lock_error(operation_not_permitted), for all four mutex types; in each case ownership, recursion depth and the set of blocked fibers are exactly as before.", "quantifier": "every mutex state, every caller", "why_tests_cant": "tests try the error on one or two states", "anchors": ["src/mutex.cpp", "src/timed_mutex.cpp", "src/recursive_mutex.cpp", "src/recursive_timed_mutex.cpp"]}
{"id": "C05", "title": "A recursive mutex is released by exactly as many unlocks as locks", "statement": "For recursive_mutex and recursive_timed_mutex the depth held by a fiber equals its successful lock/try_lock/try_lock_until calls minus its successful unlocks; another fiber can become owner only when that difference is zero, and a re-lock by the owner never blocks.", "quantifier": "every nesting depth, every interleaving with other fibers", "why_tests_cant": "nesting depth and interleaving are unbounded", "anchors": ["src/recursive_mutex.cpp", "src/recursive_timed_mutex.cpp"]}
{"id": "C06", "title": "A timed lock attempt reports the truth", "statement": "try_lock_until()/try_lock_for() returns true only with ownership acquired by that very call; it returns false only when the deadline has been reached, and then it leaves the caller neither owning the mutex (unless it already did) nor registered as a waiter, so a later unlock() is never addressed to it.", "quantifier": "every deadline, every interleaving of expiry, unlock() and resumption", "why_tests_cant": "the race between timer and unlock has a window of a few instructions", "anchors": ["src/timed_mutex.cpp: timed_mutex::try_lock_until_", "src/recursive_timed_mutex.cpp: recursive_timed_mutex::try_lock_until_", "src/waker.cpp: wait_queue::suspend_and_wait_until"]}
{"id": "C07", "title": "A suspension is ended exactly once", "statement": "When a blocked fiber can be released by several parties at once (a notifier, a timer, another thread), exactly one of them resumes it; all others observe that they came too late and have no effect, even if they act after the fiber has blocked again on something else.", "quantifier": "any number of parties, any order, any number of later suspensions of the same fiber", "why_tests_cant": "a double resume corrupts the ready queue only under a precise multi-thread race", "anchors": ["src/context.cpp: context::wake", "include/boost/fiber/context.hpp: context::create_waker", "src/waker.cpp"]}
{"id": "C08", "title": "Notifying one waiter releases the longest-waiting live waiter, and never a dead one", "statement": "A single notification releases exactly one fiber if at least one fiber is still waiting, namely the one that has waited longest; registrations of fibers that were already released (for example by a timeout) are skipped without consuming the notification. Notifying all releases every live waiter.", "quantifier": "every sequence of waits, timeouts and notifications", "why_tests_cant": "requires arbitrary mixes of stale and live registrations", "anchors": ["src/waker.cpp: wait_queue::notify_one, wait_queue::notify_all"]}
{"id": "C09", "title": "condition_variable::wait misses no notification sent after the lock was released", "statement": "Releasing the lock and blocking are atomic: any notify_all() that starts after the waiter's lock was released releases that waiter, and any notify_one() then releases some waiter. In particular if the notifier changes the predicate under the same lock, no waiter sleeps through the change.", "quantifier": "every number of waiters and notifiers on any threads, every interleaving", "why_tests_cant": "a missed notification appears only when the notifier runs in the gap between unlock and enqueue", "anchors": ["include/boost/fiber/condition_variable.hpp: condition_variable_any::wait", "src/condition_variable.cpp"]}
{"id": "C10", "title": "No spurious wake-ups", "statement": "wait(lk) returns only if the waiter was released by a notify_one()/notify_all() call; each notify_one() accounts for at most one return.", "quantifier": "every history of waits and notifications", "why_tests_cant": "absence of an event over all schedules", "anchors": ["include/boost/fiber/condition_variable.hpp", "src/condition_variable.cpp", "src/waker.cpp"]}
{"id": "C11", "title": "The lock is held on return from every wait", "statement": "wait, wait_until and wait_for, with or without predicate, release the caller's lock while blocked and return only with the lock owned again by the caller, whether notified or timed out.", "quantifier": "every interleaving, both outcomes", "why_tests_cant": "tests check it on the schedules they happen to run", "anchors": ["include/boost/fiber/condition_variable.hpp: condition_variable_any::wait, wait_until, wait_for"]}
{"id": "C12", "title": "Predicate waits return on the predicate's truth", "statement": "wait(lk,pred) returns only when pred() just evaluated to true under the lock; wait_until(lk,tp,pred) returns the value pred() had when last evaluated under the lock, and returns false only after the deadline.", "quantifier": "every behaviour of the predicate over time, every schedule", "why_tests_cant": "the predicate's history is unbounded", "anchors": ["include/boost/fiber/condition_variable.hpp: wait(LockType&,Pred), wait_until(LockType&,time_point,Pred)"]}
{"id": "C13", "title": "Timed condition waits report why they returned", "statement": "wait_until/wait_for return no_timeout only if the waiter was released by a notification before its deadline, and timeout only if the deadline has been reached; documented converse: a waiter released by notify_one()/notify_all() returns no_timeout.", "quantifier": "every deadline, every race of notification, timer and resumption", "why_tests_cant": "the race window between notification and resumption is not controllable in a test", "anchors": ["include/boost/fiber/condition_variable.hpp: wait_until", "src/waker.cpp: wait_queue::suspend_and_wait_until", "src/scheduler.cpp: scheduler::wait_until"]}
{"id": "C14", "title": "Nobody passes a barrier early", "statement": "wait() on barrier(n) returns to a fiber only after n fibers, counting it, have called wait() in its batch.", "quantifier": "every n, every number of participants and rounds, every schedule", "why_tests_cant": "needs all schedules and arbitrary reuse", "anchors": ["src/barrier.cpp: barrier::wait"]}
{"id": "C15", "title": "Exactly one fiber per batch gets true", "statement": "In every completed batch of n wait() calls exactly one returns true and the other n-1 return false, and the barrier is immediately reusable. Constructing barrier(0) throws fiber_error(invalid_argument).", "quantifier": "every n, every number of rounds, every schedule", "why_tests_cant": "unbounded rounds and schedules", "anchors": ["src/barrier.cpp: barrier::barrier, barrier::wait"]}
{"id": "C16", "title": "No fiber is stranded in a completed batch", "statement": "Once the n-th fiber of a batch has called wait(), no member of that batch stays blocked: each has been made runnable and returns when it runs, even if later batches begin or finish first.", "quantifier": "every n, every schedule, overlapping batches", "why_tests_cant": "overlap of a slow waiter with the next round is schedule dependent", "anchors": ["src/barrier.cpp: barrier::wait", "src/condition_variable.cpp"]}
{"id": "C17", "title": "A buffered channel delivers every value exactly once in order", "statement": "The sequence of values obtained by successful pops (pop, value_pop, try_pop, pop_wait_until, iteration) is, at every moment, exactly the sequence of values of the successful pushes, in the order the pushes took effect, minus the values still in the channel. No value is lost, duplicated or reordered, and a push that did not return success enqueues nothing.", "quantifier": "every capacity, every history of operations by any number of fibers, every schedule", "why_tests_cant": "histories and interleavings are unbounded; ring-buffer index bugs appear at wrap-around", "anchors": ["include/boost/fiber/buffered_channel.hpp: push, try_push, push_wait_until, pop, try_pop, value_pop, pop_wait_until"]}
{"id": "C18", "title": "A buffered channel of capacity c holds at most c-1 values and uses all of them", "statement": "The channel never holds more than capacity-1 values; try_push returns full and push blocks exactly when it holds capacity-1; a capacity that is less than 2 or not a power of two is rejected with fiber_error(invalid_argument).", "quantifier": "every capacity, every history", "why_tests_cant": "off-by-one at the wrap of the ring for every capacity", "anchors": ["include/boost/fiber/buffered_channel.hpp: buffered_channel ctor, is_full_, push, try_push"]}
{"id": "C19", "title": "Closing a buffered channel", "statement": "After close() no push succeeds and each returns closed (a timed one that resumes after its deadline may return timeout instead); values already in the channel are still delivered in order; once drained every pop returns closed (value_pop throws; a timed pop resuming after its deadline may return timeout); no fiber stays blocked on the channel.", "quantifier": "every state at the time of close, every number of blocked producers and consumers, every later history", "why_tests_cant": "states at close time are unbounded", "anchors": ["include/boost/fiber/buffered_channel.hpp: close, push, pop, value_pop"]}
{"id": "C20", "title": "No fiber is stranded on a buffered channel", "statement": "With push, try_push, pop, try_pop, value_pop and close: whenever a producer is blocked, the channel is full or enough already-released producers are about to take the free places; whenever a consumer is blocked, the channel is empty or enough already-released consumers are about to take the values. So when nobody else is runnable, a blocked producer implies a full open channel and a blocked consumer an empty open channel.", "quantifier": "every number of producers and consumers, every history and schedule; values whose copy and move do not throw (for those see the property on throwing values)", "why_tests_cant": "lost wake-ups show only as rare hangs", "anchors": ["include/boost/fiber/buffered_channel.hpp", "src/waker.cpp"]}
{"id": "C21", "title": "A timed channel operation that gives up does not strand others (buffered)", "statement": "When push_wait_until/pop_wait_until returns timeout, no other fiber remains blocked although the channel has a free place (resp. a value) and nobody is runnable to use it.", "quantifier": "every interleaving of expiry, notification and resumption", "why_tests_cant": "needs the deadline to pass between notification and resumption", "anchors": ["include/boost/fiber/buffered_channel.hpp: push_wait_until, pop_wait_until"]}
{"id": "C22", "title": "Timed channel operations report the truth (buffered)", "statement": "push_wait_until returns success exactly if it enqueued its value, timeout only after its deadline and then without enqueuing, closed only if the channel is closed; pop_wait_until likewise for dequeuing.", "quantifier": "every deadline and schedule", "why_tests_cant": "race of timer with notifier", "anchors": ["include/boost/fiber/buffered_channel.hpp: push_wait_until, pop_wait_until"]}
{"id": "C23", "title": "Channel iteration visits and destroys each value exactly once", "statement": "Range-for over a channel yields each delivered value once, in order, stops when the channel is closed and drained, and destroys each value object it obtained exactly once.", "quantifier": "every sequence of delivered values", "why_tests_cant": "double destruction is silent for trivial types and the count of increments is unbounded", "anchors": ["include/boost/fiber/buffered_channel.hpp: iterator", "include/boost/fiber/unbuffered_channel.hpp: iterator"]}
{"id": "C24", "title": "An unbuffered channel hands each value to exactly one receiver", "statement": "Each value pushed is received by at most one pop; a push that returns success has had its value received by exactly one pop; values are received in the order in which producers placed them.", "quantifier": "every number of producers and consumers, every schedule at the granularity of the atomic operations", "why_tests_cant": "lock-free hand-off: interleavings at single-instruction granularity", "anchors": ["include/boost/fiber/unbuffered_channel.hpp: push, pop, value_pop"]}
{"id": "C25", "title": "push on an unbuffered channel is a rendezvous", "statement": "push() returns success only after a receiver took the value; while a value is offered and not taken the producer stays blocked (unless the channel is closed).", "quantifier": "every schedule", "why_tests_cant": "depends on ordering of wake-ups", "anchors": ["include/boost/fiber/unbuffered_channel.hpp: push"]}
{"id": "C26", "title": "Results of unbuffered pushes tell whether the value was delivered", "statement": "push returns closed, and push_wait_until returns closed or timeout, only if the value has not been and never will be received.", "quantifier": "every interleaving of pop, close, expiry and resumption", "why_tests_cant": "requires a close or expiry in the window between delivery and resumption of the producer", "anchors": ["include/boost/fiber/unbuffered_channel.hpp: push, push_wait_until, close"]}
{"id": "C27", "title": "An unbuffered channel never touches a value whose producer has gone", "statement": "No operation reads the value offered by a push call after that push call has returned.", "quantifier": "every interleaving, including close() and timeouts", "why_tests_cant": "use-after-return shows only under sanitizers on the exact schedule", "anchors": ["include/boost/fiber/unbuffered_channel.hpp: push, push_wait_until, pop, close"]}
{"id": "C28", "title": "No fiber is stranded on an unbuffered channel", "statement": "With push, pop, value_pop (no close, no timeouts): when nobody is runnable, there are not both a blocked producer and a blocked consumer.", "quantifier": "every number of producers and consumers, every schedule at atomic-operation granularity; values whose moves do not throw", "why_tests_cant": "lost wake-ups in a lock-free protocol", "anchors": ["include/boost/fiber/unbuffered_channel.hpp: push, pop"]}
{"id": "C29", "title": "Closing an unbuffered channel releases everybody", "statement": "After close() every later or blocked push returns closed and every blocked pop with no value on offer returns closed; nobody stays blocked.", "quantifier": "every state at the time of close, every schedule", "why_tests_cant": "close races with waiters entering the queues", "anchors": ["include/boost/fiber/unbuffered_channel.hpp: close"]}
{"id": "C30", "title": "A shared result is written once", "statement": "Through promise/packaged_task/async the result becomes ready at most once; a second set_value/set_exception throws promise_already_satisfied and the stored result never changes.", "quantifier": "every sequence of set_value, set_exception, moves, swaps and destruction", "why_tests_cant": "unbounded histories", "anchors": ["include/boost/fiber/future/detail/shared_state.hpp", "include/boost/fiber/future/promise.hpp"]}
{"id": "C31", "title": "Futures return exactly what was stored", "statement": "get() on a future or any copy of a shared_future blocks until the result is ready and then returns exactly the value stored or throws exactly the exception stored; get_exception_ptr() returns exactly the stored exception or null; wait_until returns ready only if the result is ready and timeout only after the deadline.", "quantifier": "every number of waiting fibers and handles, every schedule, value or exception", "why_tests_cant": "interleaving of waiters with the setter", "anchors": ["include/boost/fiber/future/detail/shared_state.hpp: wait_, get_, wait_until_, get_exception_ptr_", "include/boost/fiber/future/future.hpp"]}
{"id": "C32", "title": "Nobody waits forever on a ready result", "statement": "When the result is made ready, every fiber blocked in wait/get on it is made runnable; a fiber that starts waiting later does not block.", "quantifier": "every number of waiters, every schedule", "why_tests_cant": "lost wake-up between the readiness check and blocking", "anchors": ["include/boost/fiber/future/detail/shared_state.hpp: mark_ready_and_notify_, wait_"]}
{"id": "C33", "title": "An abandoned promise breaks its future", "statement": "If a promise (or packaged_task) whose future was retrieved is destroyed before a result was set, the future becomes ready with future_error(broken_promise), and never hangs.", "quantifier": "every order of moves, swaps, get_future, destruction", "why_tests_cant": "ownership histories are unbounded", "anchors": ["include/boost/fiber/future/promise.hpp: ~promise_base", "include/boost/fiber/future/packaged_task.hpp: ~packaged_task", "include/boost/fiber/future/detail/shared_state.hpp: owner_destroyed"]}
{"id": "C34", "title": "packaged_task::reset abandons the previous result cleanly", "statement": "After reset() the task can be invoked and its new future retrieved as if freshly constructed, and a future retrieved before reset() whose result was never produced reports broken_promise instead of waiting forever.", "quantifier": "every state of the task at reset", "why_tests_cant": "needs waiting on a future nobody will satisfy", "anchors": ["include/boost/fiber/future/packaged_task.hpp: reset"]}
{"id": "C35", "title": "Future and promise handle rules", "statement": "get_future() succeeds exactly once per result; operations on a handle without state throw no_state errors (future_uninitialized, promise_uninitialized, packaged_task_uninitialized); future::get() leaves the future invalid; a moved-from handle is invalid and the target takes over; share() transfers the state.", "quantifier": "every history of handle operations", "why_tests_cant": "unbounded histories", "anchors": ["include/boost/fiber/future/promise.hpp", "include/boost/fiber/future/future.hpp", "include/boost/fiber/future/packaged_task.hpp"]}
{"id": "C36", "title": "The shared state of a future lives exactly as long as its handles", "statement": "Through any history of creating, copying, moving and destroying promises, tasks, futures and shared_futures, the shared result is destroyed exactly once, exactly when its last handle goes away, and its value is destroyed if and only if one was stored.", "quantifier": "every history of handle operations by any number of holders", "why_tests_cant": "unbounded histories; leak or double free is silent", "anchors": ["include/boost/fiber/future/detail/shared_state.hpp: intrusive_ptr_add_ref, intrusive_ptr_release, ~shared_state_object"]}
{"id": "C37", "title": "async and packaged_task deliver the callable's outcome", "statement": "The future obtained from async or packaged_task yields exactly the callable's return value, or rethrows exactly the exception it threw; invoking a packaged_task twice throws promise_already_satisfied and leaves the first result.", "quantifier": "every callable outcome, every schedule of the worker and the waiter", "why_tests_cant": "all outcomes and interleavings", "anchors": ["include/boost/fiber/future/async.hpp", "include/boost/fiber/future/detail/task_object.hpp", "include/boost/fiber/future/packaged_task.hpp"]}
{"id": "C38", "title": "join returns only after the fiber finished, and always returns then", "statement": "fiber::join() returns only after the joined fiber's function has returned; every fiber blocked in join when it finishes is released; joining a finished fiber does not block.", "quantifier": "every order of joins and termination, any number of fibers, joiner and joined on any threads", "why_tests_cant": "race between the termination check and blocking", "anchors": ["src/context.cpp: context::join, context::terminate", "src/fiber.cpp: fiber::join"]}
{"id": "C39", "title": "Fiber handle rules", "statement": "A fiber handle is joinable exactly while it refers to a fiber that was neither joined, detached nor moved away; joining oneself throws fiber_error(resource_deadlock_would_occur), joining or detaching a non-joinable handle throws fiber_error(invalid_argument); destroying or overwriting a joinable handle terminates the program; otherwise each fiber has at most one handle.", "quantifier": "every history of construction, move, swap, join, detach, destruction", "why_tests_cant": "unbounded histories", "anchors": ["src/fiber.cpp", "include/boost/fiber/fiber.hpp"]}
{"id": "C40", "title": "A fiber's memory outlives its use and is freed once", "statement": "The control block and stack of a fiber are freed exactly once, only after the fiber has terminated and its last handle is gone.", "quantifier": "every order of termination, join, detach, handle destruction and dispatcher clean-up", "why_tests_cant": "use-after-free depends on ordering", "anchors": ["include/boost/fiber/context.hpp: intrusive_ptr_add_ref, intrusive_ptr_release", "src/scheduler.cpp: release_terminated_, terminate"]}
{"id": "C41", "title": "The scheduler neither loses nor duplicates fibers", "statement": "Every fiber that is runnable is queued exactly once until it is run; a running, blocked or finished fiber is not queued; no fiber runs in two places at once.", "quantifier": "every history of spawn, yield, block, wake (same thread or other thread), sleep, terminate and scheduler switch", "why_tests_cant": "queue bookkeeping over unbounded histories", "anchors": ["src/scheduler.cpp", "src/context.cpp: resume, schedule, yield, suspend, wake, terminate"]}
{"id": "C42", "title": "Round robin is FIFO and starvation-free", "statement": "With the default algorithm fibers are resumed in the order in which they became ready; a ready fiber with k fibers ahead of it runs after exactly k further switches, whatever the running fibers do.", "quantifier": "every queue length, every behaviour of the running fibers", "why_tests_cant": "fairness is a property of all infinite histories", "anchors": ["src/algo/round_robin.cpp: awakened, pick_next", "src/scheduler.cpp"]}
{"id": "C43", "title": "Sleeping fibers wake on time and in deadline order", "statement": "A fiber in sleep_until or a timed wait is not made runnable before its deadline unless it is notified; each time the scheduler looks, every fiber whose deadline has passed is made runnable, in deadline order, and the thread never sleeps past the earliest pending deadline.", "quantifier": "every set of sleepers and deadlines, every sequence of clock readings", "why_tests_cant": "timing dependent", "anchors": ["src/scheduler.cpp: sleep2ready_, wait_until, dispatch", "src/algo/round_robin.cpp: suspend_until"]}
{"id": "C44", "title": "A wake-up from another thread is never lost by an idle thread", "statement": "If a fiber is made runnable from another thread while its home thread is going to sleep or sleeping, the home thread wakes up (or does not go to sleep) and runs it.", "quantifier": "every interleaving of the idle thread's sleep sequence with remote wake-ups", "why_tests_cant": "a lost wake-up needs one interleaving of queue insertion and condition-variable wait", "anchors": ["src/scheduler.cpp: schedule_from_remote, remote_ready2ready_, dispatch", "src/algo/round_robin.cpp: suspend_until, notify"]}
{"id": "C45", "title": "Launch policy decides who runs next", "statement": "A fiber launched with post is queued behind the ready fibers while the launcher continues; a fiber launched with dispatch starts immediately and the launcher is queued as ready; in both cases each of the two is neither lost nor duplicated.", "quantifier": "every scheduler state", "why_tests_cant": "all states", "anchors": ["src/fiber.cpp: fiber::start_", "src/context.cpp: resume(context*)"]}
{"id": "C46", "title": "Switching the scheduling algorithm keeps all ready fibers", "statement": "use_scheduling_algorithm transfers every ready fiber to the new algorithm, once each and in the order the old algorithm would have run them.", "quantifier": "every set of ready fibers", "why_tests_cant": "all queue contents", "anchors": ["src/scheduler.cpp: scheduler::set_algo"]}
{"id": "C47", "title": "A thread does not shut down before its fibers are done", "statement": "When the main fiber of a thread ends, the thread's scheduler finishes only after every attached fiber (also detached ones) has terminated and been released.", "quantifier": "every set of fibers alive at shutdown, every schedule", "why_tests_cant": "all shutdown states", "anchors": ["src/scheduler.cpp: ~scheduler, dispatch, release_terminated_"]}
{"id": "C48", "title": "shared_work and work_stealing run every fiber exactly once and never migrate pinned fibers", "statement": "With shared_work or work_stealing each ready fiber is picked by exactly one thread per time it becomes ready, none is lost, and main and dispatcher fibers are only ever picked by their own thread.", "quantifier": "any number of threads, any interleaving of awakened, pick_next and steal", "why_tests_cant": "multi-thread interleavings", "anchors": ["src/algo/shared_work.cpp", "src/algo/work_stealing.cpp", "include/boost/fiber/detail/context_spinlock_queue.hpp"]}
{"id": "C49", "title": "A work-stealing pick always finishes", "statement": "pick_next() returns after finitely many steps for every admissible configuration (thread count, NUMA node layout).", "quantifier": "every thread count and CPU layout accepted by the constructor", "why_tests_cant": "non-termination at a boundary configuration", "anchors": ["src/algo/work_stealing.cpp: pick_next", "src/numa/algo/work_stealing.cpp: pick_next"]}
{"id": "C50", "title": "The work-stealing ready queue is a FIFO queue", "statement": "push/pop on the work-stealing ready queue behave as on an unbounded FIFO queue, across wrap-around and growth; steal takes the front element only if it may migrate; nothing is lost or duplicated when it grows.", "quantifier": "every initial capacity, every history", "why_tests_cant": "growth at every wrap position", "anchors": ["include/boost/fiber/detail/context_spinlock_queue.hpp"]}
{"id": "C51", "title": "The lock-free work-stealing deque hands out each fiber once", "statement": "For the lock-free queue variant, every pushed fiber is obtained by exactly one pop or steal, none is lost, under every interleaving of one owner and any number of thieves.", "quantifier": "every interleaving of the atomic operations, every history, growth at any point", "why_tests_cant": "lock-free races; index underflow on an empty queue", "anchors": ["include/boost/fiber/detail/context_spmc_queue.hpp"]}
{"id": "C52", "title": "Spinlocks exclude and do not lose sleepers", "statement": "Every spinlock variant lets at most one thread into the critical section; with the futex variants a thread sleeping in lock() is woken after the lock is released.", "quantifier": "any number of threads, every interleaving of the atomic operations and futex calls", "why_tests_cant": "atomic-level interleavings", "anchors": ["include/boost/fiber/detail/spinlock_ttas.hpp", "include/boost/fiber/detail/spinlock_ttas_adaptive.hpp", "include/boost/fiber/detail/spinlock_ttas_futex.hpp", "include/boost/fiber/detail/spinlock_ttas_adaptive_futex.hpp"]}
{"id": "C53", "title": "Fiber-specific pointers are per fiber and cleaned up exactly once", "statement": "get() returns the pointer last stored by reset() in the same fiber and the same fiber_specific_ptr (null initially, after release() and after reset(nullptr)); each stored non-null pointer is passed to the cleanup function exactly once, when replaced or when the fiber ends, except pointers taken out by release(), which are never cleaned up.", "quantifier": "every history of reset/get/release over any number of fibers and pointers, then termination", "why_tests_cant": "unbounded histories", "anchors": ["include/boost/fiber/fss.hpp", "src/context.cpp: get_fss_data, set_fss_data, terminate"]}
{"id": "C54", "title": "The cleanup function of a fiber-specific pointer is never called on null", "statement": "The cleanup function is invoked only on non-null pointers.", "quantifier": "every history of reset/release and termination", "why_tests_cant": "needs a release() or reset(nullptr) on a fiber that never stored a pointer, followed by fiber exit, with a custom cleanup function", "anchors": ["src/context.cpp: set_fss_data, terminate", "include/boost/fiber/fss.hpp"]}
{"id": "C55", "title": "Scheduler properties stay attached to their fiber", "statement": "With algorithm_with_properties every fiber gets its properties object before the algorithm sees it ready, keeps the same one for life, and property changes are reported to the algorithm exactly while the fiber is ready.", "quantifier": "every history of ready/run/block and property changes", "why_tests_cant": "unbounded histories", "anchors": ["include/boost/fiber/algo/algorithm.hpp: algorithm_with_properties", "src/properties.cpp", "include/boost/fiber/properties.hpp"]}
{"id": "C56", "title": "NUMA CPU lists are parsed completely", "statement": "Parsing a kernel CPU list such as 0-3,8,10-11 yields exactly the set of CPUs it denotes; local and remote CPU lists of a node partition all CPUs.", "quantifier": "every well-formed list, every topology", "why_tests_cant": "unbounded inputs", "anchors": ["src/numa/linux/topology.cpp: ids_from_line", "src/numa/algo/work_stealing.cpp: get_local_cpus, get_remote_cpus"]}
{"id": "C57", "title": "Waiting for GPU streams returns once, when all are done", "statement": "cuda/hip waitfor_all over streams returns after every stream has called back, exactly once, with each stream's status; duplicates count once.", "quantifier": "every set of streams, every order and timing of the callbacks", "why_tests_cant": "callback timing is uncontrollable", "anchors": ["include/boost/fiber/cuda/waitfor.hpp", "include/boost/fiber/hip/waitfor.hpp"]}
{"id": "C58", "title": "The control block fits on the fiber's stack", "statement": "For every stack the allocator may return, the control block placed on a new fiber's stack is 256-byte aligned, lies inside the stack and does not overlap the region handed to the fiber for execution, provided the stack is large enough.", "quantifier": "every stack base and size, every control-block size", "why_tests_cant": "address arithmetic over all alignments", "anchors": ["include/boost/fiber/context.hpp: make_worker_context_with_properties"]}
{"id": "C59", "title": "Fiber ids identify fibers and are totally ordered", "statement": "Two ids compare equal iff they refer to the same fiber or both to none; <, >, <=, >= form a total order consistent with equality; main and dispatcher are distinguishable from workers.", "quantifier": "all ids", "why_tests_cant": "all pairs and triples", "anchors": ["include/boost/fiber/context.hpp: context::id"]}
{"id": "C60", "title": "A passed deadline does not prevent taking a free mutex", "statement": "try_lock_until/try_lock_for with a time point already passed behaves as try_lock: it acquires the mutex if it is free.", "quantifier": "every time point and every state of the mutex", "why_tests_cant": "the instant at which the clock is read is not controllable; every deadline/clock combination", "anchors": ["src/timed_mutex.cpp: try_lock_until_", "src/recursive_timed_mutex.cpp: try_lock_until_", "doc/mutexes.qbk: try_lock_until"]}
{"id": "C61", "title": "A timed attempt by the owner of a timed_mutex is reported as deadlock", "statement": "timed_mutex::try_lock_until called by the fiber that owns the mutex throws resource_deadlock_would_occur instead of blocking.", "quantifier": "every history leading to an owner calling it", "why_tests_cant": "histories of ownership", "anchors": ["src/timed_mutex.cpp: try_lock_until_", "doc/mutexes.qbk: timed_mutex::try_lock_until"]}
{"id": "C62", "title": "try_lock neither fails spuriously nor waits", "statement": "try_lock returns true exactly if at that moment the mutex is free, or (recursive classes) owned by the caller; it finishes without waiting for any other fiber.", "quantifier": "every reachable state, all four classes", "why_tests_cant": "all interleavings with other fibers' attempts", "anchors": ["src/mutex.cpp: try_lock", "src/timed_mutex.cpp: try_lock", "src/recursive_mutex.cpp: try_lock", "src/recursive_timed_mutex.cpp: try_lock"]}
{"id": "C63", "title": "Timed operations on an unbuffered channel strand nobody", "statement": "Also with push_wait_for/until and pop_wait_for/until: when nobody is runnable and no deadline is pending, there are not both a blocked producer and a blocked consumer on an open channel.", "quantifier": "every number of producers and consumers, every deadline and clock, every schedule", "why_tests_cant": "needs an expiry between a notification and the notified fiber's resumption, or a producer queued behind one that gives up", "anchors": ["include/boost/fiber/unbuffered_channel.hpp: push_wait_until, pop_wait_until"]}
{"id": "C64", "title": "A promise may be destroyed once its result was received", "statement": "A fiber that got the value from the future may destroy the promise, also if the set_value call that provided it has not returned yet, without anybody accessing freed memory.", "quantifier": "every schedule of the setting and the receiving fiber, on one or several threads", "why_tests_cant": "the setter must be preempted between publishing the result and notifying", "anchors": ["include/boost/fiber/future/detail/shared_state.hpp: mark_ready_and_notify_", "include/boost/fiber/future/promise.hpp: set_value, ~promise"]}
{"id": "C65", "title": "Waking a fiber never uses a destroyed scheduler", "statement": "When a fiber notifies, unlocks, pushes or sets a value and thereby wakes a fiber of another thread, the library does not access that thread's scheduler after it was destroyed, even if the woken fiber runs, finishes and its thread ends before the waking call returns.", "quantifier": "every number of threads and fibers, every interleaving of the waking call with the other thread's run and exit", "why_tests_cant": "the waking thread has to be preempted between two adjacent statements while the other thread runs to its end", "anchors": ["src/scheduler.cpp: schedule_from_remote, ~scheduler", "src/context.cpp: schedule"]}
{"id": "C66", "title": "A fiber may be woken while its thread is ending", "statement": "A fiber that still waits when its thread's main function returns may be woken by another thread: the thread runs it to completion and ends, without a failed assertion.", "quantifier": "every number of threads and fibers, every interleaving of the wake-up with the end of the thread", "why_tests_cant": "depends on whether the other thread's exit comes before or after the wake-up, and on assertions being enabled", "anchors": ["src/scheduler.cpp: schedule_from_remote, dispatch, ~scheduler"]}
{"id": "C67", "title": "Stealing only looks at fibers that are in the queue", "statement": "With the lock-free queue, a thread that tries to steal accesses only fibers that are in the victim's ready queue at that moment: never a fiber that another thread has already taken (and perhaps finished and destroyed), and never a null pointer.", "quantifier": "every interleaving of one owner and any number of thieves, growth at any point", "why_tests_cant": "the thief must be preempted between loading the index or the element and its compare-exchange", "anchors": ["include/boost/fiber/detail/context_spmc_queue.hpp: steal, push"]}
{"id": "C68", "title": "No ready fiber starves", "statement": "With each of the predefined algorithms, a fiber that is ready (also the main fiber of a thread) is resumed after a bounded number of resumptions of other fibers by its thread, provided the running fibers keep suspending or yielding.", "quantifier": "every number of fibers and threads, every history, every schedule", "why_tests_cant": "an unbounded run is needed to see that a fiber is never chosen", "anchors": ["src/algo/round_robin.cpp: pick_next", "src/algo/shared_work.cpp: pick_next", "src/algo/work_stealing.cpp: pick_next", "src/scheduler.cpp: dispatch"]}
{"id": "C69", "title": "Adaptive spinlocks remember how long they spun", "statement": "The adaptive spinlocks keep an estimate of how often a thread has to retry, from which the time spent spinning before yielding is derived; the estimate always stays within the range of retry numbers observed so far.", "quantifier": "every history of lock and unlock calls by any number of threads", "why_tests_cant": "needs a long wait followed by a short one, and the value is only visible as wasted time", "anchors": ["include/boost/fiber/detail/spinlock_ttas_adaptive.hpp: lock", "include/boost/fiber/detail/spinlock_ttas_adaptive_futex.hpp: lock"]}
{"id": "C70", "title": "Cleanup functions may use fiber-specific pointers", "statement": "A cleanup function of a fiber_specific_ptr may itself call reset() and release() on fiber_specific_ptrs, also when it runs because the fiber ends: each stored pointer is still passed to its cleanup function exactly once (or released), none is forgotten at the end of the fiber, and there is no undefined behaviour.", "quantifier": "every history of nested reset/release calls, any number of pointers, any order of their addresses", "why_tests_cant": "depends on the relative addresses of the fiber_specific_ptr objects and on reading freed memory", "anchors": ["src/context.cpp: set_fss_data, terminate", "include/boost/fiber/fss.hpp: reset, release"]}
{"id": "C71", "title": "Cleanup functions may wait", "statement": "A cleanup function that runs at the end of a fiber may lock a mutex, sleep or otherwise suspend; joining the fiber meanwhile waits (or returns) without blocking the thread.", "quantifier": "every interleaving of any number of fibers of one thread that end, suspend in cleanup functions and join each other", "why_tests_cant": "the join must come between the suspension inside the cleanup function and its resumption; the symptom is a hang", "anchors": ["src/context.cpp: terminate, join", "src/scheduler.cpp: terminate"]}
{"id": "C72", "title": "The properties of a fiber can be used as soon as it exists", "statement": "In a thread whose algorithm derives from algorithm_with_properties, fiber::properties() gives the scheduler properties of a fiber from the moment its constructor returned until the fiber is gone.", "quantifier": "every history of launches (both policies), wake-ups and property accesses in any number of threads", "why_tests_cant": "needs a fiber that is entered at once, suspends without ever having been ready, and is then looked at by its creator", "anchors": ["include/boost/fiber/fiber.hpp: properties", "include/boost/fiber/algo/algorithm.hpp: algorithm_with_properties::awakened", "src/fiber.cpp: start_"]}
{"id": "C73", "title": "Spinlocks order memory under the C++ memory model", "statement": "With the memory orders the code asks for, and the reorderings the C++ memory model allows, two threads never hold one spinlock at the same time, and whatever the previous holders did to the protected data is visible to the next holder: the accesses do not race.", "quantifier": "every execution allowed by the view-based release/acquire semantics, any number of threads, each of the four test-and-test-and-set spinlocks", "why_tests_cant": "x86 hides missing release orders; the symptom appears only on weakly ordered processors or after compiler reordering", "anchors": ["include/boost/fiber/detail/spinlock_ttas.hpp: lock, try_lock, unlock", "include/boost/fiber/detail/spinlock_ttas_adaptive.hpp: lock, try_lock, unlock", "include/boost/fiber/detail/spinlock_ttas_futex.hpp: lock, try_lock, unlock", "include/boost/fiber/detail/spinlock_ttas_adaptive_futex.hpp: lock, try_lock, unlock"]}
{"id": "C74", "title": "Shared objects are destroyed once, after their last use, under the C++ memory model", "statement": "A reference-counted object (fiber, shared state of futures, scheduling algorithm, cleanup function) is destroyed exactly when its last reference is given up, by one thread, and everything any thread did with it through a reference happens before the destruction, with the memory orders the code asks for.", "quantifier": "every execution allowed by the view-based release/acquire semantics, any number of threads copying, passing and dropping references", "why_tests_cant": "needs two threads dropping the last references at the same time on a weakly ordered processor", "anchors": ["include/boost/fiber/context.hpp: intrusive_ptr_add_ref, intrusive_ptr_release", "include/boost/fiber/future/detail/shared_state.hpp: intrusive_ptr_add_ref, intrusive_ptr_release", "include/boost/fiber/algo/algorithm.hpp: intrusive_ptr_add_ref, intrusive_ptr_release", "include/boost/fiber/detail/fss.hpp: intrusive_ptr_add_ref, intrusive_ptr_release"]}
{"id": "C75", "title": "The lock-free ready queue works under the C++ memory model", "statement": "With the memory orders and fences the code asks for, and the reorderings the C++ memory model allows, every fiber pushed to a work-stealing queue is obtained by exactly one pop or steal or stays there, a pop fails only if the queue is empty, and the thread that steals a fiber sees everything the fiber did before.", "quantifier": "every execution allowed by the view-based release/acquire semantics with seq_cst fences: one owner, any number of thieves, any capacity, any number of growths", "why_tests_cant": "needs a weakly ordered processor and a window of a few instructions between the owner taking the last fiber and a thief", "anchors": ["include/boost/fiber/detail/context_spmc_queue.hpp: push, pop, steal, empty", "src/algo/work_stealing.cpp: pick_next, steal"]}
{"id": "C76", "title": "Stealing does not race with growing the queue or creating fibers", "statement": "A thread that looks for work in another thread's lock-free queue reads only arrays and fibers whose construction happens before, in the sense of the C++ memory model.", "quantifier": "every execution allowed by the view-based release/acquire semantics: one owner, any number of thieves, any capacity, any number of growths", "why_tests_cant": "a data race on plain members right after construction; on x86 it has no visible effect", "anchors": ["include/boost/fiber/detail/context_spmc_queue.hpp: push, steal", "include/boost/fiber/context.hpp: is_context"]}
{"id": "C77", "title": "The unbuffered channel hands data over under the C++ memory model", "statement": "With the memory orders the code asks for, whatever a fiber did before it pushed a value happens before what the fiber that popped the value does, and what the popping fiber did before its call happens before what the pushing fiber does after push returned success; a push returns success only if a pop has returned its value; no value is popped twice; as long as nobody closes the channel, no call fails and no value is read after its push returned.", "quantifier": "every execution allowed by the view-based release/acquire semantics: any number of producers and consumers on any threads, any interleaving, any choice of the messages read", "why_tests_cant": "x86 hides missing orders; on other processors the window is a few instructions wide", "anchors": ["include/boost/fiber/unbuffered_channel.hpp: push, pop, try_push_, try_pop_", "src/waker.cpp: wait_queue", "src/context.cpp: context::wake"]}
{"id": "C78", "title": "Closing an unbuffered channel publishes what was done before", "statement": "What a fiber did before it called close happens before what a fiber does whose push or pop returned closed because of that.", "quantifier": "every execution allowed by the view-based release/acquire semantics: any number of producers, consumers and closing fibers", "why_tests_cant": "a missing release order is invisible on x86, where every exchange is a full barrier", "anchors": ["include/boost/fiber/unbuffered_channel.hpp: close, is_closed, push, pop"]}
{"id": "C79", "title": "Closing an unbuffered channel reaches all waiting fibers under the C++ memory model", "statement": "Once the call of close that closed the channel has returned, no fiber is suspended because the channel was full (push) or empty (pop), and none gets suspended for that reason any more, although the flag, the slot and the queues are different objects and the flag is read and written without sequential consistency.", "quantifier": "every execution allowed by the view-based release/acquire semantics: any number of producers, consumers and closing fibers", "why_tests_cant": "needs a stale read of the flag in the window between the test and the suspension", "anchors": ["include/boost/fiber/unbuffered_channel.hpp: close, push, pop", "src/waker.cpp: wait_queue::suspend_and_wait, wait_queue::notify_all"]}
{"id": "C80", "title": "A value whose copy or move throws does no harm to a channel", "statement": "When copying or moving a value inside push, try_push or pop throws, the exception reaches the caller of that operation, and that is all: the value is not lost from the channel (a pop can be repeated), the channel goes on delivering every value exactly once in order, and no other fiber is left blocked that would not have been blocked if the failing call had not been made.", "quantifier": "every history of operations by any number of fibers on a buffered or an unbuffered channel in which any of the copies and moves of values may throw, every schedule", "why_tests_cant": "needs a value type that throws at a chosen moment, in a call that was blocked before and then released while further fibers are waiting", "anchors": ["include/boost/fiber/buffered_channel.hpp: push, try_push, push_wait_until, pop, try_pop, value_pop, pop_wait_until", "include/boost/fiber/unbuffered_channel.hpp: pop, value_pop, pop_wait_until"]}
{"id": "C81", "title": "Deadlines mean what they say for every duration and clock", "statement": "A timed operation called with a duration reports a timeout only after that much time has passed since the call; one called with a time point of a clock only when that clock has reached it. It can end as soon as that is the case, and computing the deadline has no undefined behaviour.", "quantifier": "every duration and unit (also the greatest, which users take for waiting without limit), every time point, every clock and whatever is done to it, every delay between the instructions that read clocks", "why_tests_cant": "tests use short waits; the clock would have to be set, or the thread be interrupted between two readings of clocks, at the right moment", "anchors": ["include/boost/fiber/detail/convert.hpp", "include/boost/fiber/timed_mutex.hpp: try_lock_for, try_lock_until", "include/boost/fiber/condition_variable.hpp: wait_for, wait_until", "include/boost/fiber/buffered_channel.hpp: push_wait_for, pop_wait_for", "include/boost/fiber/operations.hpp: sleep_for, sleep_until"]}
{"id": "C82", "title": "Mutexes order memory and are themselves free of data races", "statement": "What a fiber did to data while it had a mutex is visible to every fiber that has the mutex later, on whatever thread; two fibers never have it; and no sequence of calls to the mutex is a data race.", "quantifier": "all four mutex classes, every mix of lock, try_lock, timed try_lock and unlock, every number of fibers and threads, every value the C++ memory model lets a thread read", "why_tests_cant": "tests run on processors with stronger memory models, and a data race rarely shows", "anchors": ["src/mutex.cpp", "src/timed_mutex.cpp", "src/recursive_mutex.cpp", "src/recursive_timed_mutex.cpp", "src/waker.cpp: suspend_and_wait_until", "include/boost/fiber/detail/spinlock_ttas.hpp"]}
{"id": "C83", "title": "Work-stealing threads start together and find each other", "statement": "If n threads install work_stealing with count n (or numa work_stealing, one thread per CPU), every constructor returns, none before all threads are there, and from then on whoever is asked for work is a live scheduler of the group; and a program may do so again with another group of threads later.", "quantifier": "every number of threads, every order and interleaving of the constructors, every CPU numbering, every number of successive groups", "why_tests_cant": "the order in which threads pass the constructors is up to the system; tests create one group per process", "anchors": ["src/algo/work_stealing.cpp: work_stealing(), init_, pick_next", "src/numa/algo/work_stealing.cpp: work_stealing(), init_, pick_next", "include/boost/fiber/detail/thread_barrier.hpp"]}
{"id": "C84", "title": "Launching, joining and migrating fibers order memory", "statement": "What a fiber has done before it launches another fiber is visible to that fiber, and what a fiber has done is visible to whoever has returned from join() for it, whichever threads run them and however often they migrate; launching, joining, waking and migrating use no data of the library in a race; join() returns only when the function of the fiber has returned; and a fiber runs on one thread at a time.", "quantifier": "every number of threads (each with round_robin, shared_work or work_stealing) and of fibers, every program of uses, launches, joins, yields and ends, every interleaving, every choice of messages that the C++ memory model allows", "why_tests_cant": "missing order shows only on weakly ordered hardware or with an optimising compiler, and tests cannot enumerate what loads may read", "anchors": ["src/context.cpp: join, terminate, wake, resume, resume_with", "src/scheduler.cpp: schedule, schedule_from_remote, remote_ready2ready_, attach_worker_context, detach", "src/waker.cpp: suspend_and_wait, notify_all", "src/fiber.cpp: start_", "src/algo/shared_work.cpp", "src/algo/work_stealing.cpp", "include/boost/fiber/detail/context_spinlock_queue.hpp"]}
{"id": "C85", "title": "Speculative spinlocks behave like spinlocks", "statement": "A library built with BOOST_USE_TSX, whose spinlocks elide locking by hardware transactions, behaves like one with ordinary spinlocks: what the threads complete is what they could have completed with ordinary locks held by one thread at a time, whichever transactions are rolled back, in whatever nesting of locks; no thread ends a transaction it has not begun; rollbacks do not keep a thread from getting a free lock; and an attempt to get a lock fails only when somebody holds it, so that a fiber whose timed wait has timed out comes back.", "quantifier": "every number of threads and locks, every program that locks what it does not hold and unlocks what it holds, every interleaving, every rollback of any transaction at any moment with any status", "why_tests_cant": "when the hardware rolls a transaction back cannot be controlled by a test; most machines have no transactions at all", "anchors": ["include/boost/fiber/detail/spinlock_rtm.hpp: lock, try_lock, unlock", "include/boost/fiber/detail/rtm.hpp", "src/waker.cpp: suspend_and_wait_until"]}
{"id": "C86", "title": "A launch takes care of the callable, its arguments and the stack", "statement": "The callable passed to a fiber is called once, with the arguments that were passed, and neither is lost or used up on the way; lvalues of the caller are left as they are; every object the launch constructs is destroyed exactly once, and the stack is given back once, after all of them; a launch that throws because copying or moving throws has destroyed what it constructed and given back the stack; and when join has returned, no copy of the callable or its arguments is left.", "quantifier": "every number of arguments, every constructor of fiber, every mixture of types whose move steals or is a copy, lvalues and rvalues, an exception from any construction, allocation or the callable, every order of join, detach and the dispatcher's clean-up", "why_tests_cant": "tests launch with types that do not throw and do not count their copies; a copy that outlives join is visible only if the dispatcher is late", "anchors": ["include/boost/fiber/fiber.hpp: constructors of fiber", "include/boost/fiber/context.hpp: worker_context, make_worker_context_with_properties, intrusive_ptr_release", "src/fiber.cpp: start_, join, detach"]}
{"id": "C87", "title": "Data protected by spinlocks behave as on sequentially consistent memory", "statement": "If the threads of a program share their data with the help of spinlocks - the right to access data has shares, who has one share may read, who has all shares may write, and shares are handed on only by releasing and taking locks - then, with the memory orders the library uses, there is no data race, every read returns what was written last, and the threads see nothing they could not see on sequentially consistent memory; everything that can be seen there can really happen; and when threads take all locks of a critical section before releasing the first one, the threads see nothing they could not see if critical sections were single uninterrupted steps. It is enough to check the discipline on sequentially consistent memory, for instance that data are accessed only while the lock they belong to is held.", "quantifier": "every program (any number of threads, locks and data; what a thread does next may depend on all it has seen), every execution under the C++ memory model", "why_tests_cant": "tests run on the memory order of one processor and see few interleavings; an error in the memory orders shows on other processors only", "anchors": ["include/boost/fiber/detail/spinlock_ttas.hpp: lock, try_lock, unlock", "include/boost/fiber/detail/spinlock.hpp: spinlock"]}
{"id": "C88", "title": "Objects whose operations are critical sections behave as if each were a single step; mutexes are locks", "statement": "Programs that share their own data with the help of objects of the library whose operations are critical sections - the right to access data has shares, who has one share may read, who has all shares may write, and shares are handed on only through operations on the objects - have no data race on weak memory, neither in their data nor inside the objects; the threads see exactly what they can see when each critical section is a single step on ordinary memory. This holds for objects protected by spinlocks and for objects protected by mutexes of the library. In particular the mutex of the library, made of a spinlock, a pointer and a queue, is a lock: data accessed only while their mutex is held are free of races, reads return what was written last, and critical sections of mutexes are single steps.", "quantifier": "every object given by the code of its critical sections, every program using any number of them and of its own data, every number of fibers, every execution under the C++ memory model", "why_tests_cant": "the argument is about all programs and all weak-memory executions; a test runs one program on one processor", "anchors": ["src/mutex.cpp: mutex::lock, mutex::unlock", "include/boost/fiber/detail/spinlock_ttas.hpp: lock, unlock", "include/boost/fiber/mutex.hpp: mutex"]}
{"id": "C89", "title": "Data can be handed over through buffered channels without a data race", "statement": "A program in which every thread accesses only data that belonged to it in the beginning, or whose name it has popped from a buffered channel, and whose name it has not pushed since, has no data race on weak memory (other elements are plain numbers, which may be pushed and popped at will), neither in its data nor inside the channels, whatever number of producers and consumers and whichever of the operations (blocking, with a timeout, trying) it uses; at no time two threads have the same data, and threads see what they can see when operations on channels are single steps on ordinary memory. What is popped from a channel is what was pushed, in this order and each element once; a channel never holds as many elements as its capacity, and no slot out of range is accessed.", "quantifier": "every program, every number of threads and channels, all capacities (at least 2), every execution under the C++ memory model", "why_tests_cant": "the argument is about all programs and all weak-memory executions; a test runs one program on one processor", "anchors": ["include/boost/fiber/buffered_channel.hpp: push, try_push, push_wait_until, pop, try_pop, pop_wait_until, close, is_closed", "src/waker.cpp: wait_queue", "include/boost/fiber/detail/spinlock_ttas.hpp: try_lock, unlock"]}
{"id": "C90", "title": "Threads that go through phases with a barrier between them do not race", "statement": "If a fixed number of fibers go through phases with a barrier between them, and in every phase each piece of data is used by one fiber only or is only read, then there is no data race on weak memory, neither in the data nor inside the barrier, although no lock is held while the data are accessed; the fibers see what they can see when wait is made of single steps on ordinary memory. No fiber is in a later phase than another one, unless the other one has arrived at the barrier and has just not returned yet, and then one phase later at most. In every phase wait returns true to exactly one fiber.", "quantifier": "every number of fibers, every program with phases, every plan who uses what in which phase, every execution under the C++ memory model", "why_tests_cant": "the argument is about all programs and all weak-memory executions; a test runs one program on one processor", "anchors": ["src/barrier.cpp: barrier::wait", "include/boost/fiber/barrier.hpp: barrier", "src/mutex.cpp: mutex::lock, mutex::unlock", "include/boost/fiber/detail/spinlock_ttas.hpp: lock, unlock"]}
{"id": "C91", "title": "Data published with a promise can be used where the future is ready", "statement": "Programs whose fibers write data, set a promise, and use the data in other fibers only after these have found the future ready, have no data race on weak memory, neither in the data nor inside the shared state, although no lock is held while the data are accessed. This includes data that many holders of a shared future read at the same time, and data that are written again after all readers have reported back with promises of their own. The fibers see what they can see when the operations are made of single steps on ordinary memory: a promise is set at most once, every future gets the value or exception the promise was set to, all get the same, and a future gets something only if somebody set the promise to it, or destroyed the promise without setting it.", "quantifier": "every program, every number of fibers, promises and readers, every plan who gets which data with which promise, every execution under the C++ memory model", "why_tests_cant": "the argument is about all programs and all weak-memory executions; a test runs one program on one processor", "anchors": ["include/boost/fiber/future/detail/shared_state.hpp: shared_state_base, shared_state", "include/boost/fiber/future/promise.hpp: promise::set_value, promise::set_exception, ~promise_base", "include/boost/fiber/future/future.hpp: future::get, future::wait, future::wait_for, future::get_exception_ptr, shared_future::get", "src/mutex.cpp: mutex::lock, mutex::unlock"]}
{"id": "C92", "title": "No call spins for ever on a lock inside of the library", "statement": "The library protects its queues with spinlocks and mutexes of its own. Whatever fibers and threads call, in whatever order, these locks never deadlock: as long as one is taken, some thread that holds one can go on, threads that hold locks cannot go on for ever without releasing them, and from every state all of them get free without any new call. So calls that are not meant to wait (unlock, notify_one, notify_all, close, launching a fiber, dropping a handle) can always return, whatever the other threads are in the middle of.", "quantifier": "every number of threads and fibers, every sequence of calls to mutexes, condition variables, channels, fibers and schedulers, all three scheduling algorithms, every interleaving of the single lock operations", "why_tests_cant": "a deadlock needs a particular interleaving of several threads inside of critical sections that last nanoseconds; tests hit it by luck only", "anchors": ["src/mutex.cpp, src/timed_mutex.cpp, src/recursive_mutex.cpp, src/recursive_timed_mutex.cpp", "src/condition_variable.cpp, include/boost/fiber/condition_variable.hpp", "src/waker.cpp: wait_queue", "include/boost/fiber/buffered_channel.hpp, include/boost/fiber/unbuffered_channel.hpp", "src/context.cpp: join, terminate, wake, resume, ~context", "src/scheduler.cpp: dispatch, schedule_from_remote, remote_ready2ready_, set_algo", "src/algo/round_robin.cpp, src/algo/shared_work.cpp, src/algo/work_stealing.cpp"]}
{"id": "C93", "title": "A condition variable can be used with any lock", "statement": "condition_variable_any::wait works with every lock type: also if unlock() of the lock itself waits, or notifies, the program does not stop.", "quantifier": "every lock type of the user, every number of threads and fibers, every sequence of calls, every interleaving", "why_tests_cant": "tests use the mutexes of the library only; a lock whose unlock waits is needed, and another fiber that uses the condition variable meanwhile", "anchors": ["include/boost/fiber/condition_variable.hpp: condition_variable_any::wait, condition_variable_any::wait_until", "src/condition_variable.cpp: notify_one, notify_all"]}
{"id": "C94", "title": "Fibers that communicate through channels give the same results whatever the schedule", "statement": "In a program whose fibers or threads communicate only through buffered channels, with one that pushes to and closes each channel and one that pops from it, with operations that wait, and hand data over through the channels, what each of them does and sees does not depend on how they are scheduled, nor on anything the memory model leaves open: of any two executions, each thread has done and seen exactly the same in both, as far as it has got. A thread that has come to its end in one execution does nothing else in any other one. If all threads come to their ends in one execution, no execution gets stuck.", "quantifier": "every program of this kind, every number of threads and channels, all capacities (at least 2), every pair of executions under the C++ memory model", "why_tests_cant": "the claim compares all schedules with each other; a test sees a few of them, on one processor, and cannot know that another one would have given another result or a deadlock", "anchors": ["include/boost/fiber/buffered_channel.hpp: push, pop, close"]}
{"id": "C95", "title": "Fibers that wait in an order come to their end", "statement": "If the fibers of a program wait in an order - each waits, for a mutex, for a promise, or for the end of another fiber, only for what is below all mutexes it holds, all promises it has still to set, all fibers it has still to launch, and its own end - and each unlocks what it locks, sets its promises once and launches its fibers once, then no operation throws, there is no deadlock, no execution goes on for ever, and each execution ends with all fibers ended, all mutexes free, nobody waiting and all promises set. Recursive mutexes may be locked again; try_lock may be called at any time, and so may try_lock_until if all that wait for the mutex have time limits.", "quantifier": "every program of this kind, with any number of fibers, mutexes and promises, branching on anything, all schedules and any number of threads, all points in time at which time limits are over", "why_tests_cant": "deadlocks and lost wake-ups show up in few schedules; that none of infinitely many programs and schedules has one, and that wake-ups always lead to the end, is a statement about all of them", "anchors": ["src/mutex.cpp: lock, try_lock, unlock", "src/recursive_mutex.cpp: lock, try_lock, unlock", "src/timed_mutex.cpp: try_lock_until_", "src/recursive_timed_mutex.cpp: try_lock_until_", "src/waker.cpp: suspend_and_wait, notify_one, notify_all", "src/context.cpp: join, terminate", "include/boost/fiber/future/detail/shared_state.hpp: set_value_, mark_ready_and_notify_, wait_", "src/fiber.cpp: start_, join"]}
{"id": "C96", "title": "A thread has one scheduler, with the algorithm asked for, as long as it lives", "statement": "A thread that uses fibers gets one scheduler, when it uses them for the first time; initialize_thread and use_scheduling_algorithm give it the algorithm asked for, whenever they are called, and initialize_thread returns true if and only if fibers had not been used before; whatever the thread does - also in fibers that have not ended when the function of the thread returns, and in destructors of thread_local objects - fibers can be used; the scheduler is destroyed exactly once, when the thread ends.", "quantifier": "every sequence of uses of fibers, calls of initialize_thread, constructions of thread_local objects, and what their destructors and the remaining fibers do at the end of the thread", "why_tests_cant": "the order in which thread_local objects are constructed and destroyed depends on what the program did first in each thread; tests end their threads in one or two of these ways", "anchors": ["src/context.cpp: context_initializer, initialize_thread, active, reset_active", "src/scheduler.cpp: ~scheduler, set_algo", "include/boost/fiber/operations.hpp: initialize_thread, use_scheduling_algorithm"]}
{"id": "C97", "title": "Fibers of one thread take turns only where they say so, and always in the same way", "statement": "While a fiber runs it is not interrupted by another fiber of its thread: until it makes a call that gives way (yield, waiting, sleeping, launching a fiber with launch::dispatch, its end), the thread runs no other fiber, whatever other threads do, whoever becomes ready and whichever deadlines pass. And a program that runs on one thread, and does not wait with deadlines, always behaves in the same way: in any two executions the same fibers make the same calls, in the same order and with the same results, however time passes and however often the thread wakes up for no reason.", "quantifier": "every reachable state of any number of threads and every sequence of events after it; every program for one thread (any function from what happened so far to the next call of the running fiber) and any two of its executions", "why_tests_cant": "a test sees some executions; that no execution ever switches in between, and that no two executions ever differ, is a statement about all of them", "anchors": ["src/scheduler.cpp: dispatch, schedule, schedule_from_remote, yield, suspend, terminate", "src/context.cpp: resume, schedule, wake", "src/fiber.cpp: start_", "src/algo/round_robin.cpp: awakened, pick_next, suspend_until"]}
{"id": "C98", "title": "An asynchronous operation of asio suspends the calling fiber until it is completed, and gives it the result", "statement": "A fiber that calls an asynchronous operation of asio with the completion token yield goes on exactly once, after the completion handler was called, whichever thread calls it and however the call is interleaved with the fiber that is about to suspend itself: the operation returns the value the handler was called with, and the error code is in the variable bound with yield[ec]; without such a variable an error is thrown. No completion is lost, no fiber is scheduled that is not suspended, and the object the fiber and the handlers share is deleted exactly once, after its last use.", "quantifier": "every number of fibers and operations, every interleaving of the fibers with the handlers of their operations, every way in which asio copies and destroys handlers", "why_tests_cant": "a completion that comes while the fiber is between looking at the state and being suspended is a matter of nanoseconds, and it loses the wake-up or resumes a running fiber if the protocol is wrong", "anchors": ["examples/asio/detail/yield.hpp: yield_completion, yield_handler_base, yield_handler, async_result_base, async_result", "examples/asio/yield.hpp: yield_t", "src/context.cpp: suspend, schedule, resume"]}
{"id": "C99", "title": "Waiting for the first, or for all, of several functions gives the right result, and ends", "statement": "The functions wait_first_* and wait_all_* of the examples run the functions passed to them in fibers of their own. Waiting for the first gives the value or the exception of the function that came to its end first; waiting for the first success gives the first value, or the exceptions of all; waiting for all gives every value once, in the order in which they came, or the first exception, or all exceptions. The caller returns once, as soon as what it waits for has happened, and no fiber is left waiting for ever.", "quantifier": "every number of functions, every outcome of each, every order in which they come to their end, every schedule of the fibers on one thread; for the results also on several threads", "why_tests_cant": "the tests run three functions with fixed sleeping times; the defects need 65 functions, or two threads", "anchors": ["examples/wait_stuff.cpp: Done, wait_first_simple, wait_first_value, wait_first_value_het, wait_first_outcome, wait_first_success, wait_all_simple, nchannel, wait_all_values, wait_all_until_error, wait_all_collect_errors"]}
{"id": "C100", "title": "With the priority scheduler the ready fiber of the highest priority runs, and fibers of equal priority take turns", "statement": "With the scheduling algorithm of the priority example, which the documentation gives as a model for one's own, the fiber that is taken when a fiber blocks, sleeps, ends or yields is always one whose priority is the highest among the ready ones, with the priorities as last set, and of those with that priority the one that has been ready for the longest time. No fiber that became ready is lost, and there is always one to run. A fiber waits for no more others than were before it, unless one of higher priority becomes ready. A fiber whose sleep is over, or that another thread has woken, becomes ready, and runs before fibers of lower priority; a fiber that yields does not give way to one of lower priority.", "quantifier": "every number of fibers, all priorities, every sequence of yields, blocking, sleeping, wake-ups from this and other threads, launches and changes of priorities, every passing of time", "why_tests_cant": "the example runs two fibers on one fixed schedule; the starvation needs fibers of positive priority that go on yielding to each other", "anchors": ["examples/priority.cpp: priority_props, priority_scheduler", "doc/customization.qbk: Custom Scheduler Class", "src/scheduler.cpp: dispatch, schedule, yield, wait_until, suspend"]}
{"id": "C101", "title": "A thread that runs both fibers and an io_context sleeps only when it may, and wakes for handlers, deadlines and other threads", "statement": "With the scheduling algorithm that runs an io_context in the main fiber, as given for integrating fibers with asio, ready fibers run in the order in which they became ready, and each after a bounded number of others. The thread sleeps in the io_context only if no fiber is ready. If another thread wakes a fiber, the thread wakes up and the fiber runs. If a fiber sleeps until some time, a timer is set for then or earlier whenever the thread sleeps, so that the fiber runs. Handlers do not keep ready fibers from running, nor fibers handlers.", "quantifier": "every number of fibers and handlers, every sequence of yields, blocking, sleeping, launches, wake-ups from this and other threads, completions of operations, expirations of the timer and passing of time", "why_tests_cant": "the examples run a fixed set of fibers that are launched before the loop starts and never wake each other across threads; the hangs need a fiber that sleeps before the loop first sees it, or a notification that is delayed by the operating system", "anchors": ["examples/asio/round_robin.hpp: round_robin", "doc/integration.qbk", "src/scheduler.cpp: dispatch, schedule_from_remote, yield, wait_until, suspend"]}
{"id": "C102", "title": "Functions that wrap operations with a callback return what the callback got, and use nothing after its end", "statement": "The functions given for waiting in a fiber for an operation that reports its end by a callback (write_ec, write, read_ec, read, and the one for a pure virtual method) return the error code and the data the callback is called with, or throw them as an exception, exactly once and not before the callback is called. Whichever thread calls and destroys the callback, and whenever, neither the promise nor the state it shares with the future is used after its end, and the state is freed once. If the callback is destroyed without having been called, broken_promise is thrown.", "quantifier": "every error code and data, every interleaving of the waiting fiber with the thread that calls and destroys the callback, every number of calls of the callback, also none", "why_tests_cant": "the examples call the callback from a thread that sleeps first, so that the fiber always waits already; the window in which the fiber returns while the callback still notifies is a few instructions wide", "anchors": ["examples/adapt_callbacks.cpp: write_ec, write, read_ec, read", "examples/adapt_method_calls.cpp: PromiseResponse, read", "include/boost/fiber/future/promise.hpp: promise_base", "include/boost/fiber/future/detail/shared_state.hpp: mark_ready_and_notify_, owner_destroyed", "doc/callbacks.qbk"]}
{"id": "C103", "title": "Reading from a nonblocking interface gives all the data it gave, in order, and the right status", "statement": "The functions given for waiting in a fiber for a nonblocking interface return all the data the interface has given, in order and without loss, also if an error follows. They ask only for what is still missing, stop as soon as they have what was desired, never return EWOULDBLOCK, and return or throw an error exactly if the interface answered it before there was enough; read treats the end of the data as success. The fiber yields exactly once each time the interface is not ready. If the interface gives at least one character with each success, it is called a bounded number of times besides those at which it was not ready.", "quantifier": "every desired length, and every sequence of answers of the interface: not ready, errors, and pieces of data of any length", "why_tests_cant": "the example reads from one simulated interface, with a fixed size of pieces and five tries for each; losses or a wrong status would show only at particular boundaries between pieces, errors and the desired length", "anchors": ["examples/adapt_nonblocking.cpp: read_chunk, read_desired, IncompleteRead, read", "doc/nonblocking.qbk"]}
{"id": "C104", "title": "A pool of threads runs all its fibers to their ends, and no thread leaves before", "statement": "In the program given for running fibers on several threads (launch detached fibers, count them, let the main fiber of every thread wait on a condition variable until the count is zero, then join the threads), for any number of threads and fibers: every fiber runs to its end exactly once; no thread leaves as long as a fiber has not; the last fiber wakes every waiting thread, so that all threads leave and the main thread joins them, whatever the interleaving; and when it has, nothing uses the mutex or the condition variable any more.", "quantifier": "every number of threads and of worker fibers, every number of yields of each, every interleaving of the threads and every choice of the ready fiber a thread runs next", "why_tests_cant": "the example runs 26 fibers on 4 threads; a lost wake-up, or a thread that leaves with fibers still in its queue, would need a certain interleaving of the last fiber's end with a thread that is about to wait", "anchors": ["examples/work_sharing.cpp: whatevah, thread, main", "examples/work_stealing.cpp", "include/boost/fiber/condition_variable.hpp: condition_variable_any::wait", "src/condition_variable.cpp: notify_all", "include/boost/fiber/detail/thread_barrier.hpp", "doc/migration.qbk"]}
{"id": "C105", "title": "A fiber that waits for a mutex gets its turn", "statement": "If whoever has a mutex releases it and whoever can go on goes on, every fiber that has called lock() gets the mutex, and fibers get it in the order in which they have begun to wait.", "quantifier": "all four classes of mutexes, every number of fibers, every infinite history of lock, try_lock and unlock calls, every fair schedule", "why_tests_cant": "starvation shows only in infinite executions, and only in certain interleavings of unlock() with new calls of lock()", "anchors": ["src/mutex.cpp: mutex::lock, mutex::unlock", "src/timed_mutex.cpp: timed_mutex::lock, timed_mutex::unlock", "src/recursive_mutex.cpp: recursive_mutex::lock, recursive_mutex::unlock", "src/recursive_timed_mutex.cpp: recursive_timed_mutex::lock, recursive_timed_mutex::unlock", "src/waker.cpp: wait_queue::notify_one"]}
{"id": "C106", "title": "The NUMA topology describes the machine", "statement": "On every supported system topology() lists every NUMA node that has CPUs, with its id and exactly its CPUs, and every CPU at one node only; distance, indexed by node id, is 10 for the node itself and greater for every other node.", "quantifier": "every machine that the operating system may report: all numbers of nodes, ids with and without gaps, all assignments of CPUs and memory", "why_tests_cant": "a test sees one machine; nodes without CPUs or without memory, gaps in the ids and nested groups are rare", "anchors": ["src/numa/aix/topology.cpp: topology", "src/numa/freebsd/topology.cpp: topology", "src/numa/linux/topology.cpp: topology, distance_from_line", "src/numa/solaris/topology.cpp: topology, explore", "src/numa/windows/topology.cpp: topology, compute_cpu_set, procinfo_iterator"]}
{"id": "C107", "title": "pin_thread pins to exactly the given CPU", "statement": "pin_thread(c) leaves the thread bound to CPU c and no other, or throws; for every CPU that topology() lists on the same system and that is there it binds to that CPU.", "quantifier": "all 32-bit numbers, all sets of CPUs that are there, 32-bit and 64-bit Windows with any number of processor groups", "why_tests_cant": "a machine has few CPUs; numbers that are truncated or reserved need values no test machine has", "anchors": ["src/numa/aix/pin_thread.cpp: pin_thread", "src/numa/freebsd/pin_thread.cpp: pin_thread", "src/numa/linux/pin_thread.cpp: pin_thread", "src/numa/solaris/pin_thread.cpp: pin_thread", "src/numa/windows/pin_thread.cpp: pin_thread", "src/numa/windows/topology.cpp: compute_cpu_set"]}
{"id": "C108", "title": "Fibers that have all reached a barrier come through", "statement": "When n fibers use a barrier for n and each of them has called wait() k times, k calls of each return, under every fair schedule. When any number of fibers use a barrier for n and stop calling wait(), in the end exactly the calls of complete batches have returned: n * (c / n) of c calls.", "quantifier": "all n, all infinite executions in which whoever can go on goes on, all numbers of rounds, and fibers that are also used elsewhere", "why_tests_cant": "it speaks of infinite executions; a test that waits cannot tell a late return from none", "anchors": ["src/barrier.cpp: wait", "include/boost/fiber/barrier.hpp: barrier", "src/condition_variable.cpp: notify_all"]}
{"id": "C109", "title": "Calls on a buffered channel return", "statement": "Under every fair schedule: after close() every call returns, those that were blocked and those made later; try_push, try_pop, close and is_closed always return; a call with a deadline returns once the deadline has passed. When P blocking pushes and C blocking pops have been made and no more calls come, in the end exactly as many have succeeded as can: min(P, C) pops and min(P, C + capacity - 1) pushes.", "quantifier": "all capacities of at least two, all infinite executions in which whoever can go on goes on (for deadlines also: in which the scheduler looks after its timers), any number of fibers; for the first three parts also values whose copies throw", "why_tests_cant": "it speaks of infinite executions; a test that waits cannot tell a late return from none", "anchors": ["include/boost/fiber/buffered_channel.hpp: push", "include/boost/fiber/buffered_channel.hpp: pop", "include/boost/fiber/buffered_channel.hpp: close", "src/waker.cpp: notify_one", "src/scheduler.cpp: sleep2ready_"]}
{"id": "C110", "title": "A blocked pop returns if values keep coming", "statement": "A fiber that waits in pop() gets a value in the end if values keep being pushed, and one that waits in push() gets room if values keep being taken, whatever other fibers use the channel.", "quantifier": "all infinite executions in which whoever can go on goes on, all capacities", "why_tests_cant": "it speaks of infinite executions and of fibers that overtake each other without bound", "anchors": ["include/boost/fiber/buffered_channel.hpp: pop", "include/boost/fiber/buffered_channel.hpp: push", "src/waker.cpp: notify_one"]}
{"id": "C111", "title": "Pushes and pops on an unbuffered channel meet", "statement": "When P pushes and C pops have been made on an unbuffered channel and no more calls come, then under every fair schedule in the end exactly as many have succeeded as can: min(P, C) pushes have returned success and min(P, C) pops have returned a value.", "quantifier": "all infinite executions in which whoever can go on goes on, any number of fibers and calls without deadlines (push, pop, value_pop, is_closed), values whose moves do not throw, a channel that is not closed", "why_tests_cant": "it speaks of infinite executions and of every interleaving of a lock-free slot with two wait queues; a test that waits cannot tell a late return from none", "anchors": ["include/boost/fiber/unbuffered_channel.hpp: push", "include/boost/fiber/unbuffered_channel.hpp: pop", "include/boost/fiber/unbuffered_channel.hpp: value_pop", "include/boost/fiber/unbuffered_channel.hpp: try_push_", "include/boost/fiber/unbuffered_channel.hpp: try_pop_", "src/waker.cpp: notify_one"]}
{"id": "C112", "title": "A blocked call on an unbuffered channel returns", "statement": "A fiber that waits in pop() on an unbuffered channel gets a value in the end if values keep being pushed, and after close() every call returns.", "quantifier": "all infinite executions in which whoever can go on goes on, any number of fibers, calls without deadlines, values whose moves do not throw", "why_tests_cant": "it speaks of infinite executions, of fibers that overtake each other without bound and of a close between two accesses of a push", "anchors": ["include/boost/fiber/unbuffered_channel.hpp: pop", "include/boost/fiber/unbuffered_channel.hpp: push", "include/boost/fiber/unbuffered_channel.hpp: close", "src/waker.cpp: notify_one"]}
{"id": "C113", "title": "Joins return", "statement": "Under every fair schedule: when the function of a fiber has returned or returns later, every join() of it returns; the fiber leaves its stack, and once no handle refers to it its memory is freed. If fibers only join fibers below them (no cycles, bounded nesting) and otherwise return from their functions, then every join() of the program returns and every fiber comes to its end.", "quantifier": "all infinite executions in which whoever can go on goes on, any number of threads, fibers and handles, nesting of any depth; programs that do not end in std::terminate", "why_tests_cant": "it speaks of infinite executions and of nested joins of any depth; a test that waits cannot tell a late return from none", "anchors": ["include/boost/fiber/fiber.hpp: fiber", "src/fiber.cpp: join", "src/context.cpp: context::join", "src/context.cpp: context::terminate", "src/scheduler.cpp: scheduler::terminate", "src/scheduler.cpp: scheduler::release_terminated_"]}
{"id": "C114", "title": "Waiting for a future ends", "statement": "Under every fair schedule: every call on a promise, packaged task or future returns, except a call that waits for a result that never becomes ready; when the result has become ready or becomes ready later, get(), wait(), wait_until() and get_exception_ptr() return, and get() delivers the stored value or exception. wait_until() and wait_for() return after their deadline even if the result never comes. When the promise or task is given up, everybody who waits returns.", "quantifier": "all infinite executions in which whoever can go on goes on (for deadlines: whoever can go on again and again, and timers are served), any number of fibers, results, promises, tasks, futures and shared futures", "why_tests_cant": "it speaks of infinite executions; a test that waits cannot tell a late return from none, and cannot try all the moments at which the result is set", "anchors": ["include/boost/fiber/future/detail/shared_state.hpp: shared_state_base", "include/boost/fiber/future/future.hpp: future", "include/boost/fiber/future/promise.hpp: promise", "include/boost/fiber/future/packaged_task.hpp: packaged_task", "include/boost/fiber/condition_variable.hpp: condition_variable_any::wait", "src/waker.cpp: wait_queue::notify_all"]}
{"id": "C115", "title": "try_lock, unlock and timed attempts on a mutex return", "statement": "Under every fair schedule, for all four mutex classes: every call of try_lock() and unlock() returns (or reports misuse), and every call of try_lock_until() and try_lock_for() returns when its deadline has passed, if not before: whatever the other fibers do, even if whoever has the mutex never releases it, and even if the caller has it itself.", "quantifier": "all infinite executions in which whoever can go on goes on (for deadlines: timers are served and the clock reaches the deadline), any number of fibers, all four mutex classes, every deadline", "why_tests_cant": "it speaks of infinite executions with arbitrary interference of other fibers; a test that waits cannot tell a late return from none", "anchors": ["src/mutex.cpp: mutex::try_lock, mutex::unlock", "src/timed_mutex.cpp: timed_mutex::try_lock_until_, timed_mutex::try_lock, timed_mutex::unlock", "src/recursive_mutex.cpp: recursive_mutex::try_lock, recursive_mutex::unlock", "src/recursive_timed_mutex.cpp: recursive_timed_mutex::try_lock_until_", "src/waker.cpp: wait_queue::suspend_and_wait_until", "src/scheduler.cpp: scheduler::sleep2ready_"]}
{"id": "C116", "title": "Waiting on a condition variable ends", "statement": "Under every fair schedule in which whoever has the lock releases it: notify_one() and notify_all() return; a wait(lk) or wait_until(lk, tp) that is notified gets the lock again and returns; timed waits, with or without predicate, return when the deadline has passed even if nobody ever notifies; and if a write under the lock makes a predicate true for good and notify_all() is called after the write (with or without the lock), then every wait(lk, pred) and wait_until(lk, tp, pred) for this predicate returns, made before or after the write. Without the lock at the write the last need not be.", "quantifier": "all infinite executions in which whoever can go on again and again goes on and timers are served, any number of fibers, notifiers and writers, every predicate, every deadline", "why_tests_cant": "it speaks of infinite executions; the dangerous moments (between the evaluation of the predicate, the release of the lock and the entry into the wait queue) are rarely hit by tests, and a test that waits cannot tell a late return from none", "anchors": ["include/boost/fiber/condition_variable.hpp: condition_variable_any::wait, condition_variable_any::wait_until", "src/condition_variable.cpp: condition_variable_any::notify_one, condition_variable_any::notify_all", "src/waker.cpp: wait_queue::suspend_and_wait, wait_queue::suspend_and_wait_until, wait_queue::notify_all"]}
{"id": "C117", "title": "A timed call on an unbuffered channel returns", "statement": "Under every fair schedule a push_wait_until, push_wait_for, pop_wait_until or pop_wait_for on an unbuffered channel returns when its deadline has passed, if not before, whatever other fibers do with the channel.", "quantifier": "all infinite executions in which whoever can go on again and again goes on and timers are served, any number of fibers and calls, every deadline, values that throw when they are moved", "why_tests_cant": "it speaks of infinite executions: a test cannot tell a call that returns late from one that never does, and the schedule that keeps the call busy has to hit the same window again and again", "anchors": ["include/boost/fiber/unbuffered_channel.hpp: unbuffered_channel::push_wait_until, unbuffered_channel::pop_wait_until", "src/waker.cpp: wait_queue::suspend_and_wait_until"]}
{"id": "C118", "title": "Every fiber gets its turn", "statement": "With the round-robin scheduler, if the fibers of a thread keep giving way (yield, wait, sleep or end), then on every fair execution a ready fiber is resumed, a launched fiber starts, yield returns, a fiber woken from any thread is resumed, a fiber whose deadline has passed is resumed, and a thread whose main function has returned and whose fibers have finished ends.", "quantifier": "all infinite executions in which every thread that can go on goes on: any number of threads and fibers, launches, wake-ups across threads, spurious wake-ups of the idle thread, clock readings, shutdowns", "why_tests_cant": "it speaks of infinite executions: a test cannot tell a fiber that runs late from one that is never resumed, nor try every interleaving of remote wake-ups with a dispatcher that is going to sleep", "anchors": ["src/scheduler.cpp: scheduler::dispatch, scheduler::remote_ready2ready_, scheduler::sleep2ready_, scheduler::schedule_from_remote, scheduler::yield", "src/algo/round_robin.cpp: round_robin::pick_next, round_robin::suspend_until, round_robin::notify"]}
{"id": "C119", "title": "Fibers that threads share get their turn", "statement": "With work_stealing every ready fiber, and with shared_work every ready worker fiber, is resumed by some thread on every fair execution, provided that the fibers of one thread keep giving way and that this thread does not end (with work_stealing the thread that made the fiber ready, with shared_work any thread). So a launched fiber starts, a woken fiber goes on and yield returns, perhaps on another thread.", "quantifier": "all infinite executions in which every thread that can go on goes on: any number of threads and fibers, any random numbers drawn by thieves, launches, waits, wake-ups and ends of threads", "why_tests_cant": "it speaks of infinite executions: a test cannot tell a fiber that is stolen late from one that is never resumed, nor try every interleaving of thieves", "anchors": ["src/algo/work_stealing.cpp: work_stealing::awakened, work_stealing::pick_next", "src/algo/shared_work.cpp: shared_work::awakened, shared_work::pick_next", "include/boost/fiber/detail/context_spinlock_queue.hpp: context_spinlock_queue::steal", "src/scheduler.cpp: scheduler::dispatch, scheduler::yield"]}
{"id": "C120", "title": "A subscriber gets the messages of its queue", "statement": "In the publish/subscribe server of the examples, a connected subscriber gets every message published on its queue since it subscribed, once each and in the order of publication.", "quantifier": "all numbers of publishers, subscribers and queues, all messages, and all orders in which reads, writes and resumptions of sessions complete or fail", "why_tests_cant": "whether a message is lost depends on whether the subscriber's fiber is resumed between two publications; tests exercise the order the loop back interface happens to give", "anchors": ["examples/asio/ps/server.cpp: subscriber_session::run, subscriber_session::publish, subscriptions::publish, registry::publish_"]}
{"id": "C121", "title": "A subscriber's session ends with its queue", "statement": "In the publish/subscribe server of the examples, when a queue is removed the session of each of its subscribers ends and the connection to its client is closed, once the client has got all messages.", "quantifier": "all numbers of publishers, subscribers and queues, all messages, and all orders in which reads, writes and resumptions of sessions complete or fail", "why_tests_cant": "the notification is lost only if the publisher leaves while a write to the subscriber is pending; and that a session waits for ever cannot be observed by a test", "anchors": ["examples/asio/ps/server.cpp: subscriber_session::run, subscriptions::~subscriptions, registry::unregister_queue_"]}
{"id": "C122", "title": "A queue exists as long as its publisher's session", "statement": "In the publish/subscribe server of the examples, a queue belongs to the publisher that registered it: as long as that publisher stays connected its messages are accepted and subscribers can subscribe to the queue, whatever other clients do; and no client can make the server read behind the end of a buffer.", "quantifier": "all numbers of publishers, subscribers and queues, all byte strings sent by clients, and all orders of events", "why_tests_cant": "it quantifies over what arbitrary other clients send; a test has a handful of well-behaved clients", "anchors": ["examples/asio/ps/server.cpp: publisher_session::run, registry::register_queue_, registry::unregister_queue_, registry::publish_, registry::subscribe_"]}
{"id": "C123", "title": "An echo server returns to each client what this client has sent", "statement": "With one fiber per connection, as in the echo server of the examples, a client gets back the beginning of the message that it has sent on this connection: not empty, no byte changed, left out or taken from another client, one reply per iteration and in this order - however the bytes are cut into pieces and the fibers are interleaved, and whatever fails.", "quantifier": "all numbers of clients and iterations, all messages, all ways in which the network cuts the streams into pieces, all interleavings of sessions and clients, all failures", "why_tests_cant": "it quantifies over every partition of the byte streams and every interleaving of suspended operations; over the loop back interface messages arrive in one piece", "anchors": ["examples/asio/autoecho.cpp: session, server, client"]}
{"id": "C124", "title": "The echo server stops when all clients are served", "statement": "In the echo example the acceptor is closed by exactly one client, after every client has got a reply in each of its iterations; then the server ends and the io_context stops, so that the program ends.", "quantifier": "all numbers of clients and iterations, all messages, all interleavings and partitions of the byte streams, all failures of operations", "why_tests_cant": "that a program comes to rest with fibers waiting for ever cannot be told from slowness by a test, and the failures that lead to it are hard to provoke", "anchors": ["examples/asio/autoecho.cpp: client, server, main", "include/boost/fiber/barrier.hpp: barrier::wait"]}
{"id": "C125", "title": "A tree of fibers that return results through channels computes the right sum and ends", "statement": "When each fiber starts the same number of fibers on equal parts of its range, takes one result per fiber from its buffered channel and pushes the sum to its caller, the result is the sum over the whole range, delivered once, whatever the order in which fibers run and results arrive; every execution ends, with the result delivered and no fiber left behind, if the fibers are detached, or joined before the results are taken and fewer than the slots of the channel. No fiber uses the channel of a call that has returned.", "quantifier": "all numbers of fibers per level, depths of the tree, capacities of the channels, first numbers, and all interleavings of the fibers, on any number of threads", "why_tests_cant": "results arrive in the order of the schedule and a deadlock depends on the number of fibers and slots together; the benchmarks run one size with one capacity", "anchors": ["performance/fiber/skynet_join.cpp: skynet, main", "performance/fiber/skynet_detach.cpp: skynet", "performance/fiber/skynet_shared_join.cpp: skynet", "performance/fiber/skynet_stealing_detach.cpp: skynet", "include/boost/fiber/buffered_channel.hpp: buffered_channel::push, value_pop, is_full_"]}
{"id": "C126", "title": "A tree of async calls has the outcome of the sequential program", "statement": "When each call starts the same number of calls on equal parts of its range with async and adds up what get() returns in the order of the calls, then on every schedule the outcome is the one of calling the leaves one after the other: the sum or, if leaves throw, the exception of the first of them in the order of the range, whichever throws first in time. Every execution ends, with the outcome delivered and no call left behind, also of those whose futures were destroyed by an exception.", "quantifier": "all numbers of calls per level and depths of the tree, all functions at the leaves, which return or throw, and all interleavings of the calls, on any number of threads", "why_tests_cant": "which exception arrives could depend on the schedule, and tests see few of the schedules; the benchmark has no leaf that throws", "anchors": ["performance/fiber/skynet_stealing_async.cpp: skynet, main", "include/boost/fiber/future/async.hpp: async", "include/boost/fiber/future/future.hpp: future::get", "include/boost/fiber/future/packaged_task.hpp: packaged_task"]}
{"id": "C127", "title": "The errors of futures can be told apart", "statement": "Comparing the code of an exception thrown by futures, promises and packaged tasks with an enumerator of future_errc tells exactly why the operation failed (abandoned, retrieved twice, satisfied twice, no state). A code of this category, whatever its value, equals a condition of this category only if the values are equal; codes and conditions of other categories with the same values are not confused with them, unless the other category says so; and the message of an error determines it.", "quantifier": "all values of int, all exceptions and enumerators, all other error categories", "why_tests_cant": "values are any int and other categories are any code; a test compares a few of them", "anchors": ["src/future.cpp: future_error_category, future_category", "include/boost/fiber/exceptions.hpp: future_errc, make_error_code, make_error_condition, future_error and its derived classes"]}
{"id": "C128", "title": "Fibers that answer each other through two channels alternate and end", "statement": "Two fibers of which each waits for the message of the other before it sends its own, over two buffered channels, print their messages in strict alternation, the same on every schedule, on one thread or two; at each moment at most one of them can go on, neither waits for ever, and nothing is left in the channels at the end.", "quantifier": "all numbers of rounds, all capacities of the channels, all interleavings of the fibers", "why_tests_cant": "an order of output that holds on every schedule cannot be seen from the schedules of some runs", "anchors": ["examples/ping_pong.cpp: main", "include/boost/fiber/buffered_channel.hpp: buffered_channel::push, value_pop"]}
{"id": "C129", "title": "Receivers that loop until the channel is closed get all values, in order, and end", "statement": "When one fiber pushes values into a channel and then closes it, and others receive until they see that the channel is closed, the values are received in the order in which they were sent, each by exactly one receiver, and none is lost by closing: a receiver that ends does so after the last value was taken. Every execution ends, with all values received and all receivers behind their loops. With one receiver what it prints is what was sent.", "quantifier": "all sequences of values, all numbers of receivers, buffered channels of all capacities and unbuffered channels, all interleavings", "why_tests_cant": "a value that is lost between the last push and close, or a receiver that is not told, depends on the interleaving and on the capacity", "anchors": ["examples/range_for.cpp: foo, bar", "examples/asio/exchange.cpp: foo, bar", "include/boost/fiber/unbuffered_channel.hpp: unbuffered_channel::push, close, value_pop, iterator", "include/boost/fiber/buffered_channel.hpp: buffered_channel::push, close, value_pop"]}
{"id": "C130", "title": "The barrier of threads lets nobody pass early, tells exactly one, and leaves nobody behind", "statement": "A thread that waits on the barrier with which the worker threads are started returns only after all calls of its batch have been made, and a call returns at most once, to the thread that made it. The last caller of each batch gets true, all others false. The barrier can be used again at once, also while threads of the batch before have not returned: if not more threads use it than it waits for, then whenever no thread can go on, the only calls that have not returned belong to a batch that is not complete. Without new calls and without wakeups by chance the threads come to rest after a bounded number of steps. If more threads use it a thread can be left behind although its batch was complete.", "quantifier": "all numbers of threads and counts of the barrier, all numbers of batches, all interleavings, wakeups without a notification at any moment", "why_tests_cant": "overtaking by the next batch and wakeups without a notification depend on the operating system; a thread left behind needs a particular interleaving of two batches", "anchors": ["include/boost/fiber/detail/thread_barrier.hpp: thread_barrier::wait", "performance/fiber/barrier.hpp: barrier::wait"]}
{"id": "C131", "title": "A fiber may join another one through a reference, and the program ends well exactly if somebody joins it", "statement": "When one fiber joins another through a reference to a handle of the main fiber, and the main fiber joins only the former, then in every order of execution join returns only after the joined fiber has returned, both run all iterations, every execution ends, and the handles are destroyed without std::terminate. If nobody joins the first fiber the program ends with std::terminate when its handle is destroyed, even if the fiber has returned before.", "quantifier": "all numbers of iterations of both fibers, all iterations in which join is called, all orders in which the fibers run", "why_tests_cant": "the order in which the fibers run decides whether join has to wait and where the others are when the handles are destroyed", "anchors": ["examples/join.cpp: fn1, fn2, main", "include/boost/fiber/fiber.hpp: fiber::~fiber", "src/fiber.cpp: fiber::join"]}
