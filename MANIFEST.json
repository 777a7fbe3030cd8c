{
 "claims": [
  {
   "property": "C01",
   "status": "proved",
   "theorems": [
    "Verif.Mutex.refine",
    "Verif.Mutex.mutual_exclusion",
    "Verif.Mutex.hold_count",
    "Verif.Mutex.acquired_owner"
   ],
   "note": "All four mutex classes, any number of fibers, every interleaving of their critical sections, timers and clock advances. The spinlock-protected sections are single steps (spinlock exclusion is C52)."
  },
  {
   "property": "C02",
   "status": "proved",
   "theorems": [
    "Verif.Mutex.free_mutex_is_taken"
   ],
   "note": "mutex and recursive_mutex. For the timed classes see C03."
  },
  {
   "property": "C03",
   "status": "partial",
   "theorems": [
    "Verif.Mutex.timed_giveup_strands",
    "Verif.Mutex.timed_free_mutex_is_taken_partial"
   ],
   "note": "False of the code: timed_giveup_strands is a concrete schedule after which a fiber stays suspended in lock() on a free mutex forever. Proved: the property holds as long as no fiber that unlock() scheduled returns false."
  },
  {
   "property": "C04",
   "status": "proved",
   "theorems": [
    "Verif.Mutex.relock_throws",
    "Verif.Mutex.unlock_not_held_throws",
    "Verif.Mutex.misuse_changes_nothing"
   ],
   "note": ""
  },
  {
   "property": "C05",
   "status": "proved",
   "theorems": [
    "Verif.Mutex.recursive_depth",
    "Verif.Mutex.acquire_needs_balance",
    "Verif.Mutex.recursive_relock"
   ],
   "note": ""
  },
  {
   "property": "C06",
   "status": "proved",
   "theorems": [
    "Verif.Mutex.timed_false_truthful",
    "Verif.Mutex.timed_true_truthful",
    "Verif.Mutex.unlock_wakes_suspended",
    "Verif.Mutex.refine"
   ],
   "note": ""
  },
  {
   "property": "C07",
   "status": "proved",
   "theorems": [
    "Verif.WakeSys.wake_at_most_once",
    "Verif.WakeSys.late_wake_no_effect",
    "Verif.WakeSys.resume_balanced",
    "Verif.WakeSys.superseded_waker_fails",
    "Verif.WakeSys.resumed_waker_fails",
    "Verif.WakeSys.suspended_fiber_wakeable"
   ],
   "note": "Machine in which any party may use any waker ever issued, in any order; epochs are unbounded numbers (the code's size_t counter would have to wrap to differ)."
  },
  {
   "property": "C08",
   "status": "proved",
   "theorems": [
    "Verif.WaitQ.notifications_fifo",
    "Verif.WaitQ.released_can_return",
    "Verif.WaitQ.returned_not_queued"
   ],
   "note": "Trace conformance to a list specification, for every interleaving of untimed waits, timed waits, timers, single and broadcast notifications."
  },
  {
   "property": "C09",
   "status": "proved",
   "theorems": [
    "Verif.CondVar.conforms",
    "Verif.CondVar.released_iff_runnable",
    "Verif.CondVar.no_lost_update"
   ],
   "note": "Specification over the trace: the set of waiters is fixed at the moment the lock is released; every notification acts on exactly that set. Any number of waiters and notifiers, with and without timeouts."
  },
  {
   "property": "C10",
   "status": "proved",
   "theorems": [
    "Verif.CondVar.no_spurious_wakeup",
    "Verif.CondVar.untimed_return_is_notified",
    "Verif.CondVar.conforms"
   ],
   "note": ""
  },
  {
   "property": "C11",
   "status": "proved",
   "theorems": [
    "Verif.CondVar.lock_held_on_return",
    "Verif.CondVar.lock_released_while_waiting"
   ],
   "note": ""
  },
  {
   "property": "C12",
   "status": "proved",
   "theorems": [
    "Verif.CondVar.pred_return"
   ],
   "note": ""
  },
  {
   "property": "C13",
   "status": "partial",
   "theorems": [
    "Verif.CondVar.timed_status",
    "Verif.CondVar.notified_but_timeout",
    "Verif.CondVar.notified_in_time_partial"
   ],
   "note": "timed_status proves both truthfulness directions. The documented converse is false of the code (notified_but_timeout: a released waiter that resumes after its deadline reports timeout); proved for a waiter resumed in time."
  },
  {
   "property": "C14",
   "status": "proved",
   "theorems": [
    "Verif.Barrier.nobody_passes_early",
    "Verif.Barrier.counted_calls_were_made"
   ],
   "note": "Conformance to a specification that numbers the counted calls; call i belongs to batch i/n."
  },
  {
   "property": "C15",
   "status": "proved",
   "theorems": [
    "Verif.Barrier.one_true_per_batch",
    "Verif.Barrier.construct_iff"
   ],
   "note": ""
  },
  {
   "property": "C16",
   "status": "proved",
   "theorems": [
    "Verif.Barrier.completed_batch_progress",
    "Verif.Barrier.quiescent_only_incomplete"
   ],
   "note": "Stated as deadlock freedom: whenever a member of a completed batch is still inside wait(), some fiber inside wait() can take a step."
  },
  {
   "property": "C17",
   "status": "proved",
   "theorems": [
    "Verif.BufCh.exactly_once_fifo",
    "Verif.BufCh.conforms"
   ],
   "note": "Any capacity from 2 on, any value type, any number of fibers, every interleaving, with ring-buffer index wrap-around modelled."
  },
  {
   "property": "C18",
   "status": "proved",
   "theorems": [
    "Verif.BufCh.holds_at_most",
    "Verif.BufCh.push_decision",
    "Verif.BufCh.construct_iff"
   ],
   "note": ""
  },
  {
   "property": "C19",
   "status": "proved",
   "theorems": [
    "Verif.BufCh.after_close",
    "Verif.BufCh.closed_nobody_blocked"
   ],
   "note": "A timed operation that was blocked when the channel was closed and resumes after its deadline may report timeout; the theorem states this alternative explicitly."
  },
  {
   "property": "C20",
   "status": "proved",
   "theorems": [
    "Verif.BufCh.blocked_means_served",
    "Verif.BufCh.quiescent_blocked"
   ],
   "note": "Hypothesis NoThrow: no copy or move of a value has thrown (C80 is about those)."
  },
  {
   "property": "C21",
   "status": "partial",
   "theorems": [
    "Verif.BufCh.timed_giveup_strands_consumer",
    "Verif.BufCh.timed_giveup_strands_producer",
    "Verif.BufCh.blocked_means_served_partial"
   ],
   "note": "False of the code in both directions: concrete schedules after which the channel holds a value (is empty), a fiber stays blocked in pop (push) and nothing can run. Proved: holds as long as no fiber released by another call returns timeout (or the exception of copying or moving a value, C80)."
  },
  {
   "property": "C22",
   "status": "proved",
   "theorems": [
    "Verif.BufCh.timed_ops_truthful"
   ],
   "note": "A fourth outcome is the exception of copying or moving the value; then nothing was enqueued or dequeued."
  },
  {
   "property": "C23",
   "status": "partial",
   "theorems": [
    "Verif.ChanIter.loop_conforms_partial",
    "Verif.ChanIter.yielded_after_pop",
    "Verif.ChanIter.finished_after_throw",
    "Verif.ChanIter.chan_reach",
    "Verif.ChanIter.buf_in_order_partial",
    "Verif.ChanIter.buf_exactly_once_partial",
    "Verif.ChanIter.buf_ends_drained_partial",
    "Verif.ChanIter.unbuf_handed_over_partial",
    "Verif.ChanIter.unbuf_ends_closed_partial",
    "Verif.ChanIter.destroyed_twice",
    "Verif.ChanIter.refuted",
    "Verif.ChanIter.leak",
    "Verif.ChanIter.copied_iterator"
   ],
   "note": "Proved for both channels, any number of looping fibers: every value is yielded once, in order, and a loop ends when the channel is closed (and, buffered, drained). False of the code: every increment calls the destructor twice on the same object, leaving a loop early leaks the object, and a copied iterator (begin() without copy elision) holds no value."
  },
  {
   "property": "C24",
   "status": "proved",
   "theorems": [
    "Verif.Unbuf.handed_over_once",
    "Verif.Unbuf.success_means_received"
   ],
   "note": "One step per access to shared memory (slot exchange, closed flag, each spinlock section); any number of producers and consumers, close and timeouts included."
  },
  {
   "property": "C25",
   "status": "proved",
   "theorems": [
    "Verif.Unbuf.success_after_taken",
    "Verif.Unbuf.rendezvous",
    "Verif.Unbuf.success_means_received"
   ],
   "note": ""
  },
  {
   "property": "C26",
   "status": "partial",
   "theorems": [
    "Verif.Unbuf.closed_but_received",
    "Verif.Unbuf.timeout_but_received",
    "Verif.Unbuf.closed_then_taken",
    "Verif.Unbuf.unplaced_never_received_partial"
   ],
   "note": "False of the code in three ways, each a concrete schedule. Proved: holds for a push whose value was never put on offer, and for a push that timed out before anybody took its value."
  },
  {
   "property": "C27",
   "status": "partial",
   "theorems": [
    "Verif.Unbuf.close_leaves_dangling_slot",
    "Verif.Unbuf.timed_push_dangling_slot",
    "Verif.Unbuf.no_dangling_partial"
   ],
   "note": "False of the code: close() leaves the address of a returned push's stack slot in the channel, and a timed push can return between a consumer's exchange and its read. Proved for every interleaving of push, pop, value_pop, timed pops and is_closed."
  },
  {
   "property": "C28",
   "status": "proved",
   "theorems": [
    "Verif.Unbuf.no_mutual_block"
   ],
   "note": "Hypothesis NoThrow: no move of a value has thrown (C80 is about those)."
  },
  {
   "property": "C29",
   "status": "partial",
   "theorems": [
    "Verif.Unbuf.no_success_after_close",
    "Verif.Unbuf.late_push_strands",
    "Verif.Unbuf.close_releases_partial"
   ],
   "note": "False of the code: a push that passes its is_closed check before close() and publishes after it stays blocked in the closed channel (late_push_strands). Proved: no push succeeds after close; and nobody stays inside a call if no value is put on offer after the close and no move of a value has thrown."
  },
  {
   "property": "C30",
   "status": "proved",
   "theorems": [
    "Verif.Fut.ready_at_most_once",
    "Verif.Fut.stored_result_unique",
    "Verif.Fut.set_outcome",
    "Verif.Fut.second_set_throws"
   ],
   "note": "Any number of promises, tasks, futures, shared futures and fibers; several fibers may set through one promise at once."
  },
  {
   "property": "C31",
   "status": "proved",
   "theorems": [
    "Verif.Fut.returns_what_was_stored",
    "Verif.Fut.wait_until_truthful"
   ],
   "note": ""
  },
  {
   "property": "C32",
   "status": "proved",
   "theorems": [
    "Verif.Fut.notification_releases_all",
    "Verif.Fut.blocked_only_if_unready",
    "Verif.Fut.late_waiter_does_not_block"
   ],
   "note": "Also proved as quiescence: when nothing can run, nobody waits for a ready result."
  },
  {
   "property": "C33",
   "status": "proved",
   "theorems": [
    "Verif.Fut.abandoned_is_broken",
    "Verif.Fut.abandoned_never_hangs"
   ],
   "note": "For every way of giving up the promise or task (destruction, assignment, moves in between). Results given up by packaged_task::reset are the subject of C34."
  },
  {
   "property": "C34",
   "status": "partial",
   "theorems": [
    "Verif.Fut.reset_abandons",
    "Verif.Fut.reset_fresh_partial"
   ],
   "note": "False of the code: reset() moves the old state into a temporary whose obtained_ flag is false, so the old future is never made ready. Proved: after reset() the task is as freshly constructed and nothing else changes."
  },
  {
   "property": "C35",
   "status": "proved",
   "theorems": [
    "Verif.Fut.handles_follow_rules",
    "Verif.Fut.call_uses_handle",
    "Verif.Fut.retrieved_at_most_once",
    "Verif.Fut.get_future_once",
    "Verif.Fut.no_state_throws",
    "Verif.Fut.valid_tells"
   ],
   "note": "The rules are the separate specification `handles` (FutureHandles.lean), computed from the calls alone."
  },
  {
   "property": "C36",
   "status": "proved",
   "theorems": [
    "Verif.Fut.destroyed_at_most_once",
    "Verif.Fut.destroyed_iff_last_gone",
    "Verif.Fut.value_destroyed_iff_stored",
    "Verif.Fut.no_use_after_free"
   ],
   "note": "For programs that do not modify or destroy a handle while another fiber is inside a call on it (see C64 for the case where that is too strict)."
  },
  {
   "property": "C37",
   "status": "proved",
   "theorems": [
    "Verif.Fut.task_delivers",
    "Verif.Fut.second_invocation_throws",
    "Verif.Fut.async_starts"
   ],
   "note": ""
  },
  {
   "property": "C38",
   "status": "proved",
   "theorems": [
    "Verif.Fib.join_returns_after_function",
    "Verif.Fib.finish_releases_joiners",
    "Verif.Fib.joiners_return",
    "Verif.Fib.joiner_not_stranded",
    "Verif.Fib.join_finished_does_not_block"
   ],
   "note": "Any number of fibers, handles and joiners, including several joiners of one handle."
  },
  {
   "property": "C39",
   "status": "proved",
   "theorems": [
    "Verif.Fib.one_handle_per_fiber",
    "Verif.Fib.joinable_tells",
    "Verif.Fib.join_self_throws",
    "Verif.Fib.not_joinable_throws",
    "Verif.Fib.join_results",
    "Verif.Fib.abort_iff_loses",
    "Verif.Fib.abort_only_by_call",
    "Verif.Fib.nothing_after_abort"
   ],
   "note": "The rules are the separate specification `handles` (FiberSpec.lean), computed from the calls alone. For programs that do not move or destroy a handle while another fiber is inside join of it."
  },
  {
   "property": "C40",
   "status": "proved",
   "theorems": [
    "Verif.Fib.freed_once",
    "Verif.Fib.freed_after_end",
    "Verif.Fib.no_leak",
    "Verif.Fib.memory_safe"
   ],
   "note": ""
  },
  {
   "property": "C41",
   "status": "proved",
   "theorems": [
    "Verif.Sch.queued_once",
    "Verif.Sch.one_place",
    "Verif.Sch.suspended_not_resumed",
    "Verif.Sch.finished_not_resumed",
    "Verif.Sch.runnable_not_lost",
    "Verif.Sch.no_ub"
   ],
   "note": "Any number of threads with main, dispatcher and worker fibers; round_robin."
  },
  {
   "property": "C42",
   "status": "partial",
   "theorems": [
    "Verif.Sch.fifo",
    "Verif.Sch.kth_resume",
    "Verif.Sch.dispatch_overtakes",
    "Verif.Sch.dispatch_starves",
    "Verif.Sch.round_robin_partial"
   ],
   "note": "False of the code as stated: a launch with policy dispatch switches to the new fiber before the ready ones, and a chain of such launches keeps a ready fiber waiting for any number of switches. Proved: ready fibers are resumed in FIFO order, and the exact turn holds while no fiber is launched with dispatch."
  },
  {
   "property": "C43",
   "status": "proved",
   "theorems": [
    "Verif.Sch.not_before_deadline",
    "Verif.Sch.deadline_order",
    "Verif.Sch.look_wakes_all",
    "Verif.Sch.never_oversleeps",
    "Verif.Sch.clock_readings"
   ],
   "note": "Deadlines and clock are natural numbers; the clock only advances."
  },
  {
   "property": "C44",
   "status": "proved",
   "theorems": [
    "Verif.Sch.remote_wake_not_lost",
    "Verif.Sch.runnable_keeps_awake",
    "Verif.Sch.waker_returns",
    "Verif.Sch.runnable_where"
   ],
   "note": "Stated as: once no fiber is inside a waking call, the thread whose dispatcher runs (or sleeps) moves the fiber to the ready queue and resumes a ready fiber by its own steps; with C42 this includes the woken one. SC atomics."
  },
  {
   "property": "C45",
   "status": "proved",
   "theorems": [
    "Verif.Sch.launch_enabled",
    "Verif.Sch.post",
    "Verif.Sch.dispatch",
    "Verif.Sch.launched_once"
   ],
   "note": ""
  },
  {
   "property": "C46",
   "status": "partial",
   "theorems": [
    "Verif.SetAlgo.from_rr",
    "Verif.SetAlgo.from_rr_finished",
    "Verif.SetAlgo.from_rr_progress",
    "Verif.SetAlgo.keeps_all_partial",
    "Verif.SetAlgo.shared_to_shared",
    "Verif.SetAlgo.shared_to_shared_twice",
    "Verif.SetAlgo.shared_race",
    "Verif.SetAlgo.steal_race"
   ],
   "note": "Proved in full if the old algorithm is round_robin (any new one, whatever other threads do), and for all pairs but shared_work to shared_work if no other thread interferes. False of the code otherwise: shared_work to shared_work never ends once a worker is ready, and with other threads the old algorithm's has_ready_fibers/pick_next race hands nullptr to the new algorithm."
  },
  {
   "property": "C47",
   "status": "partial",
   "theorems": [
    "Verif.Sch.ended_after_all",
    "Verif.Sch.ended_after_exit",
    "Verif.Sch.nothing_after_end",
    "Verif.Sch.shutdown_completes",
    "Verif.Multi.ended_partial",
    "Verif.Multi.shared_shutdown_loses",
    "Verif.Multi.stealing_shutdown_loses"
   ],
   "note": "Proved for threads with round_robin. False of the code for shared_work and work_stealing: a ready worker fiber is detached from its scheduler, so the dispatcher does not wait for it and the thread ends while it is still queued (concrete schedules; after them nothing can happen any more). Proved there: main and dispatcher fiber are done when the thread ends."
  },
  {
   "property": "C48",
   "status": "proved",
   "theorems": [
    "Verif.Multi.ready_then_take",
    "Verif.Multi.take_then_run",
    "Verif.Multi.picked_once",
    "Verif.Multi.queued_once",
    "Verif.Multi.pinned_stay",
    "Verif.Multi.pinned_run",
    "Verif.Multi.runs_once",
    "Verif.Multi.no_ub",
    "Verif.Multi.accounted_for",
    "Verif.Multi.shared_fifo",
    "Verif.Multi.stealing_fifo"
   ],
   "note": "Any number of threads; shared_work and work_stealing with the spinlock queue (for the lock-free queue see C51, C67)."
  },
  {
   "property": "C49",
   "status": "partial",
   "theorems": [
    "Verif.Multi.alone_never_returns",
    "Verif.Multi.pick_returns_partial",
    "Verif.Numa.alone_on_node",
    "Verif.Numa.unknown_node",
    "Verif.Numa.no_ub_partial",
    "Verif.Numa.numa_returns_partial",
    "Verif.Numa.found_elsewhere"
   ],
   "note": "False of the code: with thread_count = 1, or when the thread's CPU is the only one of its NUMA node, pick_next never returns (for every choice of random numbers). Proved otherwise: it returns once enough random numbers were drawn and one of the late ones is not the thread's own; the probability of that is not modelled."
  },
  {
   "property": "C50",
   "status": "proved",
   "theorems": [
    "Verif.SpinQ.is_fifo",
    "Verif.SpinQ.conserves",
    "Verif.SpinQ.steal_front",
    "Verif.SpinQ.steal_not_pinned",
    "Verif.SpinQ.capacity_zero"
   ],
   "note": "Every initial capacity from 1 on (the library uses 4096; with 0 the first push is `% 0`)."
  },
  {
   "property": "C51",
   "status": "partial",
   "theorems": [
    "Verif.Spmc.exactly_once_partial",
    "Verif.Spmc.results_partial",
    "Verif.Spmc.handed_out_once_partial",
    "Verif.Spmc.pop_returns_partial",
    "Verif.Spmc.pinned_never_stolen",
    "Verif.Spmc.fresh_pop_breaks"
   ],
   "note": "False of the class in isolation: pop on a queue that was never pushed to wraps bottom_ around (fresh_pop_breaks). Proved, under SC and for every interleaving and growth, for owners whose first operation is a push, which is how the scheduler uses it (the dispatcher fiber is pushed first)."
  },
  {
   "property": "C52",
   "status": "proved",
   "theorems": [
    "Verif.Ttas.exclusion",
    "Verif.Ttas.one_inside",
    "Verif.Ttas.clear_iff_free",
    "Verif.Ttas.try_exact",
    "Verif.Ttas.free_is_taken",
    "Verif.Ftx.exclusion",
    "Verif.Ftx.one_inside",
    "Verif.Ftx.zero_iff_free",
    "Verif.Ftx.try_exact",
    "Verif.Ftx.release_reaches_sleeper",
    "Verif.Ftx.no_lost_wakeup",
    "Verif.Ftx.awake_can_step",
    "Verif.Ftx.free_is_taken"
   ],
   "note": "All four spinlock classes, any number of threads, one atomic operation per step, any retry threshold, any choice of the woken thread, spurious futex returns; SC. Not modelled: spinlock_rtm, std::mutex."
  },
  {
   "property": "C53",
   "status": "partial",
   "theorems": [
    "Verif.Fss.conforms",
    "Verif.Fss.get_last",
    "Verif.Fss.release_last",
    "Verif.Fss.reset_same",
    "Verif.Fss.accounted",
    "Verif.Fss.cleaned_when_ended",
    "Verif.Fss.nothing_after_end",
    "Verif.Fss.main_not_cleaned"
   ],
   "note": "Proved for every fiber that ends, for any number of fibers and pointers, as long as a fiber_specific_ptr is destroyed only when no other fiber holds a pointer in it. False of the code for a thread's main fiber: its pointers are never cleaned up. Cleanup functions that use fiber-specific pointers themselves: see C70."
  },
  {
   "property": "C54",
   "status": "partial",
   "theorems": [
    "Verif.Fss.release_then_exit",
    "Verif.Fss.destroy_then_exit",
    "Verif.Fss.cleanup_null_partial"
   ],
   "note": "False of the code: release() (or the destructor) on a fiber that never stored a pointer leaves a null entry, which is passed to the cleanup function when the fiber ends. Proved for histories without such a release."
  },
  {
   "property": "C55",
   "status": "partial",
   "theorems": [
    "Verif.Prop.C55_conforms_partial",
    "Verif.Prop.C55_own",
    "Verif.Prop.C55_same_for_life",
    "Verif.Prop.C55_not_shared",
    "Verif.Prop.C55_before_seen",
    "Verif.Prop.C55_reported_iff_ready_partial",
    "Verif.Prop.C55_no_failure_partial",
    "Verif.Prop.C55_dispatched_change_fails",
    "Verif.Prop.C55_change_to_destroyed_algorithm",
    "Verif.Prop.C55_reported_to_wrong_algorithm",
    "Verif.Prop.C55_wrong_class",
    "Verif.Prop.C55_false"
   ],
   "note": "Any number of threads and fibers, algorithms replaced at any time. Proved for every history: the fiber has its properties before it is seen, keeps them for life, shares them with nobody. Reports exactly while ready: proved when all algorithms use one properties class and properties are changed only after the fiber was first ready; otherwise false of the code (null or dangling algo_, wrong cast, report to another thread's algorithm)."
  },
  {
   "property": "C56",
   "status": "partial",
   "theorems": [
    "Verif.Numa.parse_exact_partial",
    "Verif.Numa.range_ends",
    "Verif.Numa.range_diverges",
    "Verif.Numa.range_to_max",
    "Verif.Numa.empty_line_throws",
    "Verif.Numa.topology_nodes",
    "Verif.Numa.partition_partial",
    "Verif.Numa.cpu_lost"
   ],
   "note": "Proved: every non-empty list of numbers and ranges, with blanks, is parsed to exactly the CPUs it denotes; local and remote CPUs partition the online CPUs. Missing because false of the code: a range ending with 2^32-1 never ends, an unreadable file throws instead of giving an empty topology, and CPUs without node are dropped when others have one."
  },
  {
   "property": "C57",
   "status": "partial",
   "theorems": [
    "Verif.Gpu.Many.C57_results",
    "Verif.Gpu.Many.C57_no_hang",
    "Verif.Gpu.Many.C57_no_ub_partial",
    "Verif.Gpu.Many.C57_refused_is_ub",
    "Verif.Gpu.Many.C57_early_callback",
    "Verif.Gpu.Many.C57_notify_after_return",
    "Verif.Gpu.One.C57_one_results",
    "Verif.Gpu.One.C57_one_no_hang",
    "Verif.Gpu.One.C57_one_no_ub_partial",
    "Verif.Gpu.One.C57_one_notify_after_return"
   ],
   "note": "Proved for every history up to undefined behaviour: the call returns only when every stream (duplicates once) has reported, with exactly the reports, and does not hang. False of the code: a failed registration, or a callback while the constructor's iterator is at that stream, makes the constructor use an erased set node; and a callback may notify the condition variable after the call returned and its rendezvous object is gone. Excluding these: no undefined behaviour. CUDA and HIP versions are the same code."
  },
  {
   "property": "C58",
   "status": "proved",
   "theorems": [
    "Verif.Layout.C58_aligned",
    "Verif.Layout.C58_inside",
    "Verif.Layout.C58_exec",
    "Verif.Layout.C58_waste",
    "Verif.Layout.C58_iff",
    "Verif.Layout.C58_too_small"
   ],
   "note": "64-bit address arithmetic, all stacks that do not wrap around; 'large enough' is control block size + 255 (the exact condition is C58_iff). Nothing in the code tests for it (C58_too_small)."
  },
  {
   "property": "C59",
   "status": "partial",
   "theorems": [
    "Verif.Ident.C59_total_order",
    "Verif.Ident.C59_kinds",
    "Verif.Ident.C59_identity_partial",
    "Verif.Ident.C59_stable",
    "Verif.Ident.C59_stale_alias"
   ],
   "note": "Order, kinds: proved for all ids and kinds. Identity: proved for fibers that exist, from the placement of control blocks (C58). An id kept beyond the end of its fiber may equal that of a later fiber (C59_stale_alias). Assumes built-in pointer comparison is by address."
  },
  {
   "property": "C60",
   "status": "partial",
   "theorems": [
    "Verif.Mutex.passed_deadline_fails",
    "Verif.Mutex.unexpired_deadline_takes_free_partial"
   ],
   "note": "False of the code for every passed time point (passed_deadline_fails); proved for time points not yet passed."
  },
  {
   "property": "C61",
   "status": "partial",
   "theorems": [
    "Verif.Mutex.timed_owner_blocks_itself",
    "Verif.Mutex.timed_owner_never_true_partial"
   ],
   "note": "False of the code: the call suspends the owner until the deadline. Proved: it never reports success."
  },
  {
   "property": "C62",
   "status": "proved",
   "theorems": [
    "Verif.Mutex.try_lock_exact"
   ],
   "note": ""
  },
  {
   "property": "C63",
   "status": "partial",
   "theorems": [
    "Verif.Unbuf.timed_push_giveup_strands",
    "Verif.Unbuf.timed_pop_giveup_strands",
    "Verif.Unbuf.no_mutual_block_partial"
   ],
   "note": "False of the code in both directions (concrete schedules). Proved: holds as long as no call has returned timeout and no move of a value has thrown."
  },
  {
   "property": "C64",
   "status": "partial",
   "theorems": [
    "Verif.Fut.destroy_after_get_is_ub",
    "Verif.Fut.exclusive_destroy_safe_partial"
   ],
   "note": "False of the code: set_value notifies through the promise's pointer after the result is visible. Proved: no access to a freed result if handles are only destroyed when no call on them is in progress."
  },
  {
   "property": "C65",
   "status": "partial",
   "theorems": [
    "Verif.Sch.notify_after_free",
    "Verif.Sch.use_after_end_partial",
    "Verif.Sch.push_safe_partial"
   ],
   "note": "False of the code: `algo_->notify()` is called after the remote queue was unlocked; concrete schedule. Proved: only this call, and only after the thread has ended; the push itself is always safe."
  },
  {
   "property": "C66",
   "status": "partial",
   "theorems": [
    "Verif.Sch.shutdown_assert",
    "Verif.Sch.assert_partial",
    "Verif.Sch.shutdown_completes"
   ],
   "note": "False of debug builds: BOOST_ASSERT(!shutdown_) in schedule_from_remote fails; concrete schedule. Proved: only after the main function of the thread has returned; and with the assertion ignored the thread still ends."
  },
  {
   "property": "C67",
   "status": "partial",
   "theorems": [
    "Verif.Spmc.steal_touches_taken",
    "Verif.Spmc.steal_touches_null",
    "Verif.Spmc.looks_at_queued_partial"
   ],
   "note": "False of the code: steal() reads ctx->is_context(...) before its compare-exchange (use of a fiber already taken), and after growth the element may be nullptr. Proved: it does not happen while nobody else has taken from the top since the thief loaded it, and never in pop."
  },
  {
   "property": "C68",
   "status": "partial",
   "theorems": [
    "Verif.Multi.stealing_no_starvation",
    "Verif.Multi.shared_starves",
    "Verif.Sch.fifo",
    "Verif.Sch.kth_resume",
    "Verif.Sch.round_robin_partial"
   ],
   "note": "False of the code for shared_work: two workers that keep yielding starve the main and dispatcher fiber forever (the pinned queue is only looked at when the shared queue is empty). Proved for work_stealing with the spinlock queue and for round_robin (with C42's exception for launch::dispatch)."
  },
  {
   "property": "C69",
   "status": "partial",
   "theorems": [
    "Verif.Ttas.estimate_explodes",
    "Verif.Ttas.estimate_partial",
    "Verif.Ftx.estimate_bounded"
   ],
   "note": "False of spinlock_ttas_adaptive: `prev_retries + (retries - prev_retries) / 8` is computed in size_t, so a short wait after a longer one makes it 2^61 (concrete run). Proved for spinlock_ttas_adaptive_futex, which uses a signed type, and for non-decreasing retries."
  },
  {
   "property": "C70",
   "status": "partial",
   "theorems": [
    "Verif.FssRe.stored_at_end_lost",
    "Verif.FssRe.reset_in_cleanup_twice",
    "Verif.FssRe.reset_in_reset_twice",
    "Verif.FssRe.refuted",
    "Verif.FssRe.cleanup_once_partial",
    "Verif.FssRe.no_ub_partial",
    "Verif.FssRe.all_cleaned_partial",
    "Verif.FssRe.reset_same_partial"
   ],
   "note": "False of the code: a pointer stored by a cleanup function at the end of the fiber under a lower key is lost; a reset inside the cleanup of the same pointer cleans it up twice and then uses a freed map node. Proved for cleanup functions that only use pointers with greater addresses, any nesting."
  },
  {
   "property": "C71",
   "status": "partial",
   "theorems": [
    "Verif.FssWait.wait_in_cleanup_hangs",
    "Verif.FssWait.join_never_spins_partial"
   ],
   "note": "False of the code: cleanup functions run with the fiber's spinlock held, so a join by a fiber of the same thread spins forever. Proved if cleanup functions do not suspend."
  },
  {
   "property": "C72",
   "status": "partial",
   "theorems": [
    "Verif.Prop.C72_false",
    "Verif.Prop.C72_partial"
   ],
   "note": "False of the code for launch::dispatch: a fiber that was never ready has no properties, and fiber::properties() asserts. Proved for fibers that have been ready or were created with properties."
  },
  {
   "property": "C73",
   "status": "partial",
   "theorems": [
    "Verif.WeakTtas.C73_exclusive",
    "Verif.WeakTtas.C73_visible",
    "Verif.WeakFtx.C73_exclusive",
    "Verif.WeakFtx.C73_unlock_releases_nothing",
    "Verif.WeakFtx.C73_refuted",
    "Verif.WeakFtx.C73_visible_partial"
   ],
   "note": "Mutual exclusion: proved for all four spinlocks. Visibility: proved for spinlock_ttas and spinlock_ttas_adaptive; false of the two futex spinlocks, whose unlock() is fetch_sub(1, memory_order_acquire) and so releases nothing when uncontended (data race, C73_refuted). The partial theorem holds if read-modify-writes also release, as on x86."
  },
  {
   "property": "C74",
   "status": "proved",
   "theorems": [
    "Verif.WeakRef.C74_safe",
    "Verif.WeakRef.C74_destroyed"
   ],
   "note": "View-based release/acquire semantics with release sequences and fences; handing a reference to another thread is assumed to synchronise."
  },
  {
   "property": "C75",
   "status": "proved",
   "theorems": [
    "Verif.WeakSpmc.exactly_once",
    "Verif.WeakSpmc.results",
    "Verif.WeakSpmc.handed_out_once",
    "Verif.WeakSpmc.steal_sees_all",
    "Verif.WeakSpmc.pop_asserts"
   ],
   "note": "View-based semantics with seq_cst fences; seq_cst compare-exchanges are taken as acquire/release only, so the fences carry the proof; consume is taken as acquire. The owner does not pop before its first push (C51). empty() may say false too late (relaxed load), never true too early."
  },
  {
   "property": "C76",
   "status": "partial",
   "theorems": [
    "Verif.WeakSpmc.steal_races",
    "Verif.WeakSpmc.fixed_no_array_race",
    "Verif.WeakSpmc.no_array_race_partial",
    "Verif.WeakSpmc.steal_reads_unseen",
    "Verif.WeakSpmc.no_fiber_race_partial"
   ],
   "note": "False of the code twice: array_.store(a, memory_order_relaxed) after growing publishes nothing, so a thief may use a new array whose construction does not happen before (no race with a release store, and none before as many pushes as the first array holds); and a thief that has been overtaken reads ctx->type_ of a fiber it got by a relaxed load (no race if top_ still has the value it read)."
  },
  {
   "property": "C77",
   "status": "proved",
   "theorems": [
    "Verif.WeakUnbuf.handover",
    "Verif.WeakUnbuf.pushed_popped",
    "Verif.WeakUnbuf.popped_pushed",
    "Verif.WeakUnbuf.push_unique",
    "Verif.WeakUnbuf.popped_once",
    "Verif.WeakUnbuf.open_channel"
   ],
   "note": "View-based release/acquire semantics. Spinlocks and wake-ups pass views on (C73); every fiber on a thread of its own; without the timed calls. The order of a handover is stated by data that belong to one fiber at a time and are given away with the calls."
  },
  {
   "property": "C78",
   "status": "partial",
   "theorems": [
    "Verif.WeakUnbuf.close_publishes_false",
    "Verif.WeakUnbuf.close_publishes_false_pop",
    "Verif.WeakUnbuf.close_release_publishes",
    "Verif.WeakUnbuf.close_publishes_partial"
   ],
   "note": "False of the code: close() sets the flag with closed_.exchange(true, memory_order_acquire), which releases nothing; a push or pop that reads the flag returns closed without what the closing fiber did before (data race in the user's program). Proved if the exchange also releases; and, as the code is, for pops that return closed after close returned (the spinlock of the consumers carries it)."
  },
  {
   "property": "C79",
   "status": "proved",
   "theorems": [
    "Verif.WeakUnbuf.close_wakes",
    "Verif.WeakUnbuf.woken_goes_on"
   ],
   "note": "The spinlocks of the queues carry the flag. Says nothing about a producer whose value is in the slot (it may be missed: see the findings on closing under sequential consistency)."
  },
  {
   "property": "C80",
   "status": "partial",
   "theorems": [
    "Verif.BufCh.throwing_value_partial",
    "Verif.BufCh.throwing_pop_strands_consumer",
    "Verif.BufCh.throwing_push_strands_producer",
    "Verif.Unbuf.throwing_pop_loses_value",
    "Verif.Unbuf.throwing_pop_strands_producer"
   ],
   "note": "False of the code. Buffered: a fiber that was released by another call and whose copy or move then throws does not pass the release on; others stay blocked although there is a value (room). Unbuffered: pop takes the slot before it moves the value; if the move throws, the value is lost and the producer is never woken, not even by close(). Proved: in the buffered channel such a call leaves contents, flag and other fibers as they were and its executions conform to the specification; nobody is stranded if the failing call had not been blocked."
  },
  {
   "property": "C81",
   "status": "partial",
   "theorems": [
    "Verif.Deadline.never_early_partial",
    "Verif.Deadline.steady_never_early",
    "Verif.Deadline.no_overflow_partial",
    "Verif.Deadline.not_late_partial",
    "Verif.Deadline.early_by_order",
    "Verif.Deadline.early_by_adjustment",
    "Verif.Deadline.late_by_adjustment",
    "Verif.Deadline.max_overflows",
    "Verif.Deadline.max_times_out_at_once"
   ],
   "note": "False of the code: now() + duration overflows for durations like duration::max() (undefined behaviour; in practice an immediate timeout); convert() for other clocks reads the two clocks in unspecified order, and if steady_clock is read first the timeout comes early by the time between the readings; a clock that is set afterwards is not followed. Proved: no early timeout for durations and steady_clock; for other clocks if they are read first and not set back; no overflow within 73 years; a steady_clock deadline that has come can be reported at once."
  },
  {
   "property": "C82",
   "status": "partial",
   "theorems": [
    "Verif.WeakMutex.exclusive",
    "Verif.WeakMutex.visible",
    "Verif.WeakMutex.may_use",
    "Verif.WeakMutex.race_free_partial",
    "Verif.WeakMutex.try_lock_races",
    "Verif.WeakMutex.try_lock_races_rec"
   ],
   "note": "Exclusion and visibility hold for all calls. Freedom from data races is false: try_lock() reads owner_ again after releasing the spinlock and yielding, unordered with lock() and unlock() of other threads (src/mutex.cpp:59 and the same in the other three). It holds if nobody calls try_lock(). Every fiber is treated as a thread of its own, so orderings from sharing a thread or from being woken are not used."
  },
  {
   "property": "C83",
   "status": "partial",
   "theorems": [
    "Verif.StealStart.plain_partial",
    "Verif.StealStart.plain_leave_partial",
    "Verif.StealStart.numa_partial",
    "Verif.StealStart.numa_leave_partial",
    "Verif.StealStart.second_group_ub",
    "Verif.StealStart.different_counts_ub"
   ],
   "note": "Proved for the first group of threads with one count (numa: one topology and distinct CPUs). False for a second group of algo::work_stealing: counter_ is never reset, so schedulers_[id_] is written outside the array; likewise if threads give different counts. Not covered: successive groups of numa::work_stealing."
  },
  {
   "property": "C84",
   "status": "proved",
   "theorems": [
    "Verif.Props.WeakFiber.ordered_uses_do_not_race",
    "Verif.Props.WeakFiber.library_has_no_race",
    "Verif.Props.WeakFiber.join_waits",
    "Verif.Props.WeakFiber.nothing_after_the_end",
    "Verif.Props.WeakFiber.no_null",
    "Verif.Props.WeakFiber.joiners_are_woken",
    "Verif.Props.WeakFiber.one_thread",
    "Verif.Props.WeakFiber.one_queue"
   ],
   "note": "On the view-based memory machine of Verif/Weak.lean, with the test-and-set spinlock (C73 shows that the futex spinlock does not synchronise). Reads are treated as writes. Not covered: timed waiting, thread exit, the lock-free stealing deque (C75, C76)."
  },
  {
   "property": "C85",
   "status": "partial",
   "theorems": [
    "Verif.Props.Rtm.same_as_ordinary_locks",
    "Verif.Props.Rtm.speculation_is_consistent",
    "Verif.Props.Rtm.mutual_exclusion",
    "Verif.Props.Rtm.no_fault",
    "Verif.Props.Rtm.rollbacks_are_bounded",
    "Verif.Props.Rtm.a_free_lock_is_obtained",
    "Verif.Props.Rtm.lock_is_never_stuck",
    "Verif.Props.Rtm.not_TryLockIsHonest",
    "Verif.Props.Rtm.try_lock_may_fail_for_ever",
    "Verif.Props.Rtm.try_lock_partial"
   ],
   "note": "All parts proved except the last, which is false: spinlock_rtm::try_lock has no fallback, so where transactions never commit (the hardware gives no guarantee) it fails for ever on a free lock, and a timed wait that has timed out repeats it for ever. The hardware is an abstract transactional memory (buffered writes, flat nesting, strong isolation, rollback at any time). The fallback is one of the two ttas spinlocks; with the futex spinlocks spinlock_rtm does not compile (no member state_)."
  },
  {
   "property": "C86",
   "status": "partial",
   "theorems": [
    "Verif.Props.Launch.called_once_with_the_values",
    "Verif.Props.Launch.lvalues_are_kept",
    "Verif.Props.Launch.destroyed_at_most_once",
    "Verif.Props.Launch.a_failed_launch_leaves_no_object",
    "Verif.Props.Launch.the_stack_is_freed_once_and_last",
    "Verif.Props.Launch.nothing_is_left",
    "Verif.Props.Launch.not_FailedLaunchKeepsNoStack",
    "Verif.Props.Launch.failed_launch_partial",
    "Verif.Props.Launch.not_JoinedMeansDestroyed",
    "Verif.Props.Launch.joined_partial",
    "Verif.Props.Launch.every_step_counts",
    "Verif.Props.Launch.never_stuck"
   ],
   "note": "Two parts are false. A launch whose callable or argument throws while it is constructed in the control block loses the stack; failed_launch_partial says that this is the only way to lose it. After join, the control block may still hold a callable or arguments whose move is a copy; joined_partial says that nothing else is left. The order of initialisation of parameters and tuple elements is fixed in the model. C38 and C40 justify when join returns and when the dispatcher releases a fiber."
  },
  {
   "property": "C87",
   "status": "proved",
   "theorems": [
    "Verif.Props.WeakDrf.no_race_and_sequentially_consistent",
    "Verif.Props.WeakDrf.every_sequential_history_happens",
    "Verif.Props.WeakDrf.critical_sections_are_atomic",
    "Verif.Props.WeakDrf.guarded_programs_are_disciplined",
    "Verif.Props.WeakDrf.mailbox_disciplined"
   ],
   "note": "For spinlock_ttas, the default. For the futex spinlocks the first statement is false on weak memory (C73). try_lock may fail without reason in the sequentially consistent histories."
  },
  {
   "property": "C88",
   "status": "proved",
   "theorems": [
    "Verif.Props.Monitor.operations_are_single_steps",
    "Verif.Props.Monitor.every_history_of_operations_happens",
    "Verif.Props.Monitor.mutexes_are_locks",
    "Verif.Props.Monitor.data_guarded_by_mutexes",
    "Verif.Props.Monitor.critical_sections_of_mutexes_are_atomic",
    "Verif.Props.Monitor.every_history_of_mutexes_happens",
    "Verif.Props.Monitor.operations_with_mutexes_are_single_steps"
   ],
   "note": "Programs do not call try_lock (a data race, C82) and do not lock a mutex they hold. Each fiber is a thread of the memory model. The wait queue is a number, and a waiting fiber may go on at any time; who is woken is in other parts of the model."
  },
  {
   "property": "C89",
   "status": "proved",
   "theorems": [
    "Verif.Props.MonitorChan.data_handed_over_through_channels",
    "Verif.Props.MonitorChan.channels_are_queues",
    "Verif.Props.MonitorChan.careful_programs_are_disciplined"
   ],
   "note": "Elements are numbers, some of them names of data. Each fiber is a thread of the memory model. Wait queues are numbers and a waiting fiber may go on at any time; who is woken is in other parts of the model."
  },
  {
   "property": "C90",
   "status": "proved",
   "theorems": [
    "Verif.Props.MonitorBarrier.phases_do_not_race",
    "Verif.Props.MonitorBarrier.phases_are_separated",
    "Verif.Props.MonitorBarrier.one_leader_per_phase"
   ],
   "note": "One barrier. The cycle counter does not overflow. The wait queue of the condition variable is not modelled here; a waiting fiber may go on at any time, and who is woken is in other parts of the model. Each fiber is a thread of the memory model."
  },
  {
   "property": "C91",
   "status": "proved",
   "theorems": [
    "Verif.Props.MonitorFuture.published_data_do_not_race",
    "Verif.Props.MonitorFuture.futures_get_what_was_set",
    "Verif.Props.MonitorFuture.futures_agree",
    "Verif.Props.MonitorFuture.promises_are_set_once",
    "Verif.Props.MonitorFuture.outcomes_are_not_made_up"
   ],
   "note": "Values are numbers, which may stand for pointers to the data, and are read inside of the critical section of the getter; the code returns a reference to the value. The wait queue of the condition variable is not modelled here; a waiting fiber may go on at any time. The lifetime of the shared state is in other parts of the model. Each fiber is a thread of the memory model."
  },
  {
   "property": "C92",
   "status": "proved",
   "theorems": [
    "Verif.Props.LockOrder.lock_holders_can_go_on",
    "Verif.Props.LockOrder.critical_sections_end",
    "Verif.Props.LockOrder.locks_get_free",
    "Verif.Props.LockOrder.calls_return"
   ],
   "note": "Only the locks are modelled: which are taken, released and handed over where, with free choices for everything else, so that the model has more behaviours than the code. Code of the user that runs while a lock is held (copies of values, clean-up functions, properties, algorithms of the user) is taken not to call the library; pick_next is taken to return (C49). Spinlocks are not fair: that a particular thread gets a lock is not claimed."
  },
  {
   "property": "C93",
   "status": "partial",
   "theorems": [
    "Verif.Props.LockOrder.not_AnyLockMayBeUsed",
    "Verif.Props.LockOrder.a_lock_that_waits_stops_the_thread",
    "Verif.Props.LockOrder.a_lock_that_notifies_stops_the_thread",
    "Verif.Props.LockOrder.locks_that_do_not_wait_may_be_used_partial"
   ],
   "note": "False: wait() holds the spinlock of the condition variable while it calls unlock() of the user. If that waits (a lock made of a mutex of the library is enough) and another fiber of the thread uses the condition variable, the thread spins for ever; likewise if unlock() notifies the same condition variable. Proved for locks whose unlock() does not switch fibers and waits for no lock that ranks as high as that spinlock, among them all mutexes of the library."
  },
  {
   "property": "C94",
   "status": "proved",
   "theorems": [
    "Verif.Props.MonitorNet.results_do_not_depend_on_the_schedule",
    "Verif.Props.MonitorNet.an_end_is_the_only_end",
    "Verif.Props.MonitorNet.no_execution_gets_stuck_if_one_ends"
   ],
   "note": "On the model of C89: elements are numbers, some of them names of data that are handed over; operations with a timeout, try_push, try_pop and is_closed are excluded, since their results do depend on the schedule (examples), and so do those of several producers or consumers. A suspended fiber may go on at any time in the model; that it is woken is C20. Not stuck means: there is an execution that continues the sequence of critical sections with one in which a thread completes what it does next."
  },
  {
   "property": "C95",
   "status": "proved",
   "theorems": [
    "Verif.Props.OrderWait.nothing_throws",
    "Verif.Props.OrderWait.no_deadlock",
    "Verif.Props.OrderWait.some_fiber_runs",
    "Verif.Props.OrderWait.every_execution_ends",
    "Verif.Props.OrderWait.comes_to_its_end",
    "Verif.Props.OrderWait.the_end_is_reached"
   ],
   "note": "Operations are single steps (set_value two, since it wakes the waiting fibers after unlocking); that they may be seen so is C88 and C91. Any fiber that is ready may run next, so all scheduling algorithms and numbers of threads are covered, and it is assumed that the scheduler runs some ready fiber if there is one (C01 and its neighbours). Programs are finite. Timed attempts and untimed ones on the same mutex are excluded, because a timed attempt that gives up does not pass on the wake-up it has got (C03; example `timed` here). Condition variables, barriers and channels are not part of these programs; joinability of handles is not modelled here."
  },
  {
   "property": "C96",
   "status": "partial",
   "theorems": [
    "Verif.Props.ThreadInit.one_scheduler_partial",
    "Verif.Props.ThreadInit.initialize_tells_partial",
    "Verif.Props.ThreadInit.late_use",
    "Verif.Props.ThreadInit.destroyed_once",
    "Verif.Props.ThreadInit.claim_fails"
   ],
   "note": "Proved until the thread begins to destroy its scheduler, and for the destruction itself (once, always). The full claim is refuted (claim_fails): after the scheduler has been destroyed, any use of fibers, as in the destructor of a thread_local object that was constructed before fibers were used, dereferences a null pointer; late_use says exactly when. A fiber that calls use_scheduling_algorithm while the thread ends gets a second scheduler, which is destroyed before the call returns true, and the active context is null from then on (example). One thread; the scheduler is its number and its algorithm."
  },
  {
   "property": "C97",
   "status": "proved",
   "theorems": [
    "Verif.Props.SchedTurn.uninterrupted",
    "Verif.Props.SchedTurn.gave_way",
    "Verif.Props.SchedTurn.same_order"
   ],
   "note": "On the model of the scheduler with round_robin (Verif/Sched.lean). The first part is for any number of threads. In the second part the thread is alone in the process; the program may depend on the results of the calls. With deadlines the order does depend on the clock (example)."
  },
  {
   "property": "C98",
   "status": "proved",
   "theorems": [
    "Verif.Props.AsioYield.gives_the_result",
    "Verif.Props.AsioYield.once_and_safe",
    "Verif.Props.AsioYield.no_lost_completion",
    "Verif.Props.AsioYield.short",
    "Verif.Props.AsioYield.comes_back",
    "Verif.Props.AsioYield.nothing_is_left"
   ],
   "note": "asio is any sequence of events that calls a handler at most once and keeps a handler while it is called; if it destroys the handlers without calling one, the fiber waits for ever (example). Sequentially consistent; the spinlock is C52 and C73, the scheduler C41. This is code the documentation tells users to copy (examples/asio)."
  },
  {
   "property": "C99",
   "status": "partial",
   "theorems": [
    "Verif.Props.WaitStuff.one_result",
    "Verif.Props.WaitStuff.uncaught",
    "Verif.Props.WaitStuff.first_of_all",
    "Verif.Props.WaitStuff.first_of_some",
    "Verif.Props.WaitStuff.in_order",
    "Verif.Props.WaitStuff.first_success",
    "Verif.Props.WaitStuff.all_values",
    "Verif.Props.WaitStuff.until_error",
    "Verif.Props.WaitStuff.collect_errors",
    "Verif.Props.WaitStuff.simple",
    "Verif.Props.WaitStuff.at_once",
    "Verif.Props.WaitStuff.comes_back",
    "Verif.Props.WaitStuff.fibers_end_partial",
    "Verif.Props.WaitStuff.fibers_hang",
    "Verif.Props.WaitStuff.threads_hang",
    "Verif.Props.WaitStuff.none_hangs"
   ],
   "note": "Proved but for the last words: the results (on any number of threads, the order of the first on one), that the caller comes back at once and that it comes back at all on one thread, and that the fibers end (fibers_end_partial, if wait_all_until_error is called with no more than 64 functions). Refuted: wait_all_until_error does not close its channel when it throws, and with 65 functions a fiber waits for ever (fibers_hang); the counter of nchannel is not protected, and on two threads the caller may wait for ever (threads_hang; formally this is a data race); wait_first_simple without a function waits for ever (none_hangs). wait_all_members is not modelled. Operations of the channel, the barrier and Done are single steps (C17-C20, C14-C16, C88)."
  },
  {
   "property": "C100",
   "status": "partial",
   "theorems": [
    "Verif.Props.Priority.highest_first",
    "Verif.Props.Priority.told",
    "Verif.Props.Priority.no_ub",
    "Verif.Props.Priority.goes_on",
    "Verif.Props.Priority.its_turn",
    "Verif.Props.Priority.turn_wakes",
    "Verif.Props.Priority.dispatcher_turn_partial",
    "Verif.Props.Priority.sleeper_starves",
    "Verif.Props.Priority.yield_to_lower"
   ],
   "note": "Proved: which fiber is taken (highest_first), nothing lost (told), always one to run (no_ub, goes_on), turns among equals (its_turn), and that the dispatcher, when it has its turn, makes all those ready whose time has come (turn_wakes). That it has its turn is proved if no fiber of a positive priority becomes ready (dispatcher_turn_partial). Refuted in general: the dispatcher is in the queue with priority 0, and two fibers of priority 1 that yield to each other keep it from running for ever, so that a fiber of priority 100 never wakes (sleeper_starves); a fiber that yields is put back only after the next was taken, and gives way to one of lower priority (yield_to_lower). One thread; releasing ended fibers is not modelled."
  },
  {
   "property": "C101",
   "status": "partial",
   "theorems": [
    "Verif.Props.AsioLoop.no_ub",
    "Verif.Props.AsioLoop.its_turn",
    "Verif.Props.AsioLoop.first_come",
    "Verif.Props.AsioLoop.sleeps_idle",
    "Verif.Props.AsioLoop.has_ready",
    "Verif.Props.AsioLoop.remote_not_lost",
    "Verif.Props.AsioLoop.dispatcher_first",
    "Verif.Props.AsioLoop.turn_wakes",
    "Verif.Props.AsioLoop.deadline_partial",
    "Verif.Props.AsioLoop.stuck_forever",
    "Verif.Props.AsioLoop.dispatch_hangs",
    "Verif.Props.AsioLoop.handler_yield_hangs",
    "Verif.Props.AsioLoop.notify_hangs",
    "Verif.Props.AsioLoop.poll_starves",
    "Verif.Props.AsioLoop.blocked_handler_spins",
    "Verif.Props.AsioLoop.timer_race"
   ],
   "note": "Proved: order and bounded waiting among fibers (its_turn, first_come, no_ub); the thread sleeps only if no fiber is ready (sleeps_idle, has_ready); a wake-up from another thread is not lost: while the thread sleeps, a notification that makes a handler due is under way (remote_not_lost), that handler lets the dispatcher run (dispatcher_first), which makes the fiber ready (turn_wakes). A timer is set for the first deadline if no other thread wakes fibers and the main fiber does not give way before run() or in a handler (deadline_partial). Refuted without that: a fiber launched with launch::dispatch that sleeps before run() is called sleeps for ever (dispatch_hangs), likewise one that sleeps while a handler yields (handler_yield_hangs), and a notification that comes late takes away the timer set for another fiber (notify_hangs). Also refuted: handlers that keep becoming due starve ready fibers (poll_starves); a handler that blocks its fiber makes the dispatcher spin while other handlers are not called (blocked_handler_spins); the timer is used by several threads without protection (timer_race). Each operation of the timer is one step in the model; asio itself is modelled as a list of handlers."
  },
  {
   "property": "C102",
   "status": "partial",
   "theorems": [
    "Verif.Props.Callback.result",
    "Verif.Props.Callback.returns_once",
    "Verif.Props.Callback.waits_for_callback",
    "Verif.Props.Callback.no_ub",
    "Verif.Props.Callback.freed_once",
    "Verif.Props.Callback.read_no_ub_partial",
    "Verif.Props.Callback.read_ub",
    "Verif.Props.Callback.read_twice_ub",
    "Verif.Props.Callback.dropped_hangs"
   ],
   "note": "Proved for all: the result is that of the first call of the callback (result), once (returns_once), and not before (waits_for_callback); the state is freed once (freed_once). Nothing is used after its end in write_ec, write, read_ec (the promise is moved into the callback) and the method-call version (the promise is kept by a shared_ptr) (no_ub), and in read if the fiber does not run between the callback's storing and its end (read_no_ub_partial). Refuted for read, whose callback has a reference to the promise on the stack: the fiber can return, and free the state, while the callback still notifies (read_ub), and a second call of the callback uses a promise that has gone (read_twice_ub). Refuted for read and the method-call version: if the callback is destroyed without having been called, they wait for ever (dropped_hangs)."
  },
  {
   "property": "C103",
   "status": "proved",
   "theorems": [
    "Verif.Props.Nonblocking.nothing_desired",
    "Verif.Props.Nonblocking.all_data",
    "Verif.Props.Nonblocking.asks_for_rest",
    "Verif.Props.Nonblocking.status",
    "Verif.Props.Nonblocking.not_more",
    "Verif.Props.Nonblocking.yields",
    "Verif.Props.Nonblocking.bounded",
    "Verif.Props.Nonblocking.read_right"
   ],
   "note": "Proved for every sequence of answers: the data (all_data; not_more, if the interface keeps to what it is asked for), the requests (asks_for_rest; none if nothing is desired, nothing_desired), the status (status), the yields (yields), the number of calls (bounded), and the result or exception of read (read_right). Yields are steps; what other fibers do in between is left to the interface's answers."
  },
  {
   "property": "C104",
   "status": "proved",
   "theorems": [
    "Verif.Props.WorkPool.not_twice",
    "Verif.Props.WorkPool.none_left_behind",
    "Verif.Props.WorkPool.quiet_at_end",
    "Verif.Props.WorkPool.ends"
   ],
   "note": "Proved: no fiber runs more than it has to (not_twice), all have run to their ends before any thread leaves and none runs after (none_left_behind), every run has a bounded number of steps and can stop only when the main thread has joined all others (ends), and then everything is at rest (quiet_at_end). Scheduling is an arbitrary choice among ready fibers, which covers work sharing and work stealing; idle threads, which poll, make no steps. That resuming a fiber on another thread is sound is the subject of other claims."
  },
  {
   "property": "C105",
   "status": "partial",
   "theorems": [
    "Verif.Props.MutexTurn.gets_its_turn_partial",
    "Verif.Props.MutexTurn.in_order_partial",
    "Verif.Props.MutexTurn.starves"
   ],
   "note": "False of the code: unlock() makes the mutex free and schedules the fiber that has waited longest, but whoever comes first takes it; the scheduled fiber, if too late, starts to wait again behind all others. A fiber that unlocks and locks again at once keeps others waiting for ever (starves: an infinite fair execution for each class). Proved: if from some time on nobody takes the mutex while a fiber scheduled by unlock() is about to take it, every call of lock() ends; if that never happens, fibers get the mutex in the order in which they ask. Timed attempts are excluded (C03)."
  },
  {
   "property": "C106",
   "status": "partial",
   "theorems": [
    "Verif.Props.NumaSys.aix_describes",
    "Verif.Props.NumaSys.freebsd_describes",
    "Verif.Props.NumaSys.solaris_describes_partial",
    "Verif.Props.NumaSys.windows_describes_partial",
    "Verif.Props.NumaSys.fake_distances",
    "Verif.Props.NumaSys.aix_distances_partial",
    "Verif.Props.NumaSys.windows_distances_partial",
    "Verif.Props.NumaSys.distances_parse",
    "Verif.Props.NumaSys.linux_distances_partial",
    "Verif.Props.NumaSys.aix_skips",
    "Verif.Props.NumaSys.solaris_twice",
    "Verif.Props.NumaSys.solaris_loses",
    "Verif.Props.NumaSys.solaris_no_cpu",
    "Verif.Props.NumaSys.windows_no_cpu",
    "Verif.Props.NumaSys.linux_gap"
   ],
   "note": "False of the code. On AIX, Solaris and Windows the made-up distances compare a node's id with an index: they are right if and only if all ids are less than the number of nodes (fake_distances), which fails when AIX leaves out a node without CPUs (aix_skips), on every Solaris machine whose root group is not a node (solaris_no_cpu), and on Windows with gaps (windows_no_cpu). On Linux the entries follow the order of the nodes that are online, not their ids (linux_gap). Solaris lists a CPU twice if groups with memory are nested (solaris_twice), not at all if its group has no memory (solaris_loses), and Solaris and Windows list nodes without CPUs, of which numa::algo::work_stealing then takes the last CPU. Proved: AIX and FreeBSD list nodes and CPUs exactly; Windows, if every node has a CPU; Solaris, if exactly the leaves have memory and CPUs; distances are right without gaps. The nodes and CPUs of Linux are in C56. HP-UX does not compile and is not modelled."
  },
  {
   "property": "C107",
   "status": "partial",
   "theorems": [
    "Verif.Props.NumaSys.pin_linux",
    "Verif.Props.NumaSys.pin_freebsd_partial",
    "Verif.Props.NumaSys.pin_freebsd_listed",
    "Verif.Props.NumaSys.pin_solaris_partial",
    "Verif.Props.NumaSys.pin_aix_partial",
    "Verif.Props.NumaSys.pin_windows_partial",
    "Verif.Props.NumaSys.pin_windows_listed",
    "Verif.Props.NumaSys.pin_freebsd_outside",
    "Verif.Props.NumaSys.pin_solaris_unpins",
    "Verif.Props.NumaSys.pin_aix_other",
    "Verif.Props.NumaSys.pin_windows_other",
    "Verif.Props.NumaSys.pin_windows_shift"
   ],
   "note": "Proved for every number on Linux; on the other systems for numbers below CPU_SETSIZE (FreeBSD), 2^31 (Solaris), 2^15 (AIX), 2^22 (64-bit Windows), and for every CPU that topology() lists on FreeBSD and on Windows (32 and 64 bits). False of the code for others: FreeBSD writes outside of the set (pin_freebsd_outside); on Solaris and AIX numbers that become -1 unbind the thread, on AIX others select another CPU (pin_solaris_unpins, pin_aix_other); Windows truncates the group (pin_windows_other), and shifts by too much with 32 bits (pin_windows_shift). Assumed of the systems: cpu_t of AIX has 16 bits, CPU_SET of glibc ignores numbers from 1024 on."
  },
  {
   "property": "C108",
   "status": "proved",
   "theorems": [
    "Verif.Props.BarrierLive.wait_returns",
    "Verif.Props.BarrierLive.batches_return",
    "Verif.Props.BarrierLive.starves"
   ],
   "note": "The number of fibers matters in the first part: starves is a fair execution of a barrier for one in which a fiber that calls wait() again and again keeps a second one from getting the barrier's mutex for ever (the mutex is not fair, C105). Fair means weakly fair: a fiber that could make its next step all the time makes it; nothing is assumed about who gets the mutex."
  },
  {
   "property": "C109",
   "status": "proved",
   "theorems": [
    "Verif.Props.BufLive.after_close_returns",
    "Verif.Props.BufLive.nonblocking_returns",
    "Verif.Props.BufLive.timed_returns",
    "Verif.Props.BufLive.balance"
   ],
   "note": "The last part is for calls without a deadline and values that do not throw: with them a woken fiber may give up and the others are not served (C21, C80). The spinlock of the channel is one step of its fiber (C92 is about the lock). Fair means weakly fair: a fiber that could make its next step all the time makes it."
  },
  {
   "property": "C110",
   "status": "partial",
   "theorems": [
    "Verif.Props.BufLive.sole_consumer_partial",
    "Verif.Props.BufLive.sole_producer_partial",
    "Verif.Props.BufLive.starves"
   ],
   "note": "Proved if the fiber is the only one that takes values out (puts values in): then one value (one free slot) at any time after the call is enough. Refuted for two consumers: starves is a fair execution in which values are pushed and taken for ever and a third fiber's pop() never returns, because notify_one only wakes it and a fiber that comes by takes the value first; it then queues up again."
  },
  {
   "property": "C111",
   "status": "proved",
   "theorems": [
    "Verif.Props.UnbufLive.balance"
   ],
   "note": "With deadlines or throwing moves a woken fiber may give up and others are stranded (C63, C80); close is C112. Fair means weakly fair: a fiber that could make its next step all the time makes it. That the calls come to an end is needed (starves, C112)."
  },
  {
   "property": "C112",
   "status": "partial",
   "theorems": [
    "Verif.Props.UnbufLive.after_close_partial",
    "Verif.Props.UnbufLive.starves"
   ],
   "note": "Proved: if the channel is closed, nothing is put on offer after that and finitely many calls are made, every call returns. Refuted: starves is a fair execution in which values are handed over for ever and another fiber's pop() never returns, because notify_one only wakes it and a fiber that comes by takes the offer first; a push that puts its value on offer after close() has looked at the slot never returns (late_push_strands, C29)."
  },
  {
   "property": "C113",
   "status": "proved",
   "theorems": [
    "Verif.Props.FibLive.join_returns",
    "Verif.Props.FibLive.finished_fiber_is_freed",
    "Verif.Props.FibLive.nested_joins_return"
   ],
   "note": "Fair means weakly fair: a fiber that could make its next step all the time makes it; for the memory also the dispatcher releases what it can. That nobody joins in a circle is needed (mutual_joins_never_return)."
  },
  {
   "property": "C114",
   "status": "proved",
   "theorems": [
    "Verif.Props.FutLive.call_ends",
    "Verif.Props.FutLive.get_delivers",
    "Verif.Props.FutLive.timed_returns",
    "Verif.Props.FutLive.abandoned_returns"
   ],
   "note": "Fair means weakly fair: a fiber that could make its next step all the time makes it. timed_returns assumes strong fairness, because a fiber at its deadline has to get the spinlock of the wait queue, which others may take again and again as long as the result is not ready. A state given up by packaged_task::reset is C34."
  },
  {
   "property": "C115",
   "status": "proved",
   "theorems": [
    "Verif.Props.MutexLive.try_lock_returns",
    "Verif.Props.MutexLive.unlock_returns",
    "Verif.Props.MutexLive.timed_attempt_returns"
   ],
   "note": "Fair means weakly fair. The sections under the mutex's own spinlock are single steps here (C88 justifies this; that the spinlock is obtained is C92). What they return is C06, C61, C62; when lock() returns is C105."
  },
  {
   "property": "C116",
   "status": "proved",
   "theorems": [
    "Verif.Props.CvLive.notify_one_returns",
    "Verif.Props.CvLive.notify_all_returns",
    "Verif.Props.CvLive.notified_wait_returns",
    "Verif.Props.CvLive.timed_wait_returns",
    "Verif.Props.CvLive.predicate_wait_returns",
    "Verif.Props.CvLive.write_without_lock_strands"
   ],
   "note": "Strong fairness, because a fiber competes for the spinlock of the wait queue and for the lock (with a boost::fibers::mutex a fiber may be overtaken for ever, C105; strong fairness rules this out). write_without_lock_strands is not a defect of the library: the documentation requires the lock."
  },
  {
   "property": "C117",
   "status": "partial",
   "theorems": [
    "Verif.Props.UnbufTimed.timed_call_returns_partial",
    "Verif.Props.UnbufTimed.timed_push_spins",
    "Verif.Props.UnbufTimed.timed_pop_spins"
   ],
   "note": "The code violates it: after losing the slot both loops start again without looking at the clock, so two other fibers that exchange values can keep a timed call busy for ever (timed_push_spins, timed_pop_spins: strongly fair executions on which the clock passes every time). Proved: it returns if from some time on no other fiber offers, takes or withdraws a value."
  },
  {
   "property": "C118",
   "status": "proved",
   "theorems": [
    "Verif.Props.SchedFair.ready_fiber_runs",
    "Verif.Props.SchedFair.woken_fiber_runs",
    "Verif.Props.SchedFair.deadline_ends_wait",
    "Verif.Props.SchedFair.launched_fiber_starts",
    "Verif.Props.SchedFair.yield_returns",
    "Verif.Props.SchedFair.thread_terminates",
    "Verif.Props.SchedFair.busy_fiber_starves"
   ],
   "note": "busy_fiber_starves shows that the fibers have to give way. Counterpart of C41 to C47 on infinite executions."
  },
  {
   "property": "C119",
   "status": "proved",
   "theorems": [
    "Verif.Props.MultiFair.ready_fiber_runs",
    "Verif.Props.MultiFair.shared_fiber_runs",
    "Verif.Props.MultiFair.woken_fiber_runs",
    "Verif.Props.MultiFair.launched_fiber_starts",
    "Verif.Props.MultiFair.yield_returns",
    "Verif.Props.MultiFair.pinned_fiber_starves"
   ],
   "note": "pinned_fiber_starves: with shared_work the statement fails for the main fiber and the dispatcher, which is why they are excluded (see C68). Threads that end lose ready fibers (C47), hence the proviso. Counterpart of C66 to C68 on infinite executions."
  },
  {
   "property": "C120",
   "status": "partial",
   "theorems": [
    "Verif.Props.PubSub.sent_in_order",
    "Verif.Props.PubSub.calm_complete_partial",
    "Verif.Props.PubSub.message_lost",
    "Verif.Props.PubSub.last_message_lost"
   ],
   "note": "Order, no duplicates and nothing invented are proved without condition (sent_in_order); completeness holds only if each message is written before the next one is published (calm_complete_partial). In general it is false: message_lost, last_message_lost."
  },
  {
   "property": "C121",
   "status": "partial",
   "theorems": [
    "Verif.Props.PubSub.calm_ends_partial",
    "Verif.Props.PubSub.subscriber_hangs"
   ],
   "note": "Holds if the queue is removed when all messages have been written (calm_ends_partial). In general it is false: subscriber_hangs shows a state from which the session never ends whatever happens."
  },
  {
   "property": "C122",
   "status": "partial",
   "theorems": [
    "Verif.Props.PubSub.owner_keeps_partial",
    "Verif.Props.PubSub.no_ub_partial",
    "Verif.Props.PubSub.foreign_queue_removed",
    "Verif.Props.PubSub.empty_queue_removed",
    "Verif.Props.PubSub.full_message_ub"
   ],
   "note": "Holds for queues with a non-empty name that no second publisher tries to register (owner_keeps_partial), and memory safety holds if all clients end their texts with a null character (no_ub_partial). In general it is false: foreign_queue_removed, empty_queue_removed, full_message_ub."
  },
  {
   "property": "C123",
   "status": "proved",
   "theorems": [
    "Verif.Props.Echo.echoed",
    "Verif.Props.Echo.replies_in_order",
    "Verif.Props.Echo.reply_may_be_short"
   ],
   "note": "reply_may_be_short: the reply need not be the whole message, as the client reads once with async_read_some; the property says so."
  },
  {
   "property": "C124",
   "status": "partial",
   "theorems": [
    "Verif.Props.Echo.served_before_stop",
    "Verif.Props.Echo.closed_once",
    "Verif.Props.Echo.ends_partial",
    "Verif.Props.Echo.steps_bounded",
    "Verif.Props.Echo.client_hangs"
   ],
   "note": "closed_once holds whatever fails, served_before_stop unless an operation fails. The number of steps is bounded (steps_bounded). That the program ends well is proved if no operation fails (ends_partial) and is false in general: client_hangs."
  },
  {
   "property": "C125",
   "status": "proved",
   "theorems": [
    "Verif.Props.Skynet.result_correct",
    "Verif.Props.Skynet.no_deadlock",
    "Verif.Props.Skynet.channel_outlives",
    "Verif.Props.Skynet.steps_bounded",
    "Verif.Props.Skynet.join_deadlocks",
    "Verif.Props.Skynet.other_size_wrong",
    "Verif.Props.Skynet.small_size_endless"
   ],
   "note": "The conditions are necessary: join_deadlocks (16 joined fibers and the 16 slots of the benchmark: a channel made with 16 slots holds 15 elements), other_size_wrong (a range that cannot be cut into equal parts), small_size_endless (a range smaller than the number of fibers, and not 1: the recursion does not end)."
  },
  {
   "property": "C126",
   "status": "proved",
   "theorems": [
    "Verif.Props.AsyncTree.outcome",
    "Verif.Props.AsyncTree.no_deadlock",
    "Verif.Props.AsyncTree.steps_bounded",
    "Verif.Props.AsyncTree.skynet_sum",
    "Verif.Props.AsyncTree.div_zero_ub"
   ],
   "note": "The number of calls must not be 0: div_zero_ub. skynet_sum is the outcome for the leaf of the program."
  },
  {
   "property": "C127",
   "status": "proved",
   "theorems": [
    "Verif.Props.FutureErr.eq_iff",
    "Verif.Props.FutureErr.told_apart",
    "Verif.Props.FutureErr.not_confused",
    "Verif.Props.FutureErr.not_foreign",
    "Verif.Props.FutureErr.message_tells"
   ],
   "note": "Comparison of codes and conditions is the one of the standard ([syserr.compare])."
  },
  {
   "property": "C128",
   "status": "proved",
   "theorems": [
    "Verif.Props.PingPong.alternate",
    "Verif.Props.PingPong.no_deadlock",
    "Verif.Props.PingPong.one_at_a_time",
    "Verif.Props.PingPong.steps_bounded"
   ],
   "note": ""
  },
  {
   "property": "C129",
   "status": "proved",
   "theorems": [
    "Verif.Props.Pipe.in_order",
    "Verif.Props.Pipe.end_is_end",
    "Verif.Props.Pipe.no_deadlock",
    "Verif.Props.Pipe.one_receiver",
    "Verif.Props.Pipe.steps_bounded"
   ],
   "note": "The channels are used as C17 to C29 prove them to behave."
  },
  {
   "property": "C130",
   "status": "proved",
   "theorems": [
    "Verif.Props.ThreadBarrier.calls_numbered",
    "Verif.Props.ThreadBarrier.returns_once",
    "Verif.Props.ThreadBarrier.not_early",
    "Verif.Props.ThreadBarrier.last_gets_true",
    "Verif.Props.ThreadBarrier.nobody_stranded",
    "Verif.Props.ThreadBarrier.more_threads_stranded",
    "Verif.Props.ThreadBarrier.comes_to_rest"
   ],
   "note": "That more threads than the count can strand one (`cycle_` is a single bit) is outside the intended use: `work_sharing.cpp` has four threads and a count of four."
  },
  {
   "property": "C131",
   "status": "proved",
   "theorems": [
    "Verif.Props.JoinRef.joined_after_return",
    "Verif.Props.JoinRef.outcome",
    "Verif.Props.JoinRef.never_terminates",
    "Verif.Props.JoinRef.steps_bounded"
   ],
   "note": "join and the destructor are used as the claims about handles prove them to behave."
  }
 ]
}