{
 "claims": [
  {
   "property": "C01",
   "status": "proved",
   "theorems": [
    "Verif.Deque.deque_no_dup_no_invention",
    "Verif.Deque.deque_linearizable"
   ],
   "note": "Every interleaving of the single atomic accesses of one owner and any number of thieves, every power-of-two capacity. Sequentially consistent memory; indices are unbounded integers."
  },
  {
   "property": "C02",
   "status": "proved",
   "theorems": [
    "Verif.Deque.deque_pop_empty_iff",
    "Verif.Deque.deque_steal_empty_iff",
    "Verif.Deque.deque_size_exact",
    "Verif.Deque.deque_linearizable",
    "Verif.Deque.deque_wait_free",
    "Verif.Deque.deque_never_blocks"
   ],
   "note": "empty and lost are justified by the specification machine (a call may answer empty only at an instant where the list is empty, lost only if another successful call overlaps). Same memory model as C01."
  },
  {
   "property": "C03",
   "status": "proved",
   "theorems": [
    "Verif.Deque.deque_linearizable"
   ],
   "note": "Same memory model as C01."
  },
  {
   "property": "C04",
   "status": "proved",
   "theorems": [
    "Verif.Deque.deque_capacity",
    "Verif.Deque.deque_growth_preserves",
    "Verif.Deque.deque_stale_buffer_ok",
    "Verif.Deque.deque_throw_unchanged"
   ],
   "note": "The allocator is assumed not to deliver 2^63 slots."
  },
  {
   "property": "C05",
   "status": "proved",
   "theorems": [
    "Verif.IList.handed_in_order",
    "Verif.IList.nothing_lost",
    "Verif.IList.popped_all",
    "Verif.IList.push_precondition"
   ],
   "note": "Sequentially consistent interleavings of the accesses of push, try_pop_all and for_each_elem, with node addresses reused after destruction."
  },
  {
   "property": "C06",
   "status": "proved",
   "theorems": [
    "Verif.Stack.alloc_in_bounds",
    "Verif.Stack.allocs_disjoint"
   ],
   "note": "All LIFO clients of any number of stacks and released stacklets, every malloc satisfying the C library's contract, requests of at most 2^64-4192 bytes (beyond that see C08)."
  },
  {
   "property": "C07",
   "status": "proved",
   "theorems": [
    "Verif.Stack.lifo_restores",
    "Verif.Stack.no_ub",
    "Verif.Stack.bad_alloc_unchanged",
    "Verif.Stack.alloc_fails_only_if",
    "Verif.Stack.dealloc_ok",
    "Verif.Stack.no_leak",
    "Verif.Stack.unique_owner",
    "Verif.Stack.spare_bounded",
    "Verif.Stack.empty_small",
    "Verif.Stack.empty_correct"
   ],
   "note": "Same quantification as C06; includes release, re-adoption and swap of stacks."
  },
  {
   "property": "C08",
   "status": "partial",
   "theorems": [
    "Verif.Stack.never_short_violates",
    "Verif.Stack.allocate_huge_violates",
    "Verif.Stack.allocate_assert_violates",
    "Verif.Stack.allocate_wrap_violates",
    "Verif.Stack.coNew_short_violates",
    "Verif.Stack.coNew_zero_violates",
    "Verif.Stack.never_short_partial",
    "Verif.Stack.coNew_partial"
   ],
   "note": "The code violates the property: rounding up, adding the header and count*sizeof(T) all wrap in size_t. Proved by classes of witnesses on every stack; it holds for requests up to 2^64-4192 bytes (never_short_partial, coNew_partial)."
  },
  {
   "property": "C09",
   "status": "proved",
   "theorems": [
    "Verif.Runtime.history_legal",
    "Verif.Runtime.join_after_children",
    "Verif.Runtime.resumed_once",
    "Verif.Runtime.returns_once",
    "Verif.Runtime.result_serial",
    "Verif.Runtime.nothing_lost",
    "Verif.Runtime.busy_proceeds"
   ],
   "note": "Every program (state machine) that joins before returning, any number of workers, every interleaving of single accesses to shared memory, no task stolen more than 65534 times between two joins (see C10). Sequentially consistent memory; queue operations are atomic (C03)."
  },
  {
   "property": "C10",
   "status": "partial",
   "theorems": [
    "Verif.Runtime.join_counter_partial",
    "Verif.Runtime.reach_of_bounded",
    "Verif.Runtime.Counter.join_counter_overflow"
   ],
   "note": "Holds for scopes with at most 65534 forks. Beyond that the code violates it: with 65535 forks in one scope there is a schedule of two workers in which the last child resumes the parent while the parent still runs."
  },
  {
   "property": "C11",
   "status": "proved",
   "theorems": [
    "Verif.Runtime.call_after_callee",
    "Verif.Runtime.resumed_once",
    "Verif.Runtime.history_legal"
   ],
   "note": "As C09."
  },
  {
   "property": "C12",
   "status": "proved",
   "theorems": [
    "Verif.Runtime.idle_empty",
    "Verif.Runtime.no_ub"
   ],
   "note": "As C09. The assertions of resume.hpp are steps that would be undefined behaviour, and no_ub says none is."
  },
  {
   "property": "C13",
   "status": "proved",
   "theorems": [
    "Verif.Runtime.stacks_unique",
    "Verif.Runtime.frames_filo",
    "Verif.Runtime.no_ub"
   ],
   "note": "As C09. Destroying a frame that is not on top of the executing worker's stack is undefined behaviour in the model."
  },
  {
   "property": "C14",
   "status": "proved",
   "theorems": [
    "Verif.Except.join_rethrows",
    "Verif.Except.join_exception_source",
    "Verif.Except.frame_never_corrupted"
   ],
   "note": "All interleavings of any number of children with the capture of exceptions split into its two shared-memory steps. That a join is passed only after all children finished is C09."
  },
  {
   "property": "C15",
   "status": "partial",
   "theorems": [
    "Verif.Except.eager_rethrow_violates",
    "Verif.Except.eager_never_rethrows",
    "Verif.Except.eager_throw_outside_violates",
    "Verif.Except.sync_outside_violates",
    "Verif.Except.just_rethrows_partial",
    "Verif.Except.unrethrown_is_pending_partial",
    "Verif.Except.eager_rethrows_if_fixed"
   ],
   "note": "The code violates the property: promise.hpp:217 selects the rethrowing awaitables exactly for the return addresses that keep the exception away from the parent. Proved: an await with a plain return address never rethrows; two witnesses (fold/scan's eager_throw_outside finishes with an undelivered exception; scan's sync_outside reads an unwritten result); the property holds for the inverted choice; just() rethrows."
  },
  {
   "property": "C16",
   "status": "proved",
   "theorems": [
    "Verif.Except.slot_holds_result",
    "Verif.Except.join_quiet_of_stash"
   ],
   "note": ""
  },
  {
   "property": "C17",
   "status": "proved",
   "theorems": [
    "Verif.Core.Eventually.eventually_correct",
    "Verif.Core.Eventually.eventually_misuse_refused",
    "Verif.Core.Eventually.eventually_assign_once"
   ],
   "note": "All operation sequences."
  },
  {
   "property": "C18",
   "status": "proved",
   "theorems": [
    "Verif.Core.Future.future_safe",
    "Verif.Core.Future.future_get_once",
    "Verif.Core.Future.future_answers",
    "Verif.Core.Future.future_returns_after_completion",
    "Verif.Core.Future.future_waits_once",
    "Verif.Core.Future.future_blocked_only_until_completion",
    "Verif.Core.Future.future_detach_nonblocking",
    "Verif.Core.Future.future_ownership"
   ],
   "note": "All interleavings of the future's operations with the task's completion. Note: move-assigning over a pending future drops it without waiting (the defaulted move assignment), which the model shows."
  },
  {
   "property": "C19",
   "status": "partial",
   "theorems": [
    "Verif.Core.Tls.schedule_in_worker_refused",
    "Verif.Core.Tls.schedule_succeeds",
    "Verif.Core.Tls.schedule_failure_partial",
    "Verif.Core.Tls.schedule_scheduler_throws_violates"
   ],
   "note": "The code violates the property when the scheduler's schedule() throws: the deferred clean-up and the task's destructor run against a stack that was already released; proved by witness. Everything else holds (schedule_failure_partial)."
  },
  {
   "property": "C20",
   "status": "partial",
   "theorems": [
    "Verif.Core.Tls.worker_init_strong_partial",
    "Verif.Core.Tls.worker_init_bad_alloc_violates",
    "Verif.Core.Tls.worker_init_bad_alloc_always",
    "Verif.Core.Tls.worker_init_half_initialised_violates",
    "Verif.Core.Tls.finalize_undoes_init",
    "Verif.Core.Tls.finalize_refused"
   ],
   "note": "The code violates the property when the stack's allocation fails (the handler does not rethrow); proved by witness and for every such state."
  },
  {
   "property": "C21",
   "status": "partial",
   "theorems": [
    "Verif.EventCount.no_lost_wakeup_partial",
    "Verif.EventCount.notify_one_wakes_partial",
    "Verif.EventCount.await_awake_partial",
    "Verif.EventCount.await_returns_partial",
    "Verif.EventCount.Wrap.wrap_lost_wakeup"
   ],
   "note": "Any number (below 2^32) of threads and every interleaving, as long as fewer than 2^32 notifications happen while one thread is between prepare_wait and the end of wait. Beyond that the code violates it: the 32-bit epoch wraps and the waiter sleeps forever (Wrap.wrap_lost_wakeup). std::atomic::wait/notify are modelled by the guarantees of the standard."
  },
  {
   "property": "C22",
   "status": "proved",
   "theorems": [
    "Verif.EventCount.waiters_exact",
    "Verif.EventCount.assert_holds",
    "Verif.EventCount.notifyAll_skips_iff",
    "Verif.EventCount.notifyOne_skips_iff",
    "Verif.EventCount.await_exit"
   ],
   "note": "Any number of threads below 2^32 (the count has 32 bits), any number of notifications, conditions that throw at any point."
  },
  {
   "property": "C23",
   "status": "proved",
   "theorems": [
    "Verif.LazyPool.C23_exactly_once",
    "Verif.LazyPool.C23_not_asleep",
    "Verif.LazyPool.C23_asleep_only_during_schedule",
    "Verif.LazyPool.C23_schedule_returns",
    "Verif.LazyPool.C23_started",
    "Verif.LazyPool.C23_started_before_exit"
   ],
   "note": "lazy_pool under sequentially consistent memory, without 2^32 notifications inside one wait (stated in the property). Example.dropped: a pool destroyed too early (forbidden by its documentation) can drop a job whose schedule has returned."
  },
  {
   "property": "C24",
   "status": "proved",
   "theorems": [
    "Verif.LazyPool.C24_counters",
    "Verif.LazyPool.C24_watch",
    "Verif.LazyPool.C24_at_rest",
    "Verif.LazyPool.C24_recovers"
   ],
   "note": "Sequentially consistent memory; without 2^32 notifications inside one wait (stated in the property)."
  },
  {
   "property": "C25",
   "status": "proved",
   "theorems": [
    "Verif.LazyPool.C25_nobody_asleep",
    "Verif.LazyPool.C25_joining_awake",
    "Verif.LazyPool.C25_no_new_sleep",
    "Verif.LazyPool.C25_finalise_last",
    "Verif.LazyPool.C25_joined",
    "Verif.LazyPool.C25_destructor_returns",
    "Verif.Pool.C25_busy_finalise_last",
    "Verif.Pool.C25_busy_joined",
    "Verif.Pool.C25_busy_leaves_only_on_stop",
    "Verif.Pool.C37_destructor_returns"
   ],
   "note": "lazy_pool and busy_pool; sequentially consistent memory; lazy_pool without 2^32 notifications inside one wait (stated in the property)."
  },
  {
   "property": "C26",
   "status": "proved",
   "theorems": [
    "Verif.Algo.fold_empty",
    "Verif.Algo.fold_bracketing",
    "Verif.Algo.fold_correct",
    "Verif.Algo.fold_throws",
    "Verif.Algo.executions_complete"
   ],
   "note": "All interleavings of the recursion tree, all chunk sizes >= 2 / the n=1 version, all lengths; operator and projection may throw. An operator that is itself a coroutine and throws is the subject of C15."
  },
  {
   "property": "C27",
   "status": "proved",
   "theorems": [
    "Verif.Algo.map_race_free",
    "Verif.Algo.map_correct",
    "Verif.Algo.map_exceptions",
    "Verif.Algo.executions_complete",
    "Verif.Algo.Throw.map_frames"
   ],
   "note": "All interleavings, all chunk sizes > 0, all lengths; output range equal to or disjoint from the input."
  },
  {
   "property": "C28",
   "status": "proved",
   "theorems": [
    "Verif.Algo.for_each_exactly_once",
    "Verif.Algo.for_each_exceptions",
    "Verif.Algo.executions_complete",
    "Verif.Algo.Throw.for_each_frames"
   ],
   "note": "All interleavings, all chunk sizes > 0, all lengths."
  },
  {
   "property": "C29",
   "status": "proved",
   "theorems": [
    "Verif.Algo.scan_correct",
    "Verif.Algo.scan_executions_complete",
    "Verif.Algo.scan_executions_finite"
   ],
   "note": "All interleavings, every outcome of the sync forks, all chunk sizes > 0, all lengths, in-place or disjoint output. The operator and projection do not throw; throwing is C15."
  },
  {
   "property": "C30",
   "status": "proved",
   "theorems": [
    "Verif.Algo.scan_race_free",
    "Verif.Algo.map_race_free",
    "Verif.Algo.for_each_race_free",
    "Verif.Algo.fold_race_free",
    "Verif.Algo.race_free_iff"
   ],
   "note": ""
  },
  {
   "property": "C31",
   "status": "proved",
   "theorems": [
    "Verif.Random.jump_is_two_pow_128_calls",
    "Verif.Random.long_jump_is_two_pow_192_calls"
   ],
   "note": "All 2^256 states. random.hpp is modelled completely except the seeding constructor from another generator."
  },
  {
   "property": "C32",
   "status": "proved",
   "theorems": [
    "Verif.Random.next_bijective",
    "Verif.Random.zero_iff",
    "Verif.Random.period_exact",
    "Verif.Random.single_cycle",
    "Verif.Random.jump_streams_disjoint",
    "Verif.Random.long_jump_streams_disjoint",
    "Verif.Random.default_full_period"
   ],
   "note": "All states."
  },
  {
   "property": "C33",
   "status": "proved",
   "theorems": [
    "Verif.Numa.distribute_complete",
    "Verif.Numa.distribute_flat_complete",
    "Verif.Numa.distance_sane",
    "Verif.Numa.numa_numbers_dense"
   ],
   "note": "hwloc's answers (depths, common ancestors, object indices) are parameters; the order of the lists of one distance is that of the data."
  },
  {
   "property": "C34",
   "status": "proved",
   "theorems": [
    "Verif.Numa.try_steal_spec",
    "Verif.Numa.steal_weights",
    "Verif.Numa.never_self"
   ],
   "note": "The draws of the discrete distribution and the shuffle are arbitrary (any permutation, any sequence of members of the victim table); the weights are exact rationals instead of doubles (steal_weights)."
  },
  {
   "property": "C35",
   "status": "partial",
   "theorems": [
    "Verif.SafeRef.fork_safe_violates",
    "Verif.SafeRef.call_safe_violates",
    "Verif.SafeRef.default_safe_violates",
    "Verif.SafeRef.fork_unsafe_iff",
    "Verif.SafeRef.fork_safe_partial",
    "Verif.SafeRef.fork_accepts_safe",
    "Verif.SafeRef.fork_rejects_rvalues",
    "Verif.SafeRef.fork_checks_all",
    "Verif.SafeRef.fork_safe_if_fixed",
    "Verif.SafeRef.return_ref_safe",
    "Verif.SafeRef.return_rvalue_rejected",
    "Verif.SafeRef.return_same_accepted"
   ],
   "note": "The fork half is violated by the code: promise.hpp:397 accepts int& for double const& (convertible through a temporary), calls are not checked and defaulted arguments only for rvalue references. The exact set of accepted unsafe forks and the repaired check are proved; the return half is proved."
  },
  {
   "property": "C36",
   "status": "proved",
   "theorems": [
    "Verif.Runtime.switch_dest",
    "Verif.Runtime.resumed_once",
    "Verif.Runtime.no_ub",
    "Verif.Runtime.nothing_lost"
   ],
   "note": "As C09; a task may also switch with steals outstanding."
  },
  {
   "property": "C37",
   "status": "proved",
   "theorems": [
    "Verif.Pool.C37_exactly_once",
    "Verif.Pool.C37_left_nothing",
    "Verif.Pool.C37_destroyed_all_started",
    "Verif.Pool.C37_started",
    "Verif.Pool.C37_destructor_returns"
   ],
   "note": "busy_pool and unit_pool; a resumed task is assumed to suspend or return; sequentially consistent memory."
  },
  {
   "property": "C38",
   "status": "proved",
   "theorems": [
    "Verif.Except.sync_fork_truthful"
   ],
   "note": "That the finished child produced a value (rather than threw) is C15."
  },
  {
   "property": "C39",
   "status": "partial",
   "theorems": [
    "Verif.LazyPool.C39_schedule_from_worker_partial",
    "Verif.LazyPool.Example.late_unsafe"
   ],
   "note": "Proved for calls made by tasks on the same pool. False for calls from outside (another pool's worker in resume_on): late_unsafe exhibits a reachable state in which the pool is gone and schedule is about to call the finalised worker's notification function."
  },
  {
   "property": "C40",
   "status": "proved",
   "theorems": [
    "Verif.Random.outputs_equidistributed",
    "Verif.Random.outputs_full_range",
    "Verif.Random.default_full_period"
   ],
   "note": ""
  },
  {
   "property": "C41",
   "status": "partial",
   "theorems": [
    "Verif.Weak.weak_linearizable_partial",
    "Verif.Weak.weak_no_dup_partial",
    "Verif.Weak.weak_linearizable_if_release",
    "Verif.Weak.weak_no_dup_if_release",
    "Verif.Weak.weak_deque_violates"
   ],
   "note": "False of the code: the new buffer is published by a relaxed store (deque.hpp:395), so a thief that saw an older bottom may read the new pointer and then an uninitialised slot, and hand it out (weak_deque_violates). Proved for the code in executions without growth, and for all executions if that store is a release store. View machine (RC11 without load buffering)."
  },
  {
   "property": "C42",
   "status": "partial",
   "theorems": [
    "Verif.Weak.LP.lazy_pool_watch_violates",
    "Verif.LazyPool.C24_at_rest"
   ],
   "note": "False of the code under the C++ memory model: thief.fetch_sub; active.load against active.fetch_add; thief.load is store buffering, acquire-release orders let both miss the other (lazy_pool_watch_violates). Under sequentially consistent memory it holds (C24)."
  },
  {
   "property": "C43",
   "status": "proved",
   "theorems": [
    "Verif.Weak.Join.join_visible",
    "Verif.Weak.Join.pold_is",
    "Verif.Weak.Join.join_all_visible",
    "Verif.Weak.Join.reset_race_free",
    "Verif.Weak.Join.one_winner",
    "Verif.Weak.Join.not_forgotten"
   ],
   "note": "View machine of Weak/Mem.lean. A thief of the continuation is assumed to know what the task knew at the fork (the deque's part, C44)."
  },
  {
   "property": "C44",
   "status": "partial",
   "theorems": [
    "Verif.Weak.steal_synchronises_partial",
    "Verif.Weak.steal_synchronises_if_release",
    "Verif.Weak.steal_reads_new_if_release"
   ],
   "note": "Proved for the code as long as the deque does not grow, and for every execution if the store of the new buffer (deque.hpp:395) were a release store. With growth and the relaxed store the item itself may be wrong (weak_deque_violates)."
  },
  {
   "property": "C45",
   "status": "proved",
   "theorems": [
    "Verif.Runtime.schedule_bounded",
    "Verif.Runtime.stuck_done",
    "Verif.Runtime.eventually_done"
   ],
   "note": "Runtime model of C09 (sequentially consistent memory, work queues and submission lists atomic). Hypotheses as in C09/C10; tasks switch to workers that exist."
  },
  {
   "property": "C46",
   "status": "proved",
   "theorems": [
    "Verif.Weak.Ev.notified_knows",
    "Verif.Weak.Ev.prepared_sees",
    "Verif.Weak.Ev.no_lost_wakeup",
    "Verif.Weak.Ev.await_not_stuck",
    "Verif.Weak.Ev.await_true",
    "Verif.Weak.Ev.returns_notified",
    "Verif.Weak.Ev.waiters_exact",
    "Verif.Weak.Ev.assert_holds"
   ],
   "note": "On the view machine; the seq_cst read-modify-writes of cancel_wait/wait are taken as acq_rel (more executions). epoch() is one half of m_val: a load of it is taken to read the half of a message of the whole. Hypothesis Few: fewer than 2^32 notifications since prepare_wait (beyond: C21). notify_one carries visibility; its wake-up has no guaranteed effect in this model (C21 has it under sequential consistency)."
  },
  {
   "property": "C47",
   "status": "proved",
   "theorems": [
    "Verif.Weak.WList.refines",
    "Verif.Weak.WList.handed_in_order",
    "Verif.Weak.WList.nothing_lost",
    "Verif.Weak.WList.no_race",
    "Verif.Weak.WList.push_visible",
    "Verif.Weak.WList.reads_no_older"
   ],
   "note": "View machine of Weak/Mem.lean; memory_order_consume taken as acquire, as every compiler does. One thread may have several pushes in flight at once (more executions than the code has)."
  },
  {
   "property": "C48",
   "status": "partial",
   "theorems": [
    "Verif.Algo.Throw.fold_propagates_partial",
    "Verif.Algo.Throw.scan_propagates_partial",
    "Verif.Algo.Throw.propagates_if_eager",
    "Verif.Algo.Throw.scan_result",
    "Verif.Algo.Throw.fold_result",
    "Verif.Algo.Throw.executions_complete",
    "Verif.Algo.Throw.scan_completes",
    "Verif.Algo.Throw.fold_async_ub",
    "Verif.Algo.Throw.not_fold_propagates",
    "Verif.Algo.Throw.not_scan_propagates"
   ],
   "note": "The full statements (FoldPropagates, ScanPropagates) are false of the code, proved by witnesses: await_transform (promise.hpp:217) marks eager_throw_outside and sync_outside calls as non-throwing, so an exception of an asynchronous operator is captured in a task that never joins and its final_suspend assertion fails (fold_async_ub: always, wherever the operator of a chunk throws); and after a left child that threw synchronously rise_sweep reads the default-initialised left_out (indeterminate for pointers). Proved for synchronous operators and, for scan, iterators whose unassigned value equals no iterator inside the range; and without conditions for modifiers that rethrow as documented. Asynchronous user functions are taken as atomic steps (their inner forks are not modelled here)."
  },
  {
   "property": "C49",
   "status": "proved",
   "theorems": [
    "Verif.Weak.Exc.no_race",
    "Verif.Weak.Exc.first_rethrown",
    "Verif.Weak.Exc.all_captured",
    "Verif.Weak.Exc.flag_truthful",
    "Verif.Weak.Exc.tested"
   ],
   "note": "On the view machine, on top of the join of C43. The exchange of m_except is taken as relaxed (more executions): the join alone suffices for the visibility of the exception. At most 65534 steals per scope (C10)."
  },
  {
   "property": "C50",
   "status": "proved",
   "theorems": [
    "Verif.Weak.Start.start_no_ub",
    "Verif.Weak.Start.started_after_all",
    "Verif.Weak.Start.contexts_complete",
    "Verif.Weak.Start.finalised_last",
    "Verif.Weak.Start.stops_when_told",
    "Verif.Weak.Start.gone_alone",
    "Verif.Weak.Start.step_work",
    "Verif.Weak.Start.work_le",
    "Verif.Weak.Start.never_stuck",
    "Verif.Weak.Start.can_finish",
    "Verif.Weak.Start.run_two"
   ],
   "note": "View machine. Latches are release decrements and acquire loads; thread creation and join transfer views; reads of a context pointer are tracked by ghost writes so that a finalisation that does not happen after them is a race. Sleeping of lazy_pool workers (their wake-up) is C41, C42."
  },
  {
   "property": "C51",
   "status": "partial",
   "theorems": [
    "Verif.Pool.Obj.pools_movable_partial",
    "Verif.Pool.Obj.threads_follow",
    "Verif.Pool.Obj.all_joined",
    "Verif.Pool.Obj.moves_doomed",
    "Verif.Pool.Obj.moved_from_ub",
    "Verif.Pool.Obj.assign_terminates",
    "Verif.Pool.Obj.late_failure_terminates",
    "Verif.Pool.Obj.zero_workers_ub",
    "Verif.Pool.Obj.pools_movable_if_fixed"
   ],
   "note": "The code violates the full statement: the destructor of a moved-from pool dereferences null, so no program that moves a pool ends properly (moves_doomed); assignment to a running pool and bad_alloc after the start of the threads call std::terminate. Proved without moves and late failures; proved in full for a repaired version."
  },
  {
   "property": "C52",
   "status": "proved",
   "theorems": [
    "Verif.Stack.CoNew.stack_restored",
    "Verif.Stack.CoNew.lifetimes",
    "Verif.Stack.CoNew.array"
   ],
   "note": "Requests whose size wraps are excluded (C08). The coroutine's frames are on one stack; forked children on other stacks are the environment."
  },
  {
   "property": "C53",
   "status": "partial",
   "theorems": [
    "Verif.Weak.Fut.no_race_partial",
    "Verif.Weak.Fut.get_once",
    "Verif.Weak.Fut.freed",
    "Verif.Weak.Fut.waited",
    "Verif.Weak.Fut.status_waited",
    "Verif.Weak.Fut.wait_ends",
    "Verif.Weak.Fut.late_race",
    "Verif.Weak.Fut.not_no_race",
    "Verif.Weak.Fut.run"
   ],
   "note": "The code violates the full statement: the root task releases the semaphore before its frame is destroyed (promise.hpp:339-340), so the destructors of the task's parameters may run after sync_wait has returned and race with the caller (late_race). Everything else is proved, and freedom from races is proved for tasks whose parameters' destructors do not use the caller's data."
  },
  {
   "property": "C54",
   "status": "proved",
   "theorems": [
    "Verif.Weak.Sleep.submission_wakes",
    "Verif.Weak.Sleep.stop_wakes",
    "Verif.Weak.Sleep.exit_stopped",
    "Verif.Weak.Sleep.submissions_kept",
    "Verif.Weak.Sleep.not_stuck"
   ],
   "note": "Executions meeting the hypotheses: exSubmitted, exNotified, exStopped in Weak/SleepExample. That thieves are woken for work that is only in a deque is C42, which the code violates."
  },
  {
   "property": "C55",
   "status": "proved",
   "theorems": [
    "Verif.Compose.same_history",
    "Verif.Compose.composed_no_ub",
    "Verif.Compose.composed_legal",
    "Verif.Compose.composed_join",
    "Verif.Compose.composed_once",
    "Verif.Compose.composed_serial",
    "Verif.Compose.composed_idle",
    "Verif.Compose.composed_nothing_lost",
    "Verif.Compose.composed_progress"
   ],
   "note": "Executions meeting the hypotheses are in Compose/Example. Memory is sequentially consistent here; the deque and the join under the C++ memory model are C41, C43, C44."
  },
  {
   "property": "C56",
   "status": "proved",
   "theorems": [
    "Verif.Exn.no_ub",
    "Verif.Exn.history_legal",
    "Verif.Exn.join_after_children",
    "Verif.Exn.ends_once",
    "Verif.Exn.result_serial",
    "Verif.Exn.idle_empty",
    "Verif.Exn.nothing_lost",
    "Verif.Exn.nothing_leaks",
    "Verif.Exn.busy_proceeds",
    "Verif.Exn.reach_of_bounded",
    "Verif.Exn.fail_atomic",
    "Verif.Exn.sync_fork"
   ],
   "note": "Programs and schedules meeting the hypotheses, and programs showing that the rules are needed, are in Exn/Example. Flag and exception pointer are one cell here; their concurrent capture is C16 and C49."
  },
  {
   "property": "C57",
   "status": "proved",
   "theorems": [
    "Verif.Whole.C57_no_ub",
    "Verif.Whole.C57_no_ub_single",
    "Verif.Whole.C57_history",
    "Verif.Whole.C57_result",
    "Verif.Whole.C57_pool_alive",
    "Verif.Whole.C57_destructor_idle",
    "Verif.Whole.C57_progress",
    "Verif.Whole.C57_returns",
    "Verif.Whole.C57_destroyed"
   ],
   "note": "The race of C58 is excluded in C57_no_ub by naming it as the only undefined behaviour left. Assumes fewer than 2^32 notifications between a worker's prepare_wait and the end of its wait (C21). A fair schedule meeting all hypotheses, with a theft, a join won by the child and a task that moves, is in Whole/Example."
  },
  {
   "property": "C58",
   "status": "partial",
   "theorems": [
    "Verif.Whole.C58_concurrent_calls_partial",
    "Verif.Whole.Example.C58_generator_race"
   ],
   "note": "The code violates the full statement: lazy_pool::schedule and busy_pool::schedule draw from a plain random number generator without synchronisation (C58_generator_race is an execution). Proved: nothing else in concurrent calls is undefined."
  },
  {
   "property": "C59",
   "status": "proved",
   "theorems": [
    "Verif.Exn.C59_bounded",
    "Verif.Exn.C59_stuck_done",
    "Verif.Exn.C59_eventually"
   ],
   "note": "The bound is (n+1)(10n+6) for each submission. That the serial elision must end also when everything fails is needed: stubborn_long shows a task that retries a fork for ever. Scopes fork at most 65534 children (C10)."
  },
  {
   "property": "C60",
   "status": "proved",
   "theorems": [
    "Verif.WholeX.C60_no_ub",
    "Verif.WholeX.C60_no_ub_single",
    "Verif.WholeX.C60_history",
    "Verif.WholeX.C60_result",
    "Verif.WholeX.C60_pool_alive",
    "Verif.WholeX.C60_destructor_idle",
    "Verif.WholeX.C60_progress",
    "Verif.WholeX.C60_returns",
    "Verif.WholeX.C60_destroyed"
   ],
   "note": "Product of the pool of C57 and the runtime of C56. The allocations of schedule itself are assumed to succeed (C19)."
  },
  {
   "property": "C61",
   "status": "proved",
   "theorems": [
    "Verif.Mem.C61_refines",
    "Verif.Mem.C61_no_ub",
    "Verif.Mem.C61_proceeds",
    "Verif.Mem.C61_bounded"
   ],
   "note": "Memory is sequentially consistent, one access is one step; that the accesses before a fork, a steal, a child's end and a join happen before those after it under the C++ memory model is C43, C44, C47 and C49. At most 65534 steals of a task between two joins (C10); C61_bounded: met if no scope forks more than 65534 children."
  },
  {
   "property": "C62",
   "status": "proved",
   "theorems": [
    "Verif.Mem.C62_serial",
    "Verif.Mem.C62_no_race",
    "Verif.Mem.C62_runtime",
    "Verif.Mem.C62_footprint",
    "Verif.Mem.C62_deterministic"
   ],
   "note": "As C61. race_matters (Mem/Example) shows that the hypothesis is needed."
  },
  {
   "property": "C63",
   "status": "proved",
   "theorems": [
    "Verif.Par.C63_programs",
    "Verif.Par.C63_program",
    "Verif.Par.C63_map",
    "Verif.Par.C63_for_each",
    "Verif.Par.C63_fold",
    "Verif.Par.C63_fold_assoc"
   ],
   "note": "The algorithms as in C26 to C28 (synchronous functions), compiled to tasks of the runtime of C61. That they return at all is C59 and C60."
  },
  {
   "property": "C64",
   "status": "proved",
   "theorems": [
    "Verif.WholeM.C64_refines",
    "Verif.WholeM.C64_no_race",
    "Verif.WholeM.C64_no_ub",
    "Verif.WholeM.C64_progress",
    "Verif.WholeM.C64_result",
    "Verif.WholeM.C64_result_single",
    "Verif.WholeM.C64_returns",
    "Verif.WholeM.C64_completes",
    "Verif.WholeM.C64_destroyed",
    "Verif.WholeM.C64_programs",
    "Verif.WholeM.C64_map",
    "Verif.WholeM.C64_for_each",
    "Verif.WholeM.C64_fold",
    "Verif.WholeM.C64_fold_assoc"
   ],
   "note": "The pool after its start-up. Assumes that at most 2^32 - 1 notifications happen while a worker prepares to sleep (C21). The race on the pool's generator is C58."
  },
  {
   "property": "C65",
   "status": "proved",
   "theorems": [
    "Verif.Sync.C65_told",
    "Verif.Sync.C65_step",
    "Verif.Sync.C65_no_ub",
    "Verif.Sync.C65_proceeds",
    "Verif.Sync.C65_refines",
    "Verif.Sync.C65_runtime",
    "Verif.Sync.C65_bounded"
   ],
   "note": "Assumes, like C61, fewer than 65535 steals of one task between two joins (C10), which C65_bounded shows of programs that fork at most 65534 children in a scope. That the children must not throw is necessary: throw_matters."
  },
  {
   "property": "C66",
   "status": "proved",
   "theorems": [
    "Verif.Scan.C66_tasks",
    "Verif.Scan.C66_no_race",
    "Verif.Scan.C66_no_ub",
    "Verif.Scan.C66_proceeds",
    "Verif.Scan.C66_jobs",
    "Verif.Scan.C66_scans",
    "Verif.Scan.C66_scan",
    "Verif.Scan.C66_concurrent"
   ],
   "note": "The operator and the projection do not throw and are part of the calling task (scan with throwing operators: C48); allocation does not fail. No bound on steals is assumed: every scope of scan has one child."
  },
  {
   "property": "C67",
   "status": "proved",
   "theorems": [
    "Verif.Busy.C67_refines",
    "Verif.Busy.C67_no_race",
    "Verif.Busy.C67_no_ub",
    "Verif.Busy.C67_progress",
    "Verif.Busy.C67_result",
    "Verif.Busy.C67_finalise",
    "Verif.Busy.C67_drained",
    "Verif.Busy.C67_returns",
    "Verif.Busy.C67_completes",
    "Verif.Busy.C67_destroyed",
    "Verif.Busy.C67_programs",
    "Verif.Busy.C67_destroy_programs",
    "Verif.Busy.C67_map",
    "Verif.Busy.C67_fold"
   ],
   "note": "Memory is sequentially consistent; the pool has been constructed (C50, C51); a switch is to a worker of the pool; at most 65534 forks per scope. The race in the generator of busy_pool::schedule is the finding of C58."
  },
  {
   "property": "C68",
   "status": "proved",
   "theorems": [
    "Verif.Early.C68_settled",
    "Verif.Early.C68_runtime",
    "Verif.Early.C68_sync_wait",
    "Verif.Early.C68_schedule",
    "Verif.Early.C68_sync_wait_programs",
    "Verif.Early.C68_schedule_programs",
    "Verif.Early.C68_sync_wait_alone",
    "Verif.Early.C68_schedule_alone",
    "Verif.Early.C68_sync_wait_map",
    "Verif.Early.C68_schedule_map",
    "Verif.Early.C68_sync_wait_fold",
    "Verif.Early.C68_schedule_fold"
   ],
   "note": "Memory is sequentially consistent. Conflicting calls are ordered by the program (Fit)."
  },
  {
   "property": "C69",
   "status": "proved",
   "theorems": [
    "Verif.Space.C69_busy_leaves",
    "Verif.Space.C69_space",
    "Verif.Space.C69_stacks",
    "Verif.Space.C69_queue",
    "Verif.Space.C69_busy",
    "Verif.Space.C69_busy_calls",
    "Verif.Space.C69_lazy",
    "Verif.Space.C69_lazy_calls",
    "Verif.Space.C69_algorithms",
    "Verif.Space.C69_algorithms_busy"
   ],
   "note": "Counts coroutine frames; blocks of co_new and the rounding of stacklets are not counted (C06). At most 65534 steals per scope."
  },
  {
   "property": "C70",
   "status": "proved",
   "theorems": [
    "Verif.Stack.C70_stack",
    "Verif.Stack.C70_all",
    "Verif.Stack.C70_amortised",
    "Verif.Stack.C70_no_thrash"
   ],
   "note": "Sizes for which no size computation wraps (C08)."
  },
  {
   "property": "C71",
   "status": "proved",
   "theorems": [
    "Verif.Cactus.C71_safe",
    "Verif.Cactus.C71_refines",
    "Verif.Cactus.C71_step",
    "Verif.Cactus.C71_submit",
    "Verif.Cactus.C71_compare",
    "Verif.Cactus.C71_frames",
    "Verif.Cactus.C71_disjoint",
    "Verif.Cactus.C71_clean",
    "Verif.Cactus.C71_memory",
    "Verif.Cactus.reach_few"
   ],
   "note": "Frame sizes for which no size computation wraps (C08); scopes stolen at most 65534 times (C10), which reach_few discharges for programs whose scopes fork at most that many children. co_new arrays are C52, not here."
  },
  {
   "property": "C72",
   "status": "proved",
   "theorems": [
    "Verif.Hb.C72_ordered",
    "Verif.Hb.C72_threads",
    "Verif.Hb.C72_frame",
    "Verif.Hb.C72_child",
    "Verif.Hb.C72_join",
    "Verif.Hb.C72_wait",
    "Verif.Hb.C72_counter",
    "Verif.Hb.C72_transitive",
    "Verif.Hb.race_unordered"
   ],
   "note": "The synchronises-with edges of the deque, the list and the counters are C44, C47 and C43; here they are what creates order. (C44 is partial: the edge is there unless the queue has just grown); memory_order_consume of the list is taken as acquire. Scopes stolen at most 65534 times (C10)."
  },
  {
   "property": "C73",
   "status": "proved",
   "theorems": [
    "Verif.Hb.C73_ordered",
    "Verif.Hb.C73_reads",
    "Verif.Hb.C73_footprint",
    "Verif.Hb.race_unordered"
   ],
   "note": "race_unordered: without race freedom the conclusion fails. Builds on C61 (every execution is one of the fork-join semantics), C62 and C72. Scopes stolen at most 65534 times (C10)."
  },
  {
   "property": "C74",
   "status": "proved",
   "theorems": [
    "Verif.Hb.Par.C74_programs",
    "Verif.Hb.Par.C74_reads",
    "Verif.Hb.Par.C74_map",
    "Verif.Hb.Par.C74_for_each",
    "Verif.Hb.Par.C74_fold",
    "Verif.Hb.Out.C74_outside",
    "Verif.Hb.Out.C74_scans",
    "Verif.Hb.Out.C74_scan",
    "Verif.Hb.C74_wait",
    "Verif.Hb.C73_bounded"
   ],
   "note": "C73 with C63 and C66. For scan no function throws and no allocation fails (C48). No bound on steals is assumed (each scope forks few children)."
  },
  {
   "property": "C75",
   "status": "proved",
   "theorems": [
    "Verif.Own.C75_stacks",
    "Verif.Own.C75_bounded",
    "Verif.Own.C75_after_report"
   ],
   "note": "A stack is the number it has in the model of the runtime; C71 proves that the stacks behind different numbers have different memory. C75_after_report is a reachable state in which a call of top() after the decrement would race. The allocator is assumed to synchronise free and malloc."
  },
  {
   "property": "C76",
   "status": "proved",
   "theorems": [
    "Verif.Fld.C76_frames",
    "Verif.Fld.C76_bounded",
    "Verif.Fld.C76_concurrent"
   ],
   "note": "co_new, which changes the stacklet pointer of a frame, is not in this model. That the memory of a frame is used again for another is C75: both are uses of the stack. C76_concurrent is a reachable state in which two children have thrown at the same time."
  },
  {
   "property": "C77",
   "status": "proved",
   "theorems": [
    "Verif.EventCount.C77_await_true",
    "Verif.EventCount.C77_await_outcome"
   ],
   "note": "Sequentially consistent, as all of Verif.EventCount; evaluating the condition is one step. The condition may be false again when await returns."
  },
  {
   "property": "C78",
   "status": "proved",
   "theorems": [
    "Verif.Fld.C78_live"
   ],
   "note": "A task ends with the event done in the history, in the step that destroys its frame; within that step the order is the code's (promise.hpp:302-363) and not modelled."
  }
 ]
}