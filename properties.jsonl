{"id": "C01", "title": "Work-stealing deque never duplicates or invents a task", "statement": "For a lf::deque<T> with one owner calling push/pop and any number of threads calling steal, every value returned by pop or by a successful steal is a value that was pushed, and each push is returned by at most one pop/steal.", "quantifier": "every number of thieves, every sequence of owner operations, every interleaving of the individual atomic accesses, every initial capacity and every number of buffer growths", "why_tests_cant": "the double-take window between pop's bottom decrement and steal's CAS on the last element is a few instructions wide; stress tests sample interleavings, growth while a thief holds the old buffer is rarer still", "anchors": ["include/libfork/core/ext/deque.hpp deque::push", "include/libfork/core/ext/deque.hpp deque::pop", "include/libfork/core/ext/deque.hpp deque::steal", "include/libfork/core/ext/deque.hpp atomic_ring_buf::resize"]}
{"id": "C02", "title": "Work-stealing deque never loses a task; empty/lost answers are justified", "statement": "A pushed item not yet returned is still in the deque and will be returned by a later pop or steal; pop/steal report empty only if the deque was empty at some instant during the call; steal reports lost only if another consumer took an item during the call.", "quantifier": "every history and interleaving of owner and thief operations", "why_tests_cant": "a lost task is a hang that appears only under one particular schedule", "anchors": ["include/libfork/core/ext/deque.hpp deque::pop", "include/libfork/core/ext/deque.hpp deque::steal", "include/libfork/core/ext/deque.hpp err::lost", "include/libfork/core/ext/deque.hpp err::empty"]}
{"id": "C03", "title": "Work-stealing deque is linearizable as LIFO owner / FIFO thieves", "statement": "There is an instant inside every push/pop/steal call at which it takes effect atomically on a double-ended queue: push appends at the back, pop removes the back, steal removes the front.", "quantifier": "every interleaving of owner and any number of thieves", "why_tests_cant": "linearizability quantifies over all concurrent histories", "anchors": ["include/libfork/core/ext/deque.hpp deque::push", "include/libfork/core/ext/deque.hpp deque::pop", "include/libfork/core/ext/deque.hpp deque::steal"]}
{"id": "C04", "title": "Deque growth preserves contents, stays addressable and never throws", "statement": "Growing the buffer keeps every item at its logical index, capacity is always a power of two and never smaller than the number of items, a thief that still holds an old buffer reads the right value, and the list of retired buffers never exceeds its reserved 64 entries so push's emplace_back cannot reallocate.", "quantifier": "every capacity, every position of top/bottom (wrapped or not), every number of growths", "why_tests_cant": "growth happens at 1024+ nested forks and its interplay with a stalled thief has no deterministic test", "anchors": ["include/libfork/core/ext/deque.hpp atomic_ring_buf::resize", "include/libfork/core/ext/deque.hpp deque::push", "include/libfork/core/ext/deque.hpp k_garbage_reserve"]}
{"id": "C05", "title": "Submission list: concurrent push / try_pop_all loses nothing and keeps order", "statement": "For an intrusive_list with any number of pushers and one consumer, each pushed node is handed to the consumer exactly once, and within the sequence of batches nodes appear in the order their pushes took effect.", "quantifier": "every number of pushers, every interleaving of the push CAS loop with try_pop_all's exchange and reversal", "why_tests_cant": "ABA and lost-update bugs in CAS lists depend on the schedule", "anchors": ["include/libfork/core/ext/list.hpp intrusive_list::push", "include/libfork/core/ext/list.hpp intrusive_list::try_pop_all", "include/libfork/core/ext/list.hpp for_each_elem"]}
{"id": "C06", "title": "Cactus stack allocations are aligned, in bounds and disjoint", "statement": "Every block returned by the task stack's allocate (used for coroutine frames and lf::co_new) is aligned to the default new alignment, lies entirely inside a live heap block, and overlaps no other live allocation.", "quantifier": "every sequence of allocate/deallocate in LIFO order, every request size, every stacklet boundary crossing", "why_tests_cant": "overlap needs particular size sequences at stacklet boundaries", "anchors": ["include/libfork/core/impl/stack.hpp stack::allocate", "include/libfork/core/impl/stack.hpp stack::stacklet::next_stacklet"]}
{"id": "C07", "title": "Cactus stack LIFO discipline restores the stack and leaks nothing", "statement": "Deallocating in reverse order restores the stack exactly as it was observable before (same top block and stack pointer), at most one spare stacklet is cached and never one larger than 8x the current capacity, and destroying an empty stack frees every block exactly once; no assertion in stack.hpp fails.", "quantifier": "every LIFO sequence of operations", "why_tests_cant": "leaks and double frees on the cached-stacklet paths depend on the exact sequence of block sizes", "anchors": ["include/libfork/core/impl/stack.hpp stack::deallocate", "include/libfork/core/impl/stack.hpp stack::~stack", "include/libfork/core/impl/stack.hpp stacklet::set_next", "include/libfork/core/impl/stack.hpp stack::release"]}
{"id": "C08", "title": "Allocation size arithmetic does not wrap", "statement": "A request to the task stack, or lf::co_new<T>(n), either yields at least the requested number of bytes or reports failure; it never yields a smaller block because the size computation overflowed.", "quantifier": "every size_t request (count and element size)", "why_tests_cant": "tests use small sizes; the failing requests are near 2^64", "anchors": ["include/libfork/core/impl/stack.hpp stack::round_up_to_page", "include/libfork/core/impl/stack.hpp stack::allocate", "include/libfork/core/co_alloc.hpp await_transform_co_new"]}
{"id": "C09", "title": "co_await lf::join resumes exactly once, after every forked child, and the program equals its serial elision", "statement": "For every program built from fork/call/join, after co_await join all children forked since the previous join have completed and their return values are visible; the continuation after join runs exactly once; the final result is one the serial elision (fork read as an ordinary call) computes.", "quantifier": "every strict fork-join program, any number of workers, every schedule of steals", "why_tests_cant": "there are unboundedly many interleavings of steal, final-await and join", "anchors": ["include/libfork/core/impl/frame.hpp frame::load_joins", "include/libfork/core/impl/awaitables.hpp join_awaitable", "include/libfork/core/impl/promise.hpp final_await_suspend"]}
{"id": "C10", "title": "Join counter tolerates the number of steals a scope can see", "statement": "The 16-bit steal and join counters of a task give the correct join decision for every number of children forked in one scope.", "quantifier": "every number of stolen children per scope, every order of the join decrements", "why_tests_cant": "a test would need 65535 steals of one parent between two joins in a specific order", "anchors": ["include/libfork/core/impl/frame.hpp frame::m_steal", "include/libfork/core/impl/frame.hpp frame::m_join", "include/libfork/core/impl/frame.hpp frame::reset"]}
{"id": "C11", "title": "call resumes the caller exactly once after the callee", "statement": "For co_await call[...], the caller continues exactly once and only after the callee returned and wrote its result, whichever worker ran the callee's continuation.", "quantifier": "every program and schedule, including callee migrating between workers", "why_tests_cant": "depends on the steal schedule inside the callee", "anchors": ["include/libfork/core/impl/awaitables.hpp call_awaitable", "include/libfork/core/impl/promise.hpp final_await_suspend"]}
{"id": "C12", "title": "A worker returning to its scheduler has an empty task queue and an empty stack", "statement": "Whenever the resume() of a task or submission returns to the scheduler loop, the worker's WSQ is empty and its thread-local stack is empty.", "quantifier": "every program, worker and schedule", "why_tests_cant": "only violated on specific steal/join orders", "anchors": ["include/libfork/core/ext/resume.hpp resume", "include/libfork/core/ext/tls.hpp", "include/libfork/core/impl/promise.hpp final_await_suspend"]}
{"id": "C13", "title": "Task frames are freed in FILO order from the stack they were allocated on", "statement": "A coroutine frame is always destroyed while it is the top allocation of the executing worker's current stack; no two workers ever own the same stack.", "quantifier": "every program and schedule", "why_tests_cant": "violations corrupt memory only on particular steal orders", "anchors": ["include/libfork/core/impl/stack.hpp stack", "include/libfork/core/impl/awaitables.hpp take_stack_reset_frame", "include/libfork/core/impl/promise.hpp operator delete", "include/libfork/core/impl/frame.hpp frame::stacklet"]}
{"id": "C14", "title": "An exception escaping a forked child is rethrown at join, exactly one, and the scope can be reused", "statement": "If any child forked in a scope throws, join rethrows exactly one of the exceptions thrown by the children of that scope after all of them finished; if none throws, join does not throw; after the rethrow the frame carries no stale exception.", "quantifier": "every set of throwing children, every schedule", "why_tests_cant": "which child wins the race and whether a second exception is dropped safely is schedule dependent", "anchors": ["include/libfork/core/impl/frame.hpp frame::capture_exception", "include/libfork/core/impl/frame.hpp frame::unsafe_rethrow", "include/libfork/core/impl/awaitables.hpp join_awaitable::await_resume"]}
{"id": "C15", "title": "just and the eager-throw / sync modifiers rethrow the child's exception where documented", "statement": "co_await just and dispatch with modifier::eager_throw, eager_throw_outside and the sync fork modifiers rethrow an exception of a synchronously completed child immediately, so code after the await never runs with an unproduced result.", "quantifier": "every child outcome and every modifier", "why_tests_cant": "needs the combination of modifier, return-pointer kind and a throwing child", "anchors": ["include/libfork/core/impl/promise.hpp await_transform", "include/libfork/core/impl/awaitables.hpp fork_awaitable", "include/libfork/core/impl/awaitables.hpp call_awaitable", "include/libfork/core/tag.hpp modifier"]}
{"id": "C16", "title": "stash_exception_in_return keeps exceptions in the return object", "statement": "With a return object that can stash exceptions (try_eventually) a child's exception is stored in that object only: the parent's join does not throw and other slots are unaffected.", "quantifier": "every outcome of every child", "why_tests_cant": "interaction of several outcomes", "anchors": ["include/libfork/core/impl/promise.hpp unhandled_exception", "include/libfork/core/eventually.hpp try_eventually"]}
{"id": "C17", "title": "eventually / try_eventually state machine", "statement": "A lf::eventually holds a value exactly after it was assigned once; try_eventually is in exactly one of empty/value/exception, transitions destroy the old alternative exactly once, and moving out of the wrong state is refused by an assertion.", "quantifier": "every sequence of constructions, assignments, stashes and destruction", "why_tests_cant": "every operation sequence", "anchors": ["include/libfork/core/eventually.hpp basic_eventually", "include/libfork/core/impl/manual_lifetime.hpp"]}
{"id": "C18", "title": "future: get at most once, waiting is well behaved", "statement": "A future returned by schedule yields the result once (a second get throws empty_future, an invalid one broken_future), wait is idempotent, the destructor waits unless detached or already waited, no operation waits twice on the semaphore, and moving a future transfers the result to exactly one object.", "quantifier": "every sequence of operations on a future interleaved with completion of the task at any time", "why_tests_cant": "completion can occur between any two operations", "anchors": ["include/libfork/core/sync_wait.hpp future"]}
{"id": "C19", "title": "schedule() is safe when the scheduler refuses the task", "statement": "schedule() called on a worker thread throws schedule_in_worker and changes nothing; if the scheduler's schedule() throws, the root task is destroyed, the thread-local stack is left usable and no memory is leaked.", "quantifier": "every failure point of schedule()", "why_tests_cant": "failure injection at each step", "anchors": ["include/libfork/core/sync_wait.hpp schedule"]}
{"id": "C20", "title": "worker_init gives the strong exception guarantee", "statement": "worker::init either returns a usable context with both thread locals constructed, or throws with neither constructed; finalize undoes init.", "quantifier": "every failure point of the two constructions", "why_tests_cant": "needs bad_alloc at a specific allocation", "anchors": ["include/libfork/core/ext/tls.hpp worker_init", "include/libfork/core/ext/tls.hpp finalize"]}
{"id": "C21", "title": "event_count has no lost wake-ups", "statement": "If a waiter calls prepare_wait, re-checks the condition and then waits, and a notifier makes the condition true before notify, then the waiter does not sleep forever.", "quantifier": "every number of waiters and notifiers, every interleaving; epoch arithmetic modulo 2^32", "why_tests_cant": "lost wake-ups are schedule-dependent", "anchors": ["include/libfork/schedule/ext/event_count.hpp event_count::prepare_wait", "include/libfork/schedule/ext/event_count.hpp event_count::wait", "include/libfork/schedule/ext/event_count.hpp event_count::notify_all"]}
{"id": "C22", "title": "event_count waiter accounting is balanced", "statement": "The waiter count always equals the number of threads between prepare_wait and the end of wait/cancel_wait, so notify skips the wake only if nobody waits; await restores it even if the condition throws.", "quantifier": "every interleaving and every exit path", "why_tests_cant": "overlapping waits with exceptions", "anchors": ["include/libfork/schedule/ext/event_count.hpp event_count::await", "include/libfork/schedule/ext/event_count.hpp event_count::cancel_wait"]}
{"id": "C23", "title": "lazy_pool never strands a submitted task", "statement": "Every job given to lazy_pool::schedule is from then on in exactly one place and is started exactly once; once schedule has returned the target worker is not asleep while the job is in its list; in every fair schedule schedule returns and, unless the pool is destroyed, the job is started. (Provided fewer than 2^32 notifications of a numa domain fall into one wait of a worker, see C21.)", "quantifier": "every number of workers, numa domains and submitters, every interleaving of the sleep protocol", "why_tests_cant": "a missed wake-up window of a few instructions", "anchors": ["include/libfork/schedule/lazy_pool.hpp lazy_work", "include/libfork/schedule/lazy_pool.hpp lazy_pool::schedule", "include/libfork/core/ext/context.hpp worker_context::schedule"]}
{"id": "C24", "title": "lazy_pool keeps one thief awake while workers are active", "statement": "Under sequentially consistent memory (see C42 for the C++ memory model): whenever some worker is active, then in each numa domain someone is searching for work or nobody sleeps, or a wake-up of that domain is already under way; in particular exactly so whenever every worker is searching, sleeping or running tasks; in every fair schedule the exceptional state ends. (Provided fewer than 2^32 notifications of a domain fall into one wait, see C21.)", "quantifier": "every number of workers, interleaving and numa grouping", "why_tests_cant": "invariant over a lock-free protocol", "anchors": ["include/libfork/schedule/lazy_pool.hpp lazy_work", "include/libfork/schedule/lazy_pool.hpp lazy_vars::thief_work_sleep"]}
{"id": "C25", "title": "Pool destruction stops every worker without losing the wake-up", "statement": "After the destructor of lazy_pool or busy_pool requests stop and notifies, no worker stays asleep, no worker starts another sleep, no context is finalised before all workers have left their loop, and in every fair schedule in which the work ends the destructor returns. (lazy_pool: provided fewer than 2^32 notifications of a domain fall into one wait, see C21.)", "quantifier": "every number of workers, every interleaving", "why_tests_cant": "shutdown race windows", "anchors": ["include/libfork/schedule/lazy_pool.hpp lazy_pool::~lazy_pool", "include/libfork/schedule/lazy_pool.hpp lazy_work", "include/libfork/schedule/busy_pool.hpp busy_pool::~busy_pool", "include/libfork/schedule/busy_pool.hpp busy_work"]}
{"id": "C26", "title": "lf::fold equals a left fold for associative operators", "statement": "fold over n elements with grain size k and an associative operator returns the projected elements combined in order (empty range: empty optional), never touching an element twice.", "quantifier": "every n, every grain k>=1, every associative (not necessarily commutative) operator, every projection", "why_tests_cant": "infinitely many sizes and chunkings", "anchors": ["include/libfork/algorithm/fold.hpp fold_overload_impl"]}
{"id": "C27", "title": "lf::map writes f(x_i) to out_i for exactly the n positions", "statement": "map writes each output position once with fun(proj(in_i)) and nothing else, also when output aliases input.", "quantifier": "every n, grain, interleaving", "why_tests_cant": "every chunking", "anchors": ["include/libfork/algorithm/map.hpp map_overload_impl"]}
{"id": "C28", "title": "lf::for_each applies the function exactly once to every element", "statement": "for_each applies fun to each projected element exactly once.", "quantifier": "every n, grain, interleaving", "why_tests_cant": "every chunking", "anchors": ["include/libfork/algorithm/for_each.hpp for_each_overload_impl"]}
{"id": "C29", "title": "lf::scan equals the inclusive scan for associative operators", "statement": "scan writes out_i = x_0 op ... op x_i for every i, whichever of the left sub-scans happen to be ready, in place or not.", "quantifier": "every n, grain >= 1, associative operator and every oracle of 'left finished' answers", "why_tests_cant": "the ready/not-ready decision per tree node gives exponentially many executions", "anchors": ["include/libfork/algorithm/scan.hpp rise_sweep", "include/libfork/algorithm/scan.hpp fall_sweep", "include/libfork/algorithm/scan.hpp fall_sweep_impl", "include/libfork/algorithm/scan.hpp scan_impl"]}
{"id": "C30", "title": "lf::scan and lf::map branches running in parallel never conflict", "statement": "Forked branches access disjoint output locations (except shared reads), so every interleaving yields the same result as the sequential order.", "quantifier": "every n, grain, ready oracle and interleaving", "why_tests_cant": "data races are not observable by result on most runs", "anchors": ["include/libfork/algorithm/scan.hpp", "include/libfork/algorithm/map.hpp"]}
{"id": "C31", "title": "xoshiro::jump advances exactly 2^128 steps and long_jump 2^192", "statement": "jump() leaves the generator in the state that 2^128 calls to operator() would, long_jump() in that of 2^192 calls.", "quantifier": "every one of the 2^256 states", "why_tests_cant": "2^128 calls cannot be executed", "anchors": ["include/libfork/schedule/ext/random.hpp xoshiro::jump", "include/libfork/schedule/ext/random.hpp xoshiro::long_jump"]}
{"id": "C32", "title": "xoshiro generator is a permutation with full period", "statement": "operator() permutes the state space, fixes the zero state, never maps a nonzero state to zero, every nonzero state has period exactly 2^256-1; streams separated by jump() do not overlap for 2^128 outputs.", "quantifier": "every state", "why_tests_cant": "the period cannot be enumerated", "anchors": ["include/libfork/schedule/ext/random.hpp xoshiro::operator()", "include/libfork/schedule/ext/random.hpp xoshiro(seed)"]}
{"id": "C33", "title": "numa distribute gives every worker a complete, disjoint, distance-ordered victim table", "statement": "For every worker the neighbour lists start with itself and then contain each other worker exactly once, grouped by increasing topological distance.", "quantifier": "every topology and number of threads", "why_tests_cant": "every topology", "anchors": ["include/libfork/schedule/ext/numa.hpp numa_topology::distribute", "include/libfork/schedule/ext/numa.hpp detail::numa_node"]}
{"id": "C34", "title": "Victim selection is bounded and returns only genuinely stolen tasks", "statement": "try_steal makes a bounded number of attempts and returns a non-null task exactly when a steal succeeded; each victim other than self appears in the victim table.", "quantifier": "every topology, random draw and outcome of the attempts", "why_tests_cant": "every random draw", "anchors": ["include/libfork/schedule/impl/numa_context.hpp numa_context::try_steal", "include/libfork/schedule/impl/numa_context.hpp init_worker_and_bind"]}
{"id": "C35", "title": "Reference checks reject dangling bindings", "statement": "A fork that compiles never leaves a reference parameter of the child bound to a temporary or an expiring object, and every fork that cannot dangle compiles; a task returning a reference delivers the address of the very object given to co_return, and never an rvalue as an lvalue reference.", "quantifier": "every pair of parameter and argument types and every environment of conversions", "why_tests_cant": "types are unbounded; a dangling reference usually still reads the right value in a test", "anchors": ["include/libfork/core/impl/safe_ref.hpp: safe_ref_bind_to", "include/libfork/core/impl/promise.hpp: safe_fork_t, safe_fork", "include/libfork/core/eventually.hpp: operator="]}
{"id": "C36", "title": "Explicit scheduling resumes the task on the destination context exactly once", "statement": "co_await resume_on / a context_switcher hands the suspended task to exactly one resumption on the destination worker and the originating worker continues safely with its own stack.", "quantifier": "every program and schedule", "why_tests_cant": "submission may run before the submitter returns from await_suspend", "anchors": ["include/libfork/core/impl/awaitables.hpp context_switcher_awaitable / await_suspend", "include/libfork/core/scheduler.hpp"]}
{"id": "C37", "title": "unit_pool / busy_pool run every submission before exit", "statement": "Every task scheduled before the stop request is consumed and started exactly once, before its worker leaves and so before the destructor returns; in every fair schedule each is started and, when the submissions end, the destructor returns.", "quantifier": "every number of workers, every interleaving of schedule, work loop and destructor", "why_tests_cant": "shutdown race", "anchors": ["include/libfork/schedule/unit_pool.hpp unit_pool::work", "include/libfork/schedule/busy_pool.hpp busy_work"]}
{"id": "C38", "title": "sync fork reports readiness truthfully", "statement": "The bool result of a sync-fork await is true exactly when the child completed synchronously, i.e. it has finished and the parent's continuation was not stolen meanwhile.", "quantifier": "every schedule", "why_tests_cant": "depends on whether the continuation was stolen", "anchors": ["include/libfork/core/impl/awaitables.hpp fork_awaitable::await_resume", "include/libfork/core/tag.hpp modifier::sync"]}
{"id": "C39", "title": "schedule never touches a worker that is gone", "statement": "A call of schedule whose job has been started before the pool is destroyed makes no access to the pool or its workers after the destructor has returned or the worker has been finalised.", "quantifier": "every interleaving of submitters (worker threads of this pool, of other pools, other threads), workers and destructor", "why_tests_cant": "use-after-free window of a few instructions", "anchors": ["include/libfork/core/ext/context.hpp worker_context::schedule", "include/libfork/schedule/lazy_pool.hpp lazy_work", "include/libfork/schedule/lazy_pool.hpp lazy_pool::~lazy_pool"]}
{"id": "C40", "title": "xoshiro outputs are equidistributed over the full 64-bit range", "statement": "Over one period of the generator, started from the default seed or any nonzero state, operator() returns every 64-bit value exactly 2^192 times, except 0 which is returned once less; in particular every value in [min(), max()] occurs.", "quantifier": "every nonzero state and every 64-bit value", "why_tests_cant": "2^256 outputs cannot be enumerated", "anchors": ["include/libfork/schedule/ext/random.hpp xoshiro::operator()", "include/libfork/schedule/ext/random.hpp xoshiro::min", "include/libfork/schedule/ext/random.hpp xoshiro::max"]}
{"id": "C41", "title": "The deque is correct under the C++ memory model", "statement": "With the memory orders in the source and any execution the C++ memory model allows: no item is handed out twice, none is invented, and every history is linearizable up to steals that fail without a reason.", "quantifier": "every number of thieves, every execution allowed by the memory model, including growth of the buffer", "why_tests_cant": "weak-memory behaviours depend on the hardware and the compiler; x86 test machines never show most of them", "anchors": ["include/libfork/core/ext/deque.hpp deque::push", "include/libfork/core/ext/deque.hpp deque::pop", "include/libfork/core/ext/deque.hpp deque::steal"]}
{"id": "C42", "title": "lazy_pool keeps one thief awake under the C++ memory model", "statement": "With the memory orders in the source: no execution comes to rest with a worker running a task, a worker asleep, nobody searching in the sleeper's numa domain and no wake-up under way.", "quantifier": "every number of workers and domains, every execution allowed by the memory model", "why_tests_cant": "store buffering between two counters", "anchors": ["include/libfork/schedule/lazy_pool.hpp lazy_work", "include/libfork/schedule/lazy_pool.hpp lazy_vars::thief_work_sleep"]}
{"id": "C43", "title": "A join makes everything the children did visible, exactly once, under the C++ memory model", "statement": "When a task goes on after co_await join, on whichever thread, everything its children wrote, and everything the task itself wrote before, happens before: each memory cell can only be read with its last value and writing it is no data race; the non-atomic reset of the join counter is no data race; exactly one thread resumes the task and a parked task is never forgotten.", "quantifier": "every number of scopes and children (at most 65534 stolen forks per scope), every execution the C++ memory model allows with the memory orders in the source, all three ways a join can complete", "why_tests_cant": "depends on memory reordering and on the order of arrival", "anchors": ["include/libfork/core/impl/awaitables.hpp join_awaitable", "include/libfork/core/impl/promise.hpp final_await_suspend", "include/libfork/core/impl/frame.hpp fetch_sub_joins"]}
{"id": "C44", "title": "A steal happens after the push of the item it takes, under the C++ memory model", "statement": "Everything that happened before the push of an item, in particular every write the pushing thread made or knew of, happens before the return of the steal that obtains the item: the thief can read nothing older.", "quantifier": "every number of thieves, every execution the C++ memory model allows with the memory orders in the source", "why_tests_cant": "depends on memory reordering", "anchors": ["include/libfork/core/ext/deque.hpp deque::push", "include/libfork/core/ext/deque.hpp deque::steal"]}
{"id": "C45", "title": "Every schedule of terminating tasks finishes, with the serial results", "statement": "If the serial elision of every submitted task terminates then no schedule of any number of workers is infinite: the number of steps they take is at most ten times the number of actions of the serial elisions plus five per submission (failed attempts to steal not counted); a schedule ends only when every task has returned; and if no worker that has something to do is ignored for ever, every submitted task returns the result of its serial elision, even if nobody ever steals.", "quantifier": "every program that joins before it returns, with at most 65534 forks per scope, every number of workers and submissions, every fair schedule", "why_tests_cant": "infinite schedules; liveness cannot be observed by a finite run", "anchors": ["include/libfork/core/impl/awaitables.hpp join_awaitable::await_suspend", "include/libfork/core/impl/promise.hpp final_await_suspend", "include/libfork/core/ext/resume.hpp resume"]}
{"id": "C46", "title": "event_count orders conditions and loses no wake-up under the C++ memory model", "statement": "With the memory orders in the source: a thread that calls prepare_wait after a notify_one/notify_all sees everything the notifier did before; a thread that called prepare_wait before a notify_all and blocks in wait, even after reading an outdated epoch, is eligible to be unblocked once that call is made; so no thread stays blocked in await on a condition that was made true before notify_all; await returns only after its caller has seen the condition true; wait returns only after a notification, whose caller's writes are then visible. (Fewer than 2^32 notifications during one wait, fewer than 2^32 threads.)", "quantifier": "every number of threads, every execution allowed by the memory model, arbitrary other accesses (plain, relaxed, acquire/release, fences) to any number of memory cells", "why_tests_cant": "outdated loads depend on the hardware and cannot be provoked on x86", "anchors": ["include/libfork/schedule/ext/event_count.hpp event_count::prepare_wait", "include/libfork/schedule/ext/event_count.hpp event_count::wait", "include/libfork/schedule/ext/event_count.hpp event_count::notify_all", "include/libfork/schedule/ext/event_count.hpp event_count::notify_one", "include/libfork/schedule/ext/event_count.hpp event_count::await"]}
{"id": "C47", "title": "The submission list is correct under the C++ memory model", "statement": "With the memory orders in the source: for_each_elem(try_pop_all()) calls the function for the pushed nodes in the order in which the pushes took effect, each once and none lost; there is no data race on the members of a node, whichever thread pushes and also if a node's memory is reused; when the function is called for a node, everything its pusher did before the push happens before and cannot be read with an older value.", "quantifier": "every number of pushing threads, every execution allowed by the memory model, any reuse of node addresses", "why_tests_cant": "outdated loads and missing publication depend on hardware and compiler", "anchors": ["include/libfork/core/ext/list.hpp intrusive_list::push", "include/libfork/core/ext/list.hpp intrusive_list::try_pop_all", "include/libfork/core/ext/list.hpp for_each_elem"]}
{"id": "C48", "title": "Exceptions thrown by the user's functions come out of fold and scan", "statement": "A call of lf::fold or lf::scan whose projection or operator throws, synchronously or from an asynchronous operator, ends with one of the exceptions thrown; it ends normally, with the specified result, exactly if nothing was thrown; it never fails an assertion, reads an indeterminate value or has other undefined behaviour.", "quantifier": "every range, grain, projection, operator, choice of which invocations throw, every interleaving and every answer to 'has the left child completed'", "why_tests_cant": "which calls throw and how they interleave with joins gives exponentially many executions", "anchors": ["include/libfork/algorithm/scan.hpp rise_sweep", "include/libfork/algorithm/scan.hpp fall_sweep", "include/libfork/algorithm/fold.hpp fold_overload_impl", "include/libfork/core/impl/promise.hpp await_transform", "include/libfork/core/impl/awaitables.hpp join_awaitable", "include/libfork/core/control_flow.hpp eager_throw_outside"]}
{"id": "C49", "title": "Concurrent exceptions are captured without a data race and the first one is rethrown, under the C++ memory model", "statement": "With the memory orders in the source, when any number of children of a scope end with exceptions at the same time, and the task stashes some itself: the storage of the exception is never accessed in a data race; the join throws exactly the exception that was captured first in its scope, and none if none was captured; afterwards the task carries no exception, and the next scope starts afresh.", "quantifier": "every number of scopes, children and exceptions, every execution the memory model allows", "why_tests_cant": "the race between captures, the last child's arrival and the rethrow is a matter of a few instructions and of the memory orders", "anchors": ["include/libfork/core/impl/frame.hpp capture_exception", "include/libfork/core/impl/frame.hpp unsafe_rethrow_if_exception", "include/libfork/core/impl/frame.hpp rethrow", "include/libfork/core/impl/promise.hpp unhandled_exception", "include/libfork/core/impl/awaitables.hpp join_awaitable::await_resume"]}
{"id": "C50", "title": "A pool is constructed and destroyed without a race, a null context or a hang, under the C++ memory model", "statement": "With the memory orders in the source, for busy_pool and lazy_pool with any number of workers: no worker starts to look for work, and the constructor does not return, before every worker has initialised its context; contexts() then holds the contexts of all workers in order; no access of a context is a data race or finds null, including steals by other workers and schedule; no worker stops before the destructor is called, and none takes its context away while another may use it; construction and destruction never block; when the destructor returns every worker has ended and everything it did happens before.", "quantifier": "every number of workers, every execution the memory model allows, any use of the contexts by workers and by the owner in between", "why_tests_cant": "start-up and shut-down races last for a few instructions and depend on the memory orders", "anchors": ["include/libfork/schedule/busy_pool.hpp busy_pool::busy_pool, ~busy_pool, busy_work", "include/libfork/schedule/lazy_pool.hpp lazy_pool::lazy_pool, ~lazy_pool, lazy_work", "include/libfork/schedule/impl/numa_context.hpp init_worker_and_bind, finalize_worker, try_steal, schedule"]}
{"id": "C51", "title": "Pool objects can be constructed, moved and destroyed", "statement": "A busy_pool or lazy_pool object can be constructed, move-constructed from, move-assigned to and destroyed in any order in which C++ allows these: the program never has undefined behaviour, never terminates and never hangs; a constructor that throws leaves nothing behind; the running worker threads are at any time exactly those of the pools alive, none of which has been told to stop, so that no thread is left when all pools are destroyed.", "quantifier": "every sequence of such operations on any number of objects, every number of workers, every point at which a constructor may fail", "why_tests_cant": "the tests construct and destroy a few pools; none moves one", "anchors": ["include/libfork/schedule/busy_pool.hpp busy_pool(busy_pool&&), operator=, ~busy_pool, busy_pool(n)", "include/libfork/schedule/lazy_pool.hpp lazy_pool(lazy_pool&&), operator=, ~lazy_pool, lazy_pool(n)"]}
{"id": "C52", "title": "Arrays from co_new are constructed and destroyed exactly once, on a stack that is given back", "statement": "co_await lf::co_new<T>(n) either throws std::bad_alloc having done nothing, or rethrows the exception of the k-th constructor after destroying exactly the k elements constructed, or yields an array of n constructed elements, aligned, inside one block of the heap and apart from every other live object; the elements are destroyed exactly once when the returned object goes out of scope, normally or by an exception; afterwards the coroutine's stack is what it was before, and the coroutine knows its stack at all times, so that another worker can take it over.", "quantifier": "every coroutine body built from co_new blocks, nested calls, throws, catches and moves between workers, every element count and size whose product does not wrap, every failing constructor, every behaviour of malloc, everything other workers do to their stacks meanwhile", "why_tests_cant": "the tests allocate a few arrays on the happy path; element constructors do not throw and malloc does not fail", "anchors": ["include/libfork/core/co_alloc.hpp co_new, stack_allocated", "include/libfork/core/impl/awaitables.hpp alloc_awaitable", "include/libfork/core/impl/frame.hpp reset_stacklet", "include/libfork/core/impl/promise.hpp operator new, operator delete, ~promise_base"]}
{"id": "C53", "title": "schedule, future and sync_wait synchronise the caller with the task, under the C++ memory model", "statement": "What the caller wrote before schedule is seen by the task; once wait, get, the blocking destructor or sync_wait returns, the task has returned and the caller sees everything it did, including the end of its use of the caller's data, so the caller may reuse it; get gives exactly what the task returned, once, and empty_future afterwards; the shared state is freed exactly once, after the last use by either side, whether the future is waited for, destroyed or detached; a wait on a submitted task can always end; and there is no data race.", "quantifier": "every interleaving of the caller and the task, every sequence of wait, get, destroy, detach and reuse of the caller's data, every message each load may see under release/acquire views", "why_tests_cant": "races between the semaphore's notification, the last reference to the shared state and the caller's reuse of its data show only in rare interleavings or on weak hardware", "anchors": ["include/libfork/core/sync_wait.hpp schedule, future, sync_wait", "include/libfork/core/impl/promise.hpp final_awaitable", "include/libfork/core/impl/return.hpp"]}
{"id": "C54", "title": "A lazy_pool worker never sleeps through a submission or the destructor, under the C++ memory model", "statement": "A worker of a lazy_pool to which something was submitted, or whose pool is being destroyed, does not stay blocked in its event count: it may be unblocked, or the submitting (destroying) thread has not finished its call and can, and its next step unblocks the worker. No submission is lost: what was submitted to a worker is waiting in its list or was taken out by that worker. No worker leaves before the destructor asked for it. A thread is never stuck except in the wait itself.", "quantifier": "every number of threads, every interleaving of workers, submitters and destructor, every content of the counters and outcome of stealing, every message each load may see under release/acquire views; fewer than 2^32 notifications while a worker prepares to sleep", "why_tests_cant": "a missed wake-up needs a submission exactly between the worker's last look and its wait, and stale reads that only weak hardware shows", "anchors": ["include/libfork/schedule/lazy_pool.hpp lazy_work, ~lazy_pool", "include/libfork/core/ext/context.hpp worker_context::schedule", "include/libfork/core/ext/list.hpp intrusive_list", "include/libfork/schedule/ext/event_count.hpp"]}
{"id": "C55", "title": "The whole scheduler core is correct over the real deques, not only over ideal queues", "statement": "When the fork/call/join/switch runtime runs on the work-stealing deques as they are implemented, with every single atomic access of every worker's push, pop and steal interleaved with everything else: no assertion of the runtime or of a deque fails, a task passes its join only when all its children have returned, is resumed once per suspension and returns once, the result of a submitted task is that of its serial elision, a worker in its scheduler loop has an empty deque and an empty stack, no task is lost, and a worker inside a task or a deque operation always has a next step.", "quantifier": "every task program that joins before it returns and forks at most 65534 children per scope, every number of workers, every interleaving of single atomic accesses of the runtime and of all the deques, every initial capacity that is a power of two; no growth of a deque throws", "why_tests_cant": "the components are tested apart; a test of the whole sees a few of the interleavings inside overlapping pushes, pops and steals", "anchors": ["include/libfork/core/ext/deque.hpp deque", "include/libfork/core/ext/context.hpp worker_context, full_context", "include/libfork/core/impl/awaitables.hpp fork_awaitable, join_awaitable, try_self_stealing", "include/libfork/core/impl/promise.hpp final_await_suspend", "include/libfork/core/ext/resume.hpp resume"]}
{"id": "C56", "title": "Exceptions anywhere in a fork-join program neither break nor leak anything", "statement": "When any task of a program may throw (on its own, because a fork, call or context switch fails in it, or because a join rethrows), in every execution no assertion of the runtime fails; a task goes on after a join, normally or with the exception, only when all its children have ended; every task ends once, by returning or throwing; the join rethrows if and only if a child or callee threw since the last join, and then one of their exceptions, so the result of a submitted task, value or exception, is one its serial elision can have; at the end no task is lost and no frame is left on a stack; a fork, call or switch that throws leaves everything as it was; a sync fork answers true only if the child has ended and the task was not stolen.", "quantifier": "every task program in which tasks join before they end if they have forked children or a callee may have thrown, every number of workers, every schedule, every choice of which forks, calls and switches fail, at most 65534 steals of a task per scope (implied by as many forks)", "why_tests_cant": "a test throws at a few chosen places under a few schedules; which exception wins and which frames are unwound depends on the schedule", "anchors": ["include/libfork/core/impl/frame.hpp capture_exception, unsafe_rethrow, has_exception", "include/libfork/core/impl/promise.hpp unhandled_exception, final_suspend", "include/libfork/core/impl/awaitables.hpp join_awaitable, fork_awaitable, call_awaitable, context_switch_awaitable"]}
{"id": "C57", "title": "A program that uses sync_wait on a lazy_pool runs to its end, whole", "statement": "K threads call sync_wait on one lazy_pool, each with its own root task, whose tasks fork, join and move between workers; when all calls are back the pool is destroyed. In every execution nothing undefined happens in the scheduler, the runtime or a task (apart from C58); each call that returns returns the value of the serial elision of its task; while a call of schedule is in progress no worker has been finalised and the pool is not gone; when the destructor begins every task has returned and no submission is left; and in every fair execution every call returns and the destructor returns.", "quantifier": "every number of workers and domains, every number of calling threads, every disciplined program whose serial elisions end, every interleaving of the atomic steps of the submissions, of the workers' loops, of the event counts, of the runtime inside resume and of the destructor, every fair infinite schedule", "why_tests_cant": "a test runs a few programs under a few interleavings, and a lost wake-up or a lost task shows only as a rare hang", "anchors": ["include/libfork/schedule/lazy_pool.hpp lazy_vars, schedule, lazy_work, ~lazy_pool", "include/libfork/core/sync_wait.hpp sync_wait, schedule, future", "include/libfork/core/ext/context.hpp worker_context::schedule", "include/libfork/core/ext/resume.hpp resume"]}
{"id": "C58", "title": "schedule of a pool can be called by several threads at once", "statement": "Any number of threads may call sync_wait, schedule or detach on the same pool at the same time; no call disturbs another and none is undefined behaviour.", "quantifier": "every number of threads, every interleaving", "why_tests_cant": "a data race on the generator state almost never shows in a test", "anchors": ["include/libfork/schedule/lazy_pool.hpp:371 schedule", "include/libfork/schedule/busy_pool.hpp:194 schedule"]}
{"id": "C59", "title": "A program that throws comes to its end on every schedule", "statement": "If the serial elision of the submitted tasks ends within n actions whichever forks, calls and switches fail and whichever of several exceptions a join rethrows, then no schedule of any number of workers takes more than a fixed number of steps; a schedule stops only when every task has returned or thrown; and if no worker that has something to do is ignored for ever, every submitted task ends, with a value or an exception that its serial elision can end with. No exception, thrown anywhere, makes a worker wait for ever.", "quantifier": "every program that keeps the rules of the library and whose serial elisions end, every number of workers and submissions, every choice of what fails, every schedule, every fair infinite schedule", "why_tests_cant": "a test cannot run all combinations of failing allocations, thrown exceptions and steals, and a lost wake-up after an exception shows as a hang", "anchors": ["include/libfork/core/impl/promise.hpp unhandled_exception, final_suspend, final_await_suspend", "include/libfork/core/impl/awaitables.hpp await_suspend, await_resume", "include/libfork/core/impl/frame.hpp capture_exception, rethrow_if_exception"]}
{"id": "C60", "title": "A program that throws, run by sync_wait on a lazy_pool, runs to its end, whole", "statement": "As C57, for programs whose tasks throw and whose forks, calls and context switches may fail: in every execution nothing undefined happens in the scheduler, the runtime or a task (apart from C58), each sync_wait that comes back returns or throws what a serial elision of its root task returns or throws, nobody that has something to do gets stuck, when the destructor of the pool begins every task has returned or thrown and no submission is left, and in every fair execution every sync_wait comes back, by returning or by throwing, and the destructor returns.", "quantifier": "every number of workers, domains and calling threads, every disciplined program all whose serial elisions end, every choice of what fails, every interleaving of submissions, worker loops, event counts, the runtime inside resume and the destructor, every fair infinite schedule", "why_tests_cant": "a test runs a few failures under a few interleavings; an exception that loses a wake-up or a task shows as a rare hang", "anchors": ["include/libfork/schedule/lazy_pool.hpp lazy_vars, schedule, lazy_work, ~lazy_pool", "include/libfork/core/sync_wait.hpp sync_wait, schedule, future", "include/libfork/core/impl/promise.hpp unhandled_exception, final_suspend", "include/libfork/core/impl/awaitables.hpp await_suspend, await_resume", "include/libfork/core/impl/frame.hpp capture_exception, rethrow_if_exception"]}
{"id": "C61", "title": "Tasks that share memory run as the fork/join program says, whatever the workers do", "statement": "When tasks read and write objects they share, then in every schedule on any number of workers, with any steals, context switches and exceptions, the tasks' states, the memory, every value a task reads and every task's result are those of an execution of the fork/join program itself: a machine without workers, queues, stacks and counters, in which a task may take its next step at any time, except that a call waits for its callee, a join for the children forked since the last join, and a sync fork answers true only if the child has ended. In particular what a child has written before it ends is what its parent reads after the join. Nothing in the runtime becomes undefined and no worker inside a task gets stuck.", "quantifier": "every program of tasks with any memory accesses between suspension points, every number of workers, every schedule, every choice of steals and failures, every history of submissions", "why_tests_cant": "a test sees a few interleavings of a few programs; an access that is reordered with a join, or a child that is waited for too late, shows as a rare wrong value", "anchors": ["include/libfork/core/impl/awaitables.hpp fork_awaitable, call_awaitable, join_awaitable", "include/libfork/core/impl/promise.hpp final_await_suspend", "include/libfork/core/ext/resume.hpp resume", "include/libfork/core/impl/frame.hpp"]}
{"id": "C62", "title": "A program without data races computes in parallel what it computes serially", "statement": "If no execution of the fork/join program (C61) has a data race, two tasks about to access the same object, one of them to write it, then whatever the workers do no two workers ever make such accesses at the same time, and whenever all submitted tasks have ended, memory and results are what one thread computes that runs the submitted tasks one after another with every fork a call (the serial elision). If moreover nothing throws and no task looks at the answer of a sync fork, the outcome is the same in every schedule. A program has no data races if every task, from a fork to the join, stays away from what the child may access, as a footprint says that is checked statement by statement.", "quantifier": "every program of tasks with any memory accesses, every number of workers, every schedule, steals and failures, every history of submissions whose tasks do not conflict", "why_tests_cant": "whether a program is free of races and what it computes in all schedules is a statement about all interleavings; a test sees a few", "anchors": ["include/libfork/core/impl/awaitables.hpp fork_awaitable, call_awaitable, join_awaitable", "include/libfork/core/impl/promise.hpp final_await_suspend", "include/libfork/core/control_flow.hpp fork, call, join"]}
{"id": "C63", "title": "The parallel algorithms are right however the runtime executes them", "statement": "lf::map, lf::for_each and lf::fold, executed one memory access at a time by the work-stealing runtime, with any number of workers, any schedule and any steals, alone or together with other algorithms on ranges that do not conflict: if the algorithm returns, the output of map is the function of each input, for_each has applied its function exactly once to each element, and fold has the value of a bracketing of the projected elements in order (the left fold if the operator is associative); if it throws, then what one of the user's functions threw on the input, or because an allocation of the runtime failed; nothing but the output is ever changed.", "quantifier": "every range, chunk size, function, contents of memory, number of workers, schedule, steal and failed allocation, and every history of submissions that do not conflict", "why_tests_cant": "the algorithms are tested on a few sizes with whatever steals happen; the claim is about all interleavings of the accesses of all their tasks", "anchors": ["include/libfork/algorithm/map.hpp map_overload", "include/libfork/algorithm/for_each.hpp for_each_overload", "include/libfork/algorithm/fold.hpp fold_overload", "include/libfork/core/impl/awaitables.hpp fork_awaitable, call_awaitable, join_awaitable"]}
{"id": "C64", "title": "sync_wait with a parallel algorithm comes back with the right result", "statement": "Threads call sync_wait on a lazy_pool with tasks that read and write shared memory, in particular lf::map, lf::for_each and lf::fold; calls that are not ordered do not conflict. Whatever the workers do (sleep, wake, steal, finish each other's tasks), no two of them are about to access the same location with one write; nothing is undefined but the known race on the pool's random number generator (C58); nobody gets stuck; under fair scheduling every call comes back, and then memory and results are those of the root tasks run one after another by one thread, in an order that respects that of the calls: the output of map, the left fold, and so on; and the destructor of the pool returns.", "quantifier": "every number of workers, assignment to NUMA nodes, number and order of calls, contents of memory, schedule, steal, failed allocation and spurious wake-up", "why_tests_cant": "end to end, a claim about all schedules and all memory; a run shows one", "anchors": ["include/libfork/core/sync_wait.hpp sync_wait", "include/libfork/schedule/lazy_pool.hpp lazy_pool", "include/libfork/core/impl/awaitables.hpp fork_awaitable, call_awaitable, join_awaitable", "include/libfork/algorithm/map.hpp map_overload", "include/libfork/algorithm/fold.hpp fold_overload", "include/libfork/algorithm/for_each.hpp for_each_overload"]}
{"id": "C65", "title": "A sync_outside fork that reports completion opens no scope", "statement": "A task that awaits dispatch<tag::fork, modifier::sync_outside>, outside any fork-join scope, is told whether the child has completed. When it is told yes, in whatever schedule: the child has returned, the return object holds its value, and the task has nothing to join - it may use the value and even return without a join, as lf::scan does. Its execution is, step by step, that of a task that did join: nothing is undefined, a worker inside a task can always go on, and without races memory and results are those of the tasks run one after another. When it is told no, one child is pending and a join gets its result. (The children of such forks must not throw: else the answer is yes with nothing in the return object.)", "quantifier": "every program with sync_outside forks whose children do not throw, every schedule, steal, failed allocation and contents of memory", "why_tests_cant": "whether the parent is stolen during the child is up to the schedule; a test sees one answer", "anchors": ["include/libfork/core/control_flow.hpp dispatch", "include/libfork/core/tag.hpp modifier::sync_outside", "include/libfork/core/impl/promise.hpp await_transform", "include/libfork/core/impl/awaitables.hpp fork_awaitable, join_awaitable", "include/libfork/algorithm/scan.hpp rise_sweep"]}
{"id": "C66", "title": "lf::scan executed by the runtime, whatever is stolen", "statement": "Calls of lf::scan with an associative operator, chunks of any positive size, in place or to a range that does not overlap the input, submitted to a scheduler at any time and run by any number of workers with any schedule and any steals - also several at the same time if none writes what another reads or writes -: when a call ends it has not thrown, each output is the left fold of the projected inputs up to there, and nothing else has changed, whichever answers the sync_outside forks of the up-sweep got and so whichever of the right halves were scanned rather than reduced. No two workers access an element at the same time unless both read it, no assertion fails, nothing is undefined, and a worker inside a task can always go on. The same holds of any task that calls scan and others like it.", "quantifier": "every associative operator, projection, element values, lengths, chunk sizes, positions, number of calls, every schedule and steal", "why_tests_cant": "which chunks are fused depends on which tasks are stolen; a test sees a few schedules and sizes", "anchors": ["include/libfork/algorithm/scan.hpp rise_sweep, fall_sweep_impl, fall_sweep, scan_impl, scan_overload", "include/libfork/core/impl/awaitables.hpp fork_awaitable, join_awaitable", "include/libfork/core/control_flow.hpp dispatch"]}
{"id": "C67", "title": "a whole program on busy_pool or unit_pool, destroyed while tasks run", "statement": "Threads call lf::schedule (or sync_wait) on a busy_pool of any size, or a unit_pool, with tasks that fork, call, join, throw, switch between workers and share memory without races; the pool may be destroyed while submitted tasks still run or have not begun, provided they submit nothing more to it. In every schedule: no two workers access a location at the same time unless both read; the only undefined behaviour is two threads calling schedule of one busy_pool at once; every worker, caller and destructor that is due to move can move; when every future has been got, and also when the destructor has returned, every task has been executed exactly once and completely, memory and results are those of the tasks run one after another by one thread, in an order that respects that of the calls, and every allocation has been given back; before any worker gives up its context, no task is left anywhere. In every fair schedule, if the tasks end, every future becomes ready, get returns, and the destructor returns. In particular for lf::map, lf::for_each, lf::fold.", "quantifier": "every program of tasks, pool size, number of calls and order between them, point at which the destructor is called, schedule, steals, failed allocations", "why_tests_cant": "the moment of destruction relative to each worker's loop, steals and submissions has unboundedly many interleavings, and termination is not observable by a test", "anchors": ["include/libfork/schedule/busy_pool.hpp busy_work, busy_pool", "include/libfork/schedule/unit_pool.hpp unit_pool", "include/libfork/core/sync_wait.hpp schedule, sync_wait, future::get", "include/libfork/core/impl/awaitables.hpp", "include/libfork/core/impl/promise.hpp", "include/libfork/core/ext/resume.hpp resume"]}
{"id": "C68", "title": "what a finished call computed is there while other calls still run", "statement": "At any moment of any execution in which several calls of sync_wait (lazy_pool) or schedule (busy_pool, unit_pool) are in progress, with tasks that share memory without races: the calls that are over have the results they have when run one after another by one thread, in an order that respects that of the calls, starting from the initial memory and without anything of the calls that are not over; and every location that no unfinished call can write holds the value that serial execution leaves. In particular when an lf::map or lf::fold is over, its output or result is there, complete and correct, whatever the other calls that use other ranges are in the middle of.", "quantifier": "every set of programs without conflicts, every order between calls, pool size, schedule, steals, failed allocations, every moment", "why_tests_cant": "a partial state of the other calls can occur at any of their steps; a test sees the result after a few of them", "anchors": ["include/libfork/core/sync_wait.hpp schedule, sync_wait, future::get", "include/libfork/core/impl/awaitables.hpp", "include/libfork/core/impl/promise.hpp", "include/libfork/schedule/busy_pool.hpp", "include/libfork/schedule/lazy_pool.hpp", "include/libfork/schedule/unit_pool.hpp", "include/libfork/algorithm/map.hpp map", "include/libfork/algorithm/fold.hpp fold"]}
{"id": "C69", "title": "memory scales linearly with the number of workers (busy leaves)", "statement": "At any moment of any execution every coroutine frame belongs to a task that a worker is busy with, that waits in a worker's submission list, or that has a child whose frame exists: no frame is kept for nothing. Hence, if S is what the frames of the root tasks need when one thread executes them serially, the frames of all tasks on N workers need at most S for each worker plus S for each task in a submission list (for tasks that do not switch context: for each call that is not over); the number of stacks in use is bounded likewise by the nesting depth, and no worker's queue is longer than the nesting depth. In particular lf::map, for_each and fold of up to 2^t elements have at most t+1 frames for each worker and each unfinished call, whatever the length.", "quantifier": "every program, frame sizes, number of workers and calls, schedule, steals, exceptions and failed allocations, every moment", "why_tests_cant": "peak memory depends on the schedule: a test measures it in a few schedules, and the bound is over all of them", "anchors": ["README.md linear time/memory scaling", "include/libfork/core/impl/awaitables.hpp", "include/libfork/core/impl/promise.hpp promise_type::operator new, operator delete, final_await_suspend", "include/libfork/core/impl/stack.hpp stack", "include/libfork/schedule/lazy_pool.hpp", "include/libfork/schedule/busy_pool.hpp", "include/libfork/schedule/unit_pool.hpp", "include/libfork/algorithm/map.hpp map", "include/libfork/algorithm/fold.hpp fold"]}
{"id": "C70", "title": "a segmented stack holds memory in proportion to what is live on it, and rarely asks malloc for more", "statement": "At any moment, whatever was allocated and freed on it before, all the blocks a stack has taken from malloc (with its spare one and all headers) are at most 81 times as large as the bytes live on it, plus 36096 bytes; for all stacks together the bounds add up. In any history a stack has called malloc successfully at most once, and once more for every 2000 bytes ever allocated on it, so calls and returns around the end of a stacklet do not get and free a block over and over. After an allocation that is small against eight times the capacity of the top stacklet is taken back, one of the same size or smaller needs no malloc at all.", "quantifier": "every history of creating, destroying, swapping, releasing and adopting stacks and of allocating and freeing on them in LIFO order, all sizes, every malloc", "why_tests_cant": "the worst ratio is reached only by particular sequences of sizes; a test measures some", "anchors": ["include/libfork/core/impl/stack.hpp stack::allocate, deallocate, stacklet::next_stacklet, set_next"]}
{"id": "C71", "title": "the runtime is memory safe on the segmented stacks it really uses", "statement": "Every worker has a segmented stack, every frame is memory got from the stack of the worker that makes it, stacks are given away when a task is stolen or moves and taken when it goes on, all in one heap and with any malloc. Whatever the program, the schedule and the answers of malloc: no step of a worker, submission, worker_init or finalize reads, writes or frees memory that is not there, destroys a frame out of order or fails an assertion about stacks; the memory of every task that exists is aligned and inside a live block, and that of no two tasks overlaps; comparing the stacklet recorded in a stolen parent with that of the worker tells exactly whether the parent is on its stack; every execution is one of the runtime in which frames are ideal objects (C56), so results, exceptions and joins are as there; if malloc refuses memory a fork or call throws std::bad_alloc and changes nothing, a submission fails and changes nothing, and a worker that needs a new stack in its noexcept suspension ends the program; when all tasks are over and the workers have finalized, the heap is empty; and on N workers all blocks together are never larger than 81 times the bytes, and 36096 bytes for each frame, that a serial execution nests, for each worker and waiting task, plus 36096 bytes for each worker.", "quantifier": "every program (with exceptions, context switches, failing forks), any number of workers coming and going, every interleaving, every size of frames, every malloc with any failures", "why_tests_cant": "use after free between the decrement of the join counter and the release of the stack needs a thief that joins, finishes and frees the stack in between, and a malloc that refuses exactly there", "anchors": ["include/libfork/core/impl/stack.hpp", "include/libfork/core/impl/promise.hpp final_await_suspend, ~promise", "include/libfork/core/impl/awaitables.hpp join_awaitable, context_switch_awaitable", "include/libfork/core/ext/resume.hpp resume", "include/libfork/core/ext/tls.hpp worker_init, finalize", "include/libfork/core/sync_wait.hpp schedule"]}
{"id": "C72", "title": "what the program orders, happens before in the C++ memory model", "statement": "Tasks pass data through ordinary, non-atomic memory, so it must be the runtime that synchronises. Whatever the program, the schedule and the steals, and counting only what the memory orders in the code give (deque, submission list, join counters and semaphores; nothing from a pop of one's own queue, a lost join or the answer of a fork): all statements of a task happen one before the other, though different workers execute them; what a task did before a fork or call happens before all that the child does; what a callee did happens before the caller goes on; when a task has passed its join, everything all its descendants have done happens before what it does next, and so it is when a fork answers that the child has completed; when wait comes back, everything the root task and all below it have done happens before what the waiting thread does next, and what a thread did before a submission happens before the task; the construction of a join counter, which is a plain write, is ordered with every other access to it, also when frames are reused for the next scope; the relation is transitive; and nothing else is ordered: two children that write one location are a data race.", "quantifier": "every program (with exceptions, context switches, failing forks), any number of workers and submitting threads, every interleaving", "why_tests_cant": "a missing acquire or release shows, on most hardware never, and on the rest once in a while, as a stale value", "anchors": ["include/libfork/core/ext/deque.hpp push, pop, steal", "include/libfork/core/ext/list.hpp push, try_pop_all", "include/libfork/core/impl/promise.hpp final_await_suspend", "include/libfork/core/impl/awaitables.hpp join_awaitable, fork_awaitable", "include/libfork/core/impl/frame.hpp reset, load_joins, fetch_sub_joins", "include/libfork/core/sync_wait.hpp wait"]}
{"id": "C73", "title": "a program without races has no data race", "statement": "If the program is race-free as its author sees it (in the semantics of fork and join, without a runtime, two tasks never are about to make conflicting accesses at once; it suffices that no task touches what children it has forked and not joined write, nor writes what they touch), then it has no data race in the sense of C++ on the real runtime: in every execution, on any number of workers, whatever is stolen, of two accesses to one location of which one is a write the earlier happens before the later, through the synchronisation that the code contains and nothing else. So every load returns the one value that the C++ memory model allows, the last write that happens before it, and not only on machines that are sequentially consistent.", "quantifier": "every race-free program (with exceptions, context switches, failing forks), any number of workers and submitting threads that wait for each other's tasks, every interleaving", "why_tests_cant": "a missing edge shows as a stale value on some machines and schedules only, and race detectors see one execution at a time", "anchors": ["include/libfork/core/ext/deque.hpp push, pop, steal", "include/libfork/core/ext/list.hpp push, try_pop_all", "include/libfork/core/impl/promise.hpp final_await_suspend", "include/libfork/core/impl/awaitables.hpp join_awaitable, fork_awaitable", "include/libfork/core/impl/frame.hpp reset, load_joins, fetch_sub_joins", "include/libfork/core/sync_wait.hpp sync_wait"]}
{"id": "C74", "title": "the parallel algorithms have no data race, and who waits for one sees its result, in the C++ memory model", "statement": "map, for_each, fold (synchronous functions) and scan, called by any threads, with any chunk size, on any number of workers, whatever is stolen: if calls that may be running at the same time do not overlap (where a call is over for a thread only if it has waited for it, or synchronised with one that has), of any two accesses to one location, one of which is a write, also to the temporaries of the algorithms, the earlier happens before the later, with the synchronisation that is in the code and no other; so each load has only one value it can read. A thread that has waited for a call knows everything the call did, and what it then finds in memory is what the call should compute: f of each input in map, the fold, the prefix sums. This includes scan's sync_outside forks, after which a task goes on without a join when told that the child has completed.", "quantifier": "every range, function, chunk size and non-overlapping set of calls; any number of workers and threads; every interleaving", "why_tests_cant": "a missing edge shows as a wrong element in some schedule on some machine", "anchors": ["include/libfork/algorithm/map.hpp", "include/libfork/algorithm/for_each.hpp", "include/libfork/algorithm/fold.hpp", "include/libfork/algorithm/scan.hpp", "include/libfork/core/impl/awaitables.hpp join_awaitable, fork_awaitable", "include/libfork/core/impl/promise.hpp final_await_suspend", "include/libfork/core/sync_wait.hpp wait"]}
{"id": "C75", "title": "the segmented stacks, which are not synchronised, are used without a data race", "statement": "the bookkeeping of a stack (how much of a stacklet is used, its links, whether it is empty or destroyed) is plain memory, and stacks pass from worker to worker: when a forked child reports to a parent that was stolen, when a join is won, when a task switches context, and when a thread submits a task on a new stack. Of every two uses of a stack, by whatever workers or threads, the earlier happens before the later, with the synchronisation that is in the code and no other: the join counter, the work-stealing queues and the submission lists. This includes the loads in the assertions. It depends on final_await_suspend asking for the top of its stack before it decrements the join counter of the parent: afterwards another worker may be using the stack.", "quantifier": "every program whose tasks join before they return; any number of workers and threads; every interleaving, with exceptions and context switches", "why_tests_cant": "ownership of a stack moves through a decrement of the join counter; a wrong order corrupts a stack in rare schedules, and only on weakly ordered machines", "anchors": ["include/libfork/core/impl/promise.hpp final_await_suspend", "include/libfork/core/impl/awaitables.hpp join_awaitable, context_switch_awaitable", "include/libfork/core/impl/stack.hpp stack", "include/libfork/core/ext/resume.hpp resume", "include/libfork/core/sync_wait.hpp schedule"]}
{"id": "C76", "title": "the bookkeeping in the frames of tasks is used without a data race", "statement": "every task has a frame with a steal counter, the state of its coroutine, pointers to its parent and its stacklet, the exception flag and pointer, and the join counter. Only the join counter, and the exception flag where children use it, are atomic; the rest is plain memory that is written and read by whichever worker runs the task, and by its children on other workers. Of every two accesses to one member of one frame that are not both reads and not both atomic operations, the earlier happens before the later, with the synchronisation that is in the code and no other. This includes the construction and destruction of the frame, the resets at the end of a join, the children's reads of the parent's stacklet, the loads in assertions, and children that throw at the same time: the first one writes the exception pointer, the others leave it alone, and the task reads it after all of them.", "quantifier": "every program whose tasks join before they return; any number of workers and threads; every interleaving, with exceptions and context switches", "why_tests_cant": "a plain member that two workers use at once goes wrong in rare schedules, and only on weakly ordered machines", "anchors": ["include/libfork/core/impl/frame.hpp frame", "include/libfork/core/impl/promise.hpp final_await_suspend, promise", "include/libfork/core/impl/awaitables.hpp join_awaitable, fork_awaitable, call_awaitable", "include/libfork/core/ext/resume.hpp resume"]}
{"id": "C77", "title": "event_count::await returns only when its condition was true", "statement": "a call of await ends in one of two ways. If it returns, then since the call the thread has evaluated the condition, at a moment when it was true; being woken, also spuriously or by a notification that was meant for somebody else, is not enough. Otherwise the condition threw. Until then the call has not ended.", "quantifier": "any number of threads that wait, notify and change the condition; every interleaving, spurious wake-ups, any number of notifications (also more than 2^32)", "why_tests_cant": "a return without a last look at the condition goes wrong only if it becomes false again, or the wake-up was spurious, at that moment", "anchors": ["include/libfork/schedule/ext/event_count.hpp event_count::await"]}
{"id": "C78", "title": "no frame is used after its task has ended", "statement": "whatever a worker does, the frames it reads, writes or uses atomically have been made before (or in the same step), and their tasks have not returned or thrown: a child does not look at the frame of a parent that has ended, a parent not at that of a child that has ended, and a worker that has ended a task, or lost the race for its parent, uses its frame no more. This includes the loads in assertions and the reads of the parent's stacklet and exception flag.", "quantifier": "every program whose tasks join before they return; any number of workers and threads; every interleaving, with exceptions and context switches", "why_tests_cant": "a use after free is silent unless the memory has been reused in that very schedule", "anchors": ["include/libfork/core/impl/promise.hpp final_await_suspend", "include/libfork/core/impl/frame.hpp frame", "include/libfork/core/impl/awaitables.hpp join_awaitable"]}
