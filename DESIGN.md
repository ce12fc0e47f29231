# A Lean 4 model of libfork

The code modelled is `/repo/include/libfork` (header-only C++20). Nothing is compiled or run; the tie between
model and code is the reading of the code, so every definition in `lean/Verif/**` cites the file and lines it
models and says where it simplifies. `properties.jsonl` has the properties in English, `MANIFEST.json` the theorems
that state each of them, `seeded/LOG.jsonl` the wrong programs the theorems were tried against.

## 1. Trusted base

* Lean 4.33.0's kernel; Mathlib as installed.
* Every property theorem depends on at most the three standard axioms `propext`, `Classical.choice`, `Quot.sound`.
  No axiom is added, no proof is left open, no compiled decision procedure is used (`decide +kernel` evaluates in the
  kernel only, and is used for closed computations: concrete runs shown beside the theorems, and the 256×256 GF(2)
  computations of C31/C32/C40, which are exact and not samples).
* The reading of the C++ source (section 3), and the specifications (section 2) saying what the English says.
* Concurrency: in all modules except `Weak/*` an execution is a sequentially consistent interleaving of single
  shared-memory accesses. `Weak/*` uses the view machine of `Weak/Mem.lean` (RC11: relaxed/acquire/release accesses,
  read-modify-writes with release sequences, acquire/release/seq_cst fences; no load buffering; stores append to the
  modification order, exact for the single-writer and RMW-only locations modelled). Plain accesses are modelled there as cells whose
  accesses must be ordered by happens-before.
* C++ language machinery (coroutine transformation, templates/concepts, object lifetimes, allocators, the OS
  semaphore/thread primitives, `std::atomic::wait`) is modelled by the effect the code relies on.

## 2. Property by property

Style: each model is a small total step function or a step relation; undefined behaviour (a false `LF_ASSERT`, a dead pointer, an
inactive union member) is an outcome of its own, so "no UB" is a theorem and not an assumption. Where the code violates the
property the model keeps the code as it is, the negation is proved by a concrete reachable witness (`*_violates`, or a
named counter-example) and the part that does hold is proved under a name ending in `_partial`.

| id | modules (`lean/Verif/`) | what is modelled and how it is proved |
|----|---------|-----------------|
| C01–C04 | `Deque` | owner and a type of thieves, each atomic access a step; invariant (`Inv*`), simulation (`Sim*`) into the list machine of `Spec` with linearization points; ghost counts for "once" |
| C05 | `List` | pointer heap, CAS loop, exchange, in-place reversal; invariant on the chain; history lists |
| C06–C08 | `Stack` | heap of stacklets, 64-bit sizes that wrap, arbitrary `malloc`; invariant over client histories; `Overflow`: witnesses for C08 on every stack |
| C09–C13, C36, C45 | `Runtime` (C45: `Term*`, `Cost`) | arbitrary task bodies on any number of workers; one invariant per concern (`InvLoc`, `InvQ`, `InvStk`, `InvCount`, `InvLog`, `InvVal`…); `Spec`: legal histories and the serial elision; `Counter`: the 16-bit boundary of C10 |
| C14–C16, C38 | `Except` | the choice of awaitable as a decision table, executed with children throwing concurrently; invariant; witnesses |
| C17 | `Core/Eventually` | all five template kinds; induction over operation sequences |
| C18 | `Core/Future*` | operations of one user thread against the root task; invariant |
| C19, C20 | `Core/Tls` | failure injected at every allocation point; case analysis and witnesses |
| C21, C22 | `EventCount` (+`Wrap`) | the 64-bit word, any number of threads; invariant, fairness; the 2^32 boundary as a concrete run |
| C23–C25, C39 | `LazyPool` | worker loop, submissions, destructor; invariants (`Inv*`), liveness under weak fairness (`Live*`, `Fair`) |
| C25, C37 | `Pool` | busy_pool and unit_pool; same technique |
| C26–C28, C30 | `Algo/{Lang,Model,Props,…}` | programs with seq/par over a memory; every interleaving equals the serial run because footprints are disjoint; induction on length. `Algo/ThrowMap`: map and for_each again with a frame per task that holds the pending exception, simulated by the programs without frames |
| C29, C30 | `Algo/Scan*` | both sweeps for every outcome of the sync forks; induction; footprints |
| C31, C32, C40 | `Random` | 4×64-bit state; minimal polynomial over GF(2) computed in the kernel, order via the factorisation of 2^256−1 with Pratt certificates |
| C33, C34 | `Numa` | distance matrix, distribute, victim tables, try_steal; list induction |
| C35 | `Types/SafeRef` | types as base/const/reference kind, the traits as a decision function; case analysis, witness |
| C41, C44 | `Weak/{Model,Inv*,Sim*,Props,Bug,Publish}` | the deque on the view machine; simulation to the list machine; witness for the relaxed store of the buffer |
| C42 | `Weak/LazyPool` | lazy_pool's counters on the view machine; witness |
| C46 | `Weak/Ev*` | event_count on the view machine: chain of read-modify-writes, causally closed views, eligibility as in [atomics.wait]; invariant over any number of threads |
| C47 | `Weak/ListModel`, `Weak/ListProps` | the intrusive list on the view machine; step-by-step refinement to `List/Model` (whose loads may return outdated heads), ownership invariant per node for the races, views for publication |
| C48 | `Algo/ThrowModel`, `Algo/ThrowLemmas`, `Algo/ThrowProps`, `Algo/ThrowBug` | fold and scan with a frame (pending exception) per task; a type-and-effect style invariant (calm / pending) preserved by every step gives propagation; simulation with `Algo/Model`, `Algo/ScanModel` gives the results; false in general, shown by witness executions and by an invariant that every throw of an asynchronous operator in a chunk ends in a failed assertion |
| C43 | `Weak/Join*` | `join` and the last child on the view machine; invariant on views |
| C49 | `Weak/ExcModel`, `Weak/ExcProps` | m_except and m_eptr as two cells of the join model; every step is one or two steps of the join model, so C43 applies; invariant: flag, storage and pending constructor against the list of captures |
| C50 | `Weak/StartModel`, `Weak/StartInv`, `Weak/StartViews`, `Weak/StartStep`, `Weak/StartReach`, `Weak/StartProps` | constructor, worker prologue and epilogue and destructor on the view machine; counting invariant for the latches, view invariants for what each thread knows of every context and of every read of it; progress by a measure |
| C51 | `Pool/ObjModel`, `Pool/ObjProps` | pool objects, their shared state and threads as a state machine over arbitrary operation sequences; outcomes ok, undefined, terminate, hang; ownership invariant; refinement of a specification of legal programs |
| C52 | `Stack/CoNewSpec`, `Stack/CoNewModel`, `Stack/CoNewLemmas`, `Stack/CoNewProps` | coroutine bodies as programs over the heap model of `Stack`, other workers' stack operations interleaved; object lifetimes as a trace replayed by a separate specification; structural induction over the body |
| C53 | `Weak/FutModel`, `Weak/FutInv`, `Weak/FutStep`, `Weak/FutProps` | caller and task on the view machine, with the semaphore, the reference count, the result and ghosts for every use of the shared state and of the caller's data; invariant over the lengths of histories and views; the race of late destructors as a concrete run |
| C54 | `Weak/SleepModel`, `Weak/SleepInv`, `Weak/SleepProps`, `Weak/SleepExample` | the sleep protocol of `lazy_work` on top of the event count's machine (C46): each step is a step of that machine, so its no-lost-wakeup theorem applies once the snapshot before the notifying call is known; everything else a thread does is an arbitrary access to other memory |
| C55 | `Compose/Model`, `Compose/Agree`, `Compose/Forward`, `Compose/Backward`, `Compose/Props`, `Compose/Exec`, `Compose/Example` | the runtime of C09 with each queue operation replaced by a call to the deque machine of C01-C03; backward simulation to the runtime over the specification of the deque (who wins the race for the last item is known only later), then forward simulation to the runtime of C09 (push at its call, pop at its return, steal where it takes effect); the histories are identical |
| C56 | `Exn/Model`, `Exn/Spec`, `Exn/Oracle`, `Exn/Base`, `Exn/Slot`, `Exn/Rel`, `Exn/SimPlain`, `Exn/SimJoin`, `Exn/SimTask`, `Exn/Sim`, `Exn/Props`, `Exn/Example` | the runtime of C09 with task bodies that throw; forward simulation to the runtime of C09 running a translated program, whose states carry an oracle for what the original learns from the schedule (which fork fails, what a sync fork answers, which exception a join rethrows); the oracle of a task is chosen backwards from the end of the execution |
| C57 | `Whole/Model`, `Whole/Base`, `Whole/Inv`, `Whole/Evo`, `Whole/Roots`, `Whole/Live`, `Whole/Rest`, `Whole/Return`, `Whole/Props`, `Whole/Exec`, `Whole/Example` | product of the pool of C23-C25 and the runtime of C09, with the threads that call `sync_wait`: the worker's `resume` is the runtime, its thefts are the runtime's, the lists are shared. Each step projects to a step (or none) of either machine, so safety comes from both; liveness: the runtime's steps are bounded in number by the serial cost (C45), after the last one the pool runs alone and fairly, so by C23 nothing is left in a list, so all tasks have returned |
| C58 | `Whole/Model`, `Whole/Props`, `Whole/Example` | same model: using the generator while another thread does is undefined; witness, and everything else proved |
| C59 | `Exn/TermSpec`, `Exn/Term`, `Exn/TermProps`, `Exn/TermExample`, `Runtime/Closed`, `FairStop` | steps the runtime without exceptions knows are bounded by C45 through the refinement of C56; the others (a fork, call or switch throws, a switcher has nothing to do) are bounded because every task is in a state that occurs in a serial elision (`Closed`), from which only `n` operations can fail in a row |
| C60 | `WholeX/Model`, `WholeX/Sim`, `WholeX/Shadow`, `WholeX/Props`, `WholeX/Exec`, `WholeX/Example` | product of the pool and the runtime with exceptions; every execution refines one of C57 for the translated program of C56, with the prophecy of what fails; a fair infinite execution has a fair shadow because only finitely many steps are inside tasks (C59), so the prophecy can be fixed backwards from the last of them |
| C61 | `Mem/Model`, `Mem/Spec`, `Mem/Rel`, `Mem/Rel2`, `Mem/Sim`, `Mem/Sim2`, `Mem/Props`, `Mem/Example` | the runtime of C56 with tasks that load and store; forward simulation by the fork/join machine `FJ` |
| C62 | `Mem/Serial`, `Mem/Commute`, `Mem/Commute2`, `Mem/Order`, `Mem/Order2`, `Mem/Runs`, `Mem/Foot`, `Mem/FootProof`, `Mem/FootReach`, `Mem/Determ`, `Mem/Example` | steps of different tasks without a race commute, so the next step of the serial order can be moved to the front of any execution, by induction on its length; the footprint rule by an invariant over the tree of live tasks |
| C63 | `Par/Model` (every program of `Algo/Lang` as tasks of `Mem/Model`), `Par/Foot`, `Par/Ser`, `Par/Props`, `Par/Example`, `Mem/Frame` | the tasks keep the footprint rule because the program is race free, so by C62 every execution has the outcome of the serial one; the serial execution of the tasks is the serial run of the program, by induction on it; then C26 to C28 |
| C64 | `WholeM/Model`, `WholeM/Log`, `WholeM/Sim`, `WholeM/Props`, `WholeM/Par`, `WholeM/Exec`, `WholeM/Example` | product of C60's pool and callers with C61's memory; erasing the accesses gives an execution of C60 (termination, progress, destruction), erasing the pool one of C61 (memory), where the submissions are those of the calls, in order; then C62 and C63 |
| C65 | `Sync/Model`, `Sync/Spec`, `Sync/Fj`, `Sync/Fj2`, `Sync/Hot`, `Sync/Props`, `Sync/Example` | `sync_outside` forks on top of C61's runtime; the program is compared with one (`seen`) that joins after a yes; typed invariant on the fork/join machine (no child throws, each returns what its parent expects) shows the return object is written; invariant on the runtime (a task about to be told yes has not been stolen) shows the counters and stacks are those of no scope, so that the join that is not there would do nothing |
| C66 | `Scan/Model`, `Scan/Spec`, `Scan/Tree`, `Scan/Ser`, `Scan/Run`, `Scan/Type`, `Scan/Cells`, `Scan/Props`, `Scan/Example` | `scan`'s coroutines as tasks of C65's runtime, one memory access at a time, with the runtime's own answers to the `sync_outside` forks; typing of the returned iterators (no assertion fails), footprints (no race, C62), and a run by one thread is a run of C29's model for some answers |
| C67 | `Busy/Model`, `Busy/Step`, `Busy/Inbox`, `Busy/Eff`, `Busy/Inv`, `Busy/Sim`, `Busy/Props`, `Busy/Live`, `Busy/Par`, `Busy/Exec`, `Busy/Example` | product of the worker loops of the pools of C25 and C37 with C61's runtime and memory, the callers and the destructor; invariant: a worker past its final drain has an empty context, and nothing is submitted after `stop` (tasks are still); erasing the pool gives an execution of C61; liveness by `Fair` (finitely many runtime steps by C59, then a rank on each worker's way out) |
| C68 | `Early/Order`, `Early/Props`, `Early/Calls`, `Early/Par`, `Early/Algo`, `Early/Example` | executions of C61's fork/join machine are coloured by the root a step belongs to; steps of unfinished roots commute to the end, after those of finished ones (as in C62, but with an open end); the rest is erased by C61's refinement, then C64's and C67's |
| C69 | `Space/Spec`, `Space/Leaf`, `Space/Origin`, `Space/Props`, `Space/Pool`, `Space/Par`, `Space/Example` | from the runtime's invariants: a frame that no worker is busy with and that is in no submission list has an unfinished child, so every frame is an ancestor of one of N + waiting leaves; ancestors of a task are nested tasks of a serial execution (an invariant on how tasks come to be); for the algorithms the nesting is bounded by halving |
| C70 | `Stack/Space`, `Stack/Amort` (and the `snug` field of `Stack/Rep`) | invariant: each stacklet was entered by an allocation that did not fit on the one below, is at least twice and, up to that allocation, at most eight times as large; geometric sums; the number of mallocs by a potential (what lies on the top stacklet if it has no spare, and below stacklets that will be trimmed) |
| C71 | `Cactus/Model` (the runtime of `Exn/Model` on the stacks of `Stack/Model`, one heap), `Cactus/Spec` | simulation: an invariant ties the list of frames of each abstract stack to a chain of stacklets (allocations, recorded stacklets, who holds which), except for workers that have given their stack away; every step of `Exn` and what the code does to stacks in it preserve it (`View`: the stack operations, `Sim`/`Step`: the runtime's); memory from C69 and C70 |
| C72 | `Hb/Model` (the runtime of `Mem/Model` with a vector clock for each worker, thread, queue entry, submission, join counter and semaphore, and beside it the order of the program), `Hb/Spec` | invariant: what the program puts before a task's next step is known to the worker that has it, or published where the next worker finds it (`Inv`, `Moves`, `Step`, `Run`); what the children that have ended did is published in the join counter or known to a worker about to do so; log of all steps for the statements about pairs of them (`Tree`..`Tree3`) |
| C73 | `Hb/Model`, `Mem/Spec` (RaceFree: no state of the fork/join machine has two tasks that are about to make conflicting accesses), `Hb/ReadSpec` | invariant (`DataRace.Main`): for each access of the past there is a reachable state of the fork/join machine without it and without what comes after it, but with all the rest (`Cut`, `OrdClosed`, `Follow`, `Race`); so a later access that conflicts and does not come after it would be a race there; happens-before then by C72. Induction on the trace: every load reads the last write that happens before it (`Reads`) |
| C74 | `Hb/Model` with the tasks of `Par/Model`; `Hb/Outside` (the same on `Sync/Model`) with those of `Scan/Model` | the footprints of C63 and C66 give race freedom, then C73; executions with order are executions without it, so C63 and C66 give the values; every task is below a submitted one (`Whole`) |
| C75 | `Own/Model`: `Hb/Model` with a record of the stacks each step uses | invariant: the owner of a stack knows all its uses; those of a stack without owner have been published with the task on top of it, in its join counter or in the submission list (`Own/Inv`), with who owns what from `Runtime/InvStk` |
| C76 | `Fld/Model`: `Hb/Model` with a record of the members of frames each step reads, writes or uses atomically | invariant: every access to a member is of the task itself or of a child of it; what only the task may write it writes when all its children are gone, and what children may use it uses after the join or before the fork (`Fld/Inv`); the rest is C73's happens-before |
| C77 | `EventCount/Model`, ghost field `out` | a thread's knowledge that the condition is true comes only from a look at it; induction over the execution since the call (`EventCount/Await`) |
| C78 | `Fld/Model` | every frame a step uses is that of a task whose token is somewhere (`Hb/Inv`, `Runtime/InvLoc`), a task that has ended has none (`Runtime/InvLog`) |

## 3. What is modelled and what is not, file by file

* `core/ext/deque.hpp` – all operations. Simplified: indices are unbounded integers (overflow needs 2^63 pushes); in `Deque`
  the copy loop of `resize` is one step, in `Weak` one step per iteration; the garbage vector is part of the step.
* `core/co_alloc.hpp` – all. Element constructors may throw, destructors do not; a coroutine's frames are on one stack.
* `core/ext/list.hpp` – all. Nodes may be destroyed by the consumer's function and their addresses reused.
* `core/impl/stack.hpp` – all operations, platform constants of a 64-bit ABI. `malloc` is an arbitrary function meeting
  the C library's contract. Clients are last-in first-out.
* `core/impl/awaitables.hpp`, `promise.hpp`, `frame.hpp`, `ext/resume.hpp` – fork, call, join, switch, final suspend, in
  `Runtime`: work queues are atomic lists (justified by C03), stacks are lists of frames (justified by C71: `Cactus` puts the runtime on the real segmented stacks), one
  access to shared memory per step. Exceptions are in `Exn` (the whole runtime; flag and pointer of a frame are one cell), `Except` (choice of awaitables,
  capture step by step), `Weak/Exc*` and `Algo/Throw*`, not in `Runtime`; `co_new` blocks are in `Stack/CoNew*`.
  In `Runtime` a queue operation is one step; in `Compose` it is a call of `Deque/Model` (sequentially consistent) that overlaps with
  everything else. The composition with the deque on the view machine (`Weak`) is not modelled. `Mem` adds memory the tasks share to
  `Exn`, sequentially consistent; a task body is any function to actions, so user code between two suspension points is any sequence of accesses.
  `Sync` adds `sync_outside` forks; simplified: a task that is told that its child has completed reads the return object at once.
* `core/eventually.hpp`, `core/sync_wait.hpp`, `core/ext/tls.hpp`, `core/just.hpp` (its outcome) – as in the headers of
  their models. `Future`: one user thread, since a future is not a thread-safe object.
* `core/ext/context.hpp` – submission and `try_pop_all` in the pools; the notification callback in `LazyPool`.
* `schedule/ext/event_count.hpp` – all; `atomic::wait` is a loop of load-and-block steps with spurious wake-ups.
* `schedule/lazy_pool.hpp`, `busy_pool.hpp`, `unit_pool.hpp` – worker loops, submission, destructors. `Pool` and `LazyPool` start
  after the start-up latch, `Weak/Start*` has start-up and shut-down; whether a steal finds work is arbitrary; a resumed task suspends or returns.
  `Whole` has `lazy_pool` after the start-up with `sync_wait` and the runtime in its workers, `WholeX` the same with exceptions, `WholeM` with exceptions and shared memory. `Busy` has `busy_pool` and `unit_pool` after the start-up, with the same runtime, exceptions and shared memory, and the destructor at any time.
* `schedule/ext/random.hpp` – all except seeding from another generator.
* `schedule/ext/numa.hpp`, `schedule/impl/numa_context.hpp` – everything computed from hwloc's answers, which are
  parameters. Binding and hwloc itself are not modelled.
* `algorithm/{map,for_each,fold,scan}.hpp` – the recursions. User functions are atoms that may throw; `Algo/Throw*` has the frames that hold the exceptions. In `Par`
  map, for_each and fold (synchronous functions) are tasks of `Mem`: every access of every task is a step of its own, and what is called `par` in `Algo` is
  the real fork, call and join of the runtime; in `Scan` so are the tasks of scan, on top of `Sync`, with the real `sync_outside` forks.
* Memory orders: `Weak/*` and `List` treat single objects on weak memory (C41–C44, C47). `Hb` puts the runtime together with exactly the
  synchronises-with edges that these give: push/steal, submission/`try_pop_all` (consume taken as acquire), decrements of a join counter
  and the load or decrement that finds it complete, semaphore. All else gives no order. The assertions' loads of the counter are left out; a fork or call that fails
  creates no frame. Values are those of a sequentially consistent memory; for programs without races C73_reads shows that happens-before allows
  no others (so the usual theorem on data-race-free programs is proved here for this runtime; that the user's accesses are all the non-atomic accesses is the model's). `Own` adds the accesses to the stacks' own bookkeeping, the runtime's largest piece of plain shared memory (C75), and `Fld` those to the members of the frames (C76).
* `core/impl/safe_ref.hpp` and `safe_fork` in `promise.hpp` – as decision functions.
* Not modelled at all: `core/invocable.hpp`, `core/first_arg.hpp`, `algorithm/constraints.hpp` and the other concepts (they only
  reject programs at compile time), `impl/combinate.hpp` (packs arguments), `algorithm/lift.hpp`, `core/macro.hpp`, logging, `extern.hpp`,
  `schedule/ext/handle`-type aliases.

## 4. Where the code does not do what a user would expect

Each of these is a theorem about the model of the unchanged code unless marked (reading).

* C08: `round_up_to`, header addition and `co_new`'s `count * sizeof(T)` wrap; a huge request gets a short block.
* C10: 65535 forks in one scope wrap the 16-bit join counter; a task is resumed twice.
* C15: `promise.hpp:217` selects the rethrowing awaitables for exactly the wrong return addresses.
* C19: if the scheduler's `schedule()` throws, clean-up runs against a stack that was already given away.
* C20: `worker_init` swallows `bad_alloc` of the stack.
* C21: 2^32 notifications between `prepare_wait` and `wait` lose a wake-up.
* C35: `promise.hpp:397` accepts `int&` for `double const&` although that binds to a temporary.
* C39: `schedule` from outside may touch a `lazy_pool` after its destruction (`Example.late_unsafe`).
* C41/C44: the new buffer is published with a relaxed store (`deque.hpp:395`); harmless on x86.
* C42: `lazy_pool`'s two counters are a store-buffering pattern with acquire-release orders only.
* C48: consequence of C15: an asynchronous operator of `fold`/`scan` that throws makes `final_suspend`'s assertion fail; `scan` reads an
  uninitialised iterator after a left child that threw.
* C65: for the same reason a task whose `sync_outside` child throws is told that the child has completed, and finds nothing in the return
  object (`Sync.throw_matters`).
* C51: the destructor of a moved-from pool dereferences null (`busy_pool.hpp:204`, `lazy_pool.hpp:385`): no program that moves a pool ends
  properly. Assignment to a running pool, and `bad_alloc` at `busy_pool.hpp:187`, call `std::terminate`. `lazy_pool(0)` reads past the end.
* C53: a root task's parameters are destroyed after its semaphore was released (`promise.hpp:339-340`), so their destructors race with a
  caller whose `sync_wait` has returned.
* C58: `lazy_pool::schedule` and `busy_pool::schedule` draw from a plain random number generator: concurrent calls are a data race
  (`Whole.Example.C58_generator_race`). `unit_pool` and `worker_context::schedule` are not affected.
* C71: between the decrement of the join counter (or the submission of a switching task) and `release()` the worker's stack object still points to a stacklet that
  others use and may have freed (`Cactus.Example.window`). It is proved never to be dereferenced; but `release()` may throw, in a `noexcept` function: if `malloc` fails
  there the program is terminated (`Cactus.Example.refuses`), although no user code could have caught the failure earlier.
* A `lazy_pool` destroyed before a submitted job was started drops the job (`Example.dropped`; documented precondition).
* Move-assigning over a pending `future` drops it without waiting (shown in `Core/FutureProps`).
* (reading) `resume_on_quasi_awaitable`'s constructor takes `worker_context*` although its member is a `Sch*`.
