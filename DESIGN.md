# Formal model of sharedstructures in Lean 4 — design

The source is `/repo/src` (C++). Nothing of it is built or run; the model was written
by reading it, and every definition cites the file and lines it models.

## 1. Layers

| module (lean/Verif/…) | what it is |
|---|---|
| `Mem` | byte memory, little-endian integers, read-over-write lemmas |
| `Prog` | programs as trees of single memory accesses (free monad), outcomes `ok / err / ub` |
| `Heap` | abstract block heap: what a *lawful allocator* offers (`alloc`, `free`, `block_size`, access inside a live block). Demonic weakest precondition `wp`: the allocator may return any fresh block with any contents or fail at any allocation; access outside a live block, double free etc. are `ub` and make `wp` false |
| `Pool` | the raw pool: bytes, file size, `max_size`, OS limit |
| `Simple*` | SimpleAllocator as a raw program over pool bytes; invariant; simulation "any heap program run over SimpleAllocator behaves as `wp` says" |
| `Logarithmic`, `LogArith/Inv/List/Merge/Fill/Alloc/Pop/Expand/Ops/Init/Live` | LogarithmicAllocator as a raw program over pool bytes: ghost tiling of the arena into aligned power-of-two blocks, free lists, coalescing; client histories `LHist`. `print` is not modelled |
| `LogFixed`, `LogSim`, `LogSized`, `PropsLogStruct`, `PropsLogStructRuns` | the structures on a LogarithmicAllocator: `lcompile` translates a structure method to accesses of the pool's bytes; simulation, request sizes, results and witnesses |
| `PropsVerify`, `LogVerify`, `PropsLogVerify` | Queue::verify and LogarithmicAllocator::verify: what they accept, and what their acceptance means on arbitrary bytes |
| `Lock`, `LockProof`, `LockInv`, `PropsLock`, `PropsLockLive` | ProcessLock / ProcessReadWriteLockGuard as an interleaving transition system with process deaths; per-thread weakest precondition with ghost state; system invariant; C15–C19 |
| `Conc`, `PropsConc` | the pool as the memory protected by the lock; concurrent calls of a structure that refines a specification sequentially |
| `ConcCrash`, `PropsCrash` | the same with process deaths: `concurrent_calls_crash` for every structure with a crash specification (`Crashable`), instance PrefixTree |
| `Opening`, `OpeningStays`, `PropsOpening` | constructors with base_offset 0: the two critical sections (look, create), lifted over any structure (`Openable`), with and without deaths |
| `Queue*`, `PrioQueue*`, `AtomicVec*`, `HashTable*`, `PrefixTree*` | structure models (programs over the abstract heap) and proofs |
| `WpI` | weakest precondition with an invariant that holds before every memory access (crash points) |
| `Guarded`, `ReadOnly` | histories whose calls are guarded by the specification's state; programs that write nothing (calls made under the read lock) |
| `PrefixTreeTree/Follow/Codec/Grow/Make/Store/Incr/Ops/Erase/Clear/Order/Next/Iter/More/Nodes/Bytes/Step/Crash` | PrefixTree: ghost tree `G` and representation `Tr`; each method's specification over it; `Step` collects them into the specification `PT.Spec`; `Crash` gives what every crash point leaves |
| `Python`, `PropsPython`, `PropsPythonMore` | Python value encodings, Python classes PrefixTree, HashTable, Queue |
| `PropsLockOrder`, `Linear`, `PropsLinear`, `PropsLogConc` | program order and real-time order of concurrent runs; linearizability of the structures on both allocators |
| `PropsLockFair`, `PropsLockReuse` | waiting for the lock (C77), reuse of process ids (C78) |
| `PrioQueueCrash`, `PropsPrioQueueCrash` | PriorityQueue calls cut at any access |
| `ConcGuard`, `PropsReaders`, `PropsLogReaders`, `PropsCrashMore` | several processes with deaths, for structures that a death can damage: what holds until the damage is used (C55), deaths of readers (C81) |
| `Observe`, `PropsObserve` | is_locked and reader_count (C82) |
| `Client`, `PropsClient` | clients that choose each call by the outcomes before (C34, C42, C46) |
| `PyIter`, `PropsPyIter` | iterators of the Python class PrefixTree (C83) |
| `PrefixIov`, `PropsPrefixIov` | PrefixTree::insert with struct iovec (C84) |
| `PrefixStructure`, `PrefixStructureInj`, `PropsStructure` | get_structure and the injectivity of its text (C98) |
| `LockTrace`, `ConcDurable`, `PropsDurable` | one history with program order for runs with deaths (C85) |
| `OpenSys`, `PropsOpen` | threads that choose their calls as they go (C86), shared counters (C87) |
| `ManyOpen`, `PropsManyOpen` | all structures of a pool at once, made and used by threads of processes that may die (C88) |
| `PropsDelivery` | what is pushed to a queue and popped from it by processes that may die (C89) |
| `PropsPrioDelivery` | the same for priority queues (C90) |
| `PyHashIter`, `PropsPyHashIter` | iterators of the Python class HashTable (C91) |
| `PropsTickets` | counters, tickets and flags on AtomicVector (C92) |
| `PropsLease` | a lock made of conditional calls on PrefixTree (C93) |
| `PropsGuard` | data protected by a lock made of conditional calls (C97) |
| `PropsSpinLock` | a spin lock made of a bit of an AtomicVector (C94) |
| `PropsCasLoop` | lock-free updates with compare_exchange (C95) |
| `PropsLogOpen` | sessions on a LogarithmicAllocator (C96) |
| `Props*` | the property theorems `Cnn_*`, their specifications, non-vacuity examples |

A data-structure theorem is proved with `wp` for *every* lawful allocator behaviour;
the simulation theorem then carries it to the byte level over SimpleAllocator.

## 2. Conventions

* **Undefined behaviour is an outcome** (`ub`): a read or write outside a live block, `free` or
  `block_size` of something not live, access beyond the mapped pool. "No ub" is part of every positive theorem.
* **Exceptions** are the outcome `err e`.
* **Loops** over linked data take a fuel argument; running out of it is its own failure (`ub` for `wp`), and the
  theorems show that it is never reached when the fuel is at least the number of nodes.
* **Integers**: offsets and sizes are `Nat`; stores truncate to 64 bits; wrap-around is modelled where
  the code's behaviour depends on it (`Pool::expand`, `allocate`, order arithmetic, AtomicVector, `incr`, value codecs).
* **False properties.** Several properties are false of the code. For those the negation is proved with a
  concrete witness (`Cnn_…_false`), and the strongest true part is proved as `Cnn_…_partial`.

## 3. Property by property

| id | modelled | proof |
|---|---|---|
| C01 | `Pool::expand` on bytes | case analysis + arithmetic |
| C02 | same; **false**: expand to a smaller size throws if the pool already exceeds this opener's max_size, and sizes within a page of 2^64 wrap | witness + partial |
| C03 | map_and_* address computation; **false** for offsets ≥ 4096 | witness + partial (first page) |
| C04–C06, C10 | SimpleAllocator allocate/free on bytes | representation invariant (chain of blocks), induction over histories |
| C07 | **false**: block within 24 bytes of the end is never freed | witness + partial |
| C08 | best fit search | loop invariant |
| C09 | every prefix of the memory accesses of allocate/free, followed by repair | weak (crash) invariant closed under every micro-step |
| C11 | wrap of `size+31`; **false** near 2^64 | witness + partial |
| C12 | order functions, header packing | arithmetic |
| C13, C14 | LogarithmicAllocator; **false** (allocate(0); expansion delete loop) | witnesses + partial |
| C15–C18 | lock words, guards, crashes, stealing | inductive invariants of a transition system; assumption: pids are not reused |
| C19 | programs interleaved at memory-access granularity under the guards | forward simulation to a serial execution; program order by a trace predicate on thread programs (`ow`, PropsLockOrder.lean); `Linear` (Linear.lean) is the specification for method calls |
| C20–C22, C24 | Queue methods | refinement to `List` |
| C23 | every crash point of every Queue method; **false** between the two link stores (forward chain new, backward chain old) | `wpI` with the crash set `Cr` at every access; witness + partial with all later histories |
| C25–C28 | PriorityQueue methods; C28 **false** (old array leaked) | heap invariant, refinement to multiset; witness |
| C29–C31, C33 | AtomicVector | `BitVec 64` per element; interleavings of atomic steps |
| C32 | concurrent expand; **false** (stale view shrinks the file) | witness schedule + partial |
| C34–C40 | HashTable methods for an arbitrary hash function; C35, C37 **false** | refinement to a map; witnesses + partial |
| C41 | tagged 64-bit contents | bit arithmetic |
| C42–C52 | PrefixTree methods; C43, C44, C45, C47, C50, C51 partly **false** | refinement to a map through a tree-shaped representation predicate; witnesses + partial |
| C54 | LogarithmicAllocator crash points and repair; **false** (crash inside a split) | true part: crash condition `Disk` (the headers describe a tiling) at every crash point of free, exact-fit allocate and repair; repair rebuilds the lists from the headers (LogRepair, PropsLogCrash); witness for the split |
| C55 | interleaved calls under the lock with deaths at any access, repair after a stolen lock | forward simulation to a sequential history with deaths |
| C56 | the constructors' two critical sections interleaved with all other calls, base object offset in the heap model | the structure specification lifted to `Option (base, state)`, then C19/C55's theorems; Queue: kernel-evaluated counterexample for deaths |
| C57 | `bytesFor`, `bytesForPrefix` | weighted sum over the ghost tree, then compared with the sizes of the heap blocks outside the frame; three kernel-evaluated counterexamples |
| C58, C59 | iterators as programs over whole calls (`CallProg`); call i runs on an arbitrary heap that holds some table / tree; C59 **false** if the current key is erased | induction over the calls; `inline` shows the loop is the one of C38; kernel-evaluated counterexample |
| C60 | Queue::verify | soundness by inversion of a normal run on arbitrary bytes; completeness from the representation invariant; after a crash by cases on the crash states of C23 (PropsVerify) |
| C61 | LogarithmicAllocator::verify | soundness by inversion of a normal run; completeness from the tiling and free-list invariants (LogVerify, PropsLogVerify); witness for a free block on no list |
| C62 | the structures on a LogarithmicAllocator | simulation of the heap model by the pool's bytes (`lsim`), for methods all of whose requests the allocator serves lawfully (`Good`: at most a page, or a pool that cannot grow); every request of every method is bounded syntactically (LogSized); witnesses for larger and for empty requests |
| C53 | Python objects as typed values, the two encoders and the decoder, the methods of the Python classes PrefixTree, HashTable and Queue as calls of the C++ methods; marshal is a pair of functions with load (dump v) = v, dump depending also on the state of the interpreter. **False** for check_and_set with empty bytes | round-trip lemmas; dictionaries of objects (`TSpec`, `HSpec`, `QSpec`) as a data refinement of the C++ specifications; witness |
| C63–C65 | the cost of a call: `counted p` is the program `p` with counters (allocations, frees, accesses, copied bytes) that change neither its outcome nor its effect (`counted_run`) | bounds over all paths whatever is read (`HEvery`) where the code has no data-dependent loop; otherwise the counting weakest precondition `cwp` along the representation invariant, with log2 of the heap index decreasing in the sift loops; for the hash table the partial-correctness version `cev` (any lawful allocator, executions that return or throw), which needs no in-bounds proofs and is joined to the functional specification by `cev_and` |
| C66 | `Py.icall`: argument parsing, call of AtomicVector<int64_t>, conversion of result and exception (PyVector.lean) | refinement of a list of `Int` (`ISpec`), on top of `AtomicVec.call_refines`; induction over the calls |
| C67 | `Py.pqcall` (PyPrio.lean): the methods of the Python PriorityQueue; the packing of priorities | refinement of a multiset of pairs on top of C25; big-endian encoding and UTF-8 are order embeddings (induction) |
| C68 | `viewed`/`remapped` (View.lean): the length of the mapping is a variable of the thread, an access beyond it a fault; check_size_and_remap after lock() and in expand | simulation: a mapping that is up to date after lock() stays so; then the concurrency theorems for arbitrary bodies (ViewConc.lean) |
| C69 | `PProg`, `pointed` (Ptr.lean): methods over explicit pointers (Pool::at<T>); a pointer fetched before the mapping was replaced faults; PtrMethods.lean: every allocating method with its pointers | `Clean` (no pointer is used after a later allocation) for each method, by rewriting to the offset-level program; soundness of `Clean` by simulation; false of HashTable::incr (witness), with a simulation up to growth (PtrSim.lean) |
| C70 | `SProg`, `Sys`, `Step` (PoolFs.lean): constructor and delete_pool as programs of system calls over a table of names and files; threads interleave at every system call; `bad` lets any call fail | exact sequential effect (iff, `opens`); invariants of positions (PoolFsInv.lean) and of names (PoolFsNames.lean); false under failing system calls (EMFILE unlinks an existing pool's name; witness), creation race (witness, documented) |
| C71 | `counted` (Cost.lean) runs the PrefixTree model with a counter of accesses, bytes, allocations and frees; `PT.Bound` (PropsCostPrefix.lean) is the README's table with explicit constants | `cev` (CostSem.lean), a counting logic over the heap: path induction for traverse/insert/erase, `Tr` gives that every subtree of a clean tree has a key, so that a search never looks into more than one subtree per level |
| C72 | `rcounted` (Cost.lean) runs the allocator models (Simple.lean, Logarithmic.lean) with counters of pool accesses and ftruncate calls | `rcev` (CostRaw.lean), a counting logic over pool bytes, used together with the allocators' specifications: the search walks the block list once; merging costs 9 accesses per order gained, and the merged tile of order k lies in the pool, so 2^k is at most its size; create_free_blocks' orders first strictly increase, then strictly decrease |
| C73 | the processes of C29-C33 (AtomicVecSys.lean), one access at a time; `Takes` (AtomicVecWait.lean) counts one process's steps within a call and the others' changes of the size | at most `m` steps remain (`Plain`), by recursion on the program; for expand, at most 11 to the next compare-and-swap (`Aim`), which can only fail if the count has changed since it was last read; no step changes the count and keeps it |
| C74 | the invariant of HashTable (RepD, HashTableProof.lean) allows a set of damaged slots about whose contents nothing is known; `perform` (PropsHashTableCrash.lean) runs a list of calls and deaths on the bytes of the pool, with the allocator's repair after each death | every call keeps the invariant for the slots its keys are not in (`stepD`); at every access of a call the heap differs from the one before only in the slot of its key, the blocks that slot owned, and new blocks (`Near`, `pal`, HashTableCrash.lean), so the slot can be declared damaged; carried to bytes by `sim_crash`. Not covered: a death in clear; calls on damaged slots, which go wrong (`C74_needed`); a death in a call that would have returned false loses nothing (`Op.idle`) |
| C75 | a `Kind` of structure (Many.lean) is its constructor, its methods, its specification and what a death in a call leaves; clients are trees of actions (make, call, die in a call, die in a constructor) that branch on the answers; `perform` carries them out on the bytes of the pool, with the allocator's repair after each death. The kinds of the library are in PropsMany.lean: the four structures and direct users of the allocator | a frame rule for heap programs (`wp_frame`, `always_frame`, Frame.lean): a program that runs on some blocks runs the same way beside any other blocks and leaves those; every block has at most one owner (`Good`); induction on the client; carried to bytes by `sim_run`/`sim_crash`; for concurrent use by the serialization theorems of C19 and C55 (ManyConc.lean). In the form with concurrent deaths only prefix trees and the allocator are called, as in C55 |
| C76 | `Simple.init`/`Logarithmic.init` and the allocators' repair, on pools whose header words are zero; `Dead` (PropsBoot.lean) is any number of deaths in the constructor, or in what the next process does: constructor and repair | an invariant on the header's words that every access keeps (`Part`), `rwp_crash`; the final pool is byte for byte that of the undisturbed constructor. For LogarithmicAllocator false: a pool and a crash point after which repair fails |
| C77 | the lock model of C15–C18 (`guardRead`, `guardWrite`, `Step`), runs of one thread alone (`soloN`) and runs of all but one (`Others`) | a bound on the guard's own steps (`guardRead_open`); an invariant over `Others` (only the thread with the write lock fills a slot). False as stated: `C77_false`, a reader that once found all 65 slots taken waits for the one in slot pid % 65 although another slot is free |
| C78 | the lock model with process ids that are reused (`RSt`, `RStep` in PropsLockReuse.lean: births of processes) | false on Linux, where a token is the process id alone: an invariant over all later runs shows that nobody gets the lock while the new process lives (`C78_false_recovery`), and a run in which a late compare-exchange robs the new process (`C78_false_exclusion`). Without reuse it is C15/C17 |
| C79 | the methods compiled to the LogarithmicAllocator (`lcompile`) as protected programs of the lock model | `linearizable` with the sequential theorems of C62; false as stated because C62 is (requests over a page, empty items), so with C62's restrictions |
| C80 | PriorityQueue calls cut at any access, repair of the allocator (PrioQueueCrash.lean) | invariants at every access (`wpI`): the array lists the items of the call except that one may stand in place of another; false for deaths in a push onto a nonempty queue and in a pop with two items or more (`C80_false`), all other deaths are harmless, any number of them (`C80_safe_deaths_partial`), and one harmful death is contained (`C80_one_death_partial`) |
| C81 | the interleaving model with deaths; a structure whose calls may depend on its state (`Fragile`, ConcGuard.lean) | `readers_may_die`: any structure with a sequential refinement and reading methods that write nothing; state `none` after a death in a writing call, which does not happen here |
| C82 | the observers as programs of loads that run while the system of C15 goes on (`Watch`, Observe.lean) | a reader that stays inside keeps one slot (`slot_throughout`), different readers different slots; false of readers that died (`C82_false`) |
| C83 | the iterator objects of the Python module as the C++ iterator plus flags (`drain`, PyIter.lean); clients as trees of calls that branch on outcomes (`Client`) | induction over the keys that are left; false for starts off all paths (`C83_false`, from C47) |
| C84 | insert with struct iovec (`insertIov`, PrefixIov.lean): the sum of the lengths, the packing of a short value piece by piece, the copies one after another | the three loops equal those on the concatenation; then the proofs of insert, with the heap-level invariant at every point for crashes |
| C85 | the lock system of C19 with deaths: a ghost trace of operations, ended or cut short, in which each thread's entries follow its program (LockTrace.lean); histories with program order (`Durable`, `Accounts`, ConcDurable.lean) | step invariant: each step of the system extends the trace by at most one entry; an entry becomes a finished call, a call cut short or a repair; the history's prefixes give `Accounts` for every moment |
| C86 | the open system (`OStep`, OpenSys.lean): the steps of Lock.lean, and a thread outside calls begins any call | each open run is, step by step, a run with the lists of the calls made in it (`closed_step`); cutting the lists at a moment shows which calls the history has by then |
| C87 | C86 for PrefixTree with the specification of incr and insert with check | the history of C86; each finished call adds its gain, each call cut short nothing or its amount (`gain_step`, `cut_step`); witness run for t[k] += 1 |
| C88 | C75's pool of structures with ownership of blocks, C86's open system; constructors are calls too | each call works on the blocks of its structure (`wp_part`, `always_part`), so the pool is a structure that deaths can damage (`doing_fragile`), and C86's theorem applies; what is not damaged stays usable (`keeps`) |
| C89 | C86's open system of a queue | from C86's sequential history with deaths, by induction on it: each call adds and removes what it says (`spec_same`), a call cut short does all or nothing of that to the items (`after_same`) |
| C90 | C86's open system of a priority queue | as C89, for multisets (`cut_same`: a call cut short leaves what the queue held, or that with the call done, or one of these with an item twice instead of another); `least` reads off what each pop returned |
| C91 | HashTableIterator of the Python module as the loop that calls __next__ | an iteration shows the buckets in order, each as the list that represents it (`drainHash_spec`, `scan`); calls that only read leave the heap as it is (`wp_still`), so the order stays |
| C92 | as C32: the methods of AtomicVector as single atomic steps, processes that die | from linearizability (C32): invariants of the sequence of effects (`LinRun.keeps`), the effects not yet returned belong to calls in progress (`LinRun.perm`, `LinRun.count`), and a linearization of a history begins with one of its beginning (`LinRun.split`) |
| C93 | open clients on a PrefixTree under its lock (C86): the next call of a thread may depend on what it has seen | the linearization and the memory of C86 at each moment; induction over the linearization: the key has the token of the owner or of a thread cut off inside its erase or insert; a call cut off at a failed check changes nothing (`CutInsert`, `CutErase`) |
| C94 | as C92 | an invariant of the linearization (C32): the bit is set iff exactly one thread has the lock, by the history or by the call it is in (`LinRun.lock`); hence calls on the protected element never overlap (`LinRun.protect`) |
| C95 | as C92 | an invariant of the linearization (C32): the successful exchanges form a chain (`LinRun.chain`); threads that may have died in one (`LinRun.perm`); real time (`LinRun.split`) |
| C96 | as C79 with sessions (C86) instead of given calls | a session without deaths is a run with the calls begun so far (`open_closed`), to which C79 applies at every moment; queue and priority queue facts by induction on the history |
| C97 | as C93 | the value of the key by induction on the history (`guarded_trace`), up to the first write that a thread has died in; such a thread keeps the lock, and two owners exist only if one has died in a release (`leased_trace`), so nobody can read after it |
| C98 | the program of get_structure; its text as a function of the tree (`draw`) | the program returns `draw` by induction on depth and slots (`getStructure_spec`); `draw` is injective: each subtree's text says where it ends (`draw_same`), escaped strings end at the first quote, decimal numbers are evaluated back |

Lock model (C15–C19): every access to a lock word is one atomic step (the code uses sequentially consistent `std::atomic`
operations); `compare_exchange_weak` may fail at any time; `futex_wait` may return either answer at any time; any process may
die between any two steps, and its threads stop; pids are not reused (a process that died stays dead). Retry loops carry fuel: a thread that
runs out of fuel stops for ever where it is, so the safety theorems, stated for all fuel, cover every finite execution. C17
gives step bounds for a thread that runs alone. Protected operations are arbitrary programs over an arbitrary machine
(C19); `poolMach` instantiates it with pool bytes. `Behavior::READ` (used by nobody in the library) is modelled too.

AtomicVector (C29–C33): the element size is a parameter (`sz` bytes, values `BitVec (8*sz)`); every process has its own mapping length
(`view`), remapped only where the code does so, and a touch outside the mapping or the file is a fault. Steps of several
processes interleave at the granularity of single atomic instructions and system calls; `LinRun` (AtomicVecSpec) is linearizability.
The theorems about several processes assume `Polite`: expands overlap neither each other nor an access to an element that does not exist yet.
Without it the property is false (`C32_false`, `C32_access_false`).

Mappings (C68, C69): each thread has a Pool object of its own, as README.md recommends; threads that share one race in check_size_and_remap and are not modelled.
A use of an invalidated pointer is taken to be a fault, although the kernel may put the new mapping at the old address. free does not remap (Pool.hh's warning that it may is
conservative).

Names (C70): a name stands for a path and the flag `file`; one system call is one atomic step; files are touched by the library only, and nobody renames or hard-links them; a file keeps
its contents while the model runs.

## 4. Trusted base

* Lean 4.33.0's kernel; axioms used by the theorems are at most `propext`, `Quot.sound`, `Classical.choice`.
* That the model reads the code faithfully (the citations in each definition).
* Memory is sequentially consistent per access; aligned 8-byte stores are atomic; the compiler does not reorder
  or merge the stores of allocate/free (they are plain stores in the code, so the crash theorems assume this).
* Not modelled: mmap failure after a successful ftruncate, huge sizes of the address space, time (the cost theorems C63-C65 count allocator calls, accesses and copied bytes), the futex
  wait/wake mechanism (only its effect as a retry), CPython object semantics, floating-point addition
  (a parameter), stdout of `verify`/`print`.
