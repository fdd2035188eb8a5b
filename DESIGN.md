# Formal model of wangziqi2013/BwTree — design

Code: `/repo/src/bwtree.h`, `atomic_stack.h`, `bloom_filter.h`, `sorted_small_set.h` as configured in the repository
(`BWTREE_PELOTON` off, `BWTREE_DEBUG` on, `ALL_PUBLIC` on, `USE_OLD_EPOCH` off, `NDEBUG` not defined, so `assert` is active).
Code that only the other configurations compile (ConditionalInsert, the counting epoch manager) is modelled too and marked so. Line
numbers are those of the pinned checkout.

Layout of `lean/Verif`: `Model/` transcribes the code, `Spec/` says what should hold without using the code's algorithms, `Props/` states one
theorem or group of theorems per property (prefix = property id) with concrete cases beside them, `Proofs/` holds everything in between.

## 1. Modelling decisions

* **Keys / values.** `K` is any type with a decidable linear order: `KeyComparator` is assumed to be a strict total order and
  `KeyEqualityChecker` its equality (C35 shows the six derived helpers are then consistent; C35 itself is stated for arbitrary strict weak
  orders). `V` is any type with decidable equality. Hash functions are arbitrary, subject to "equal values hash equally" (C25).
* **Delta chains** are inductive values (`LeafChain`, `InnerChain`): one constructor per delta record type with the payload fields of
  the C++ class. Metadata (`depth`, `item_count`, low/high key pair) is computed by functions that copy what each constructor stores.
* **Concurrent tree** (`Model/Tree`, `Model/TreeSem`). A call is a program over single atomic accesses (load of the root NodeID, CAS
  of the root, load / CAS / store of a mapping entry, NodeID counter, allocation, AddGarbageNode). Any number of threads run any calls; the
  scheduler is arbitrary. Memory is a heap of addresses; a record is stored with the chain it heads and with the addresses written in it (`kids`);
  `C36_records_consistent` proves that the two views agree.
* **Loops** `while(1)`/`goto` take a bound; running out is the outcome `spin`. Theorems hold for every bound, so for every finite prefix of
  every execution. Termination is therefore not claimed.
* **Undefined behaviour / failed assert** is a distinct outcome (`none`, `Prog.fail`, `IProg.ub`), never a default value. Where the
  code does violate a property there is a theorem with a reachable witness, and the property's main theorem is named `_partial`.
* **Memory model.** Sequential consistency at the granularity of single accesses.

## 2. Specification vocabulary (`Verif/Spec`)

`Set`: sets of pairs with insert / delete / lookup. `Lin`: linearizability (Herlihy–Wing) of call/return histories. `Order`: strict weak
orders. `Leaf`, `Inner`: what a chain means (`Has`, `seps`), key ranges, and the chain invariants. `LeafReach`: leaf chains the operations can
build. `Tree`: sibling path, stored set, links, retired addresses. `Iterator`: executions seen by an iterating thread, sweeps.

## 3. Properties

| id | modelled | proved by |
|----|----------|-----------|
| C01 | all of Insert, Delete, GetValue, iterator page reads as programs over atomic accesses | rely/guarantee invariant over all interleavings, commit points, general theorem "commit points ⇒ linearizable"; GetValue fails above a merge record (reachable witness) |
| C02–C04 | leaf chain search, index bookkeeping; whole tree | induction over chains; tree level (`C02_insert_tree`, …): a call during which no other thread runs an update, from the commit record of C01 |
| C05 | predicate search and ConditionalInsert on leaf chains and on whole trees (Model/TreeCond; `BWTREE_PELOTON` only) | induction over chains; on trees after any history of calls that do not overlap, by the total correctness of `Traverse` (C41) and the effect of one CAS on the stored pairs; when the pair is not in the base node the tree left is the one `Insert` leaves, so the sequential theorems go on to hold. Delete records come only from Delete calls (a logic over single programs that ignores the memory, Proofs/TreeLocal), so a pair never deleted is not in the base node unless stored: all histories that conditionally insert only such pairs refine the set specification (`C05_histories_partial`, Spec/Cond). With overlapping calls (Model/TreeCondSem): all histories of all calls are linearizable, by the rely/guarantee proof of C01, into which ConditionalInsert enters as a program up to its CAS and the CAS itself (Proofs/CondRun). Partial: pairs conditionally inserted are not deleted by anyone; else the recorded index breaks consolidation (witnesses on a chain and on a tree) |
| C06, C07, C11 | CollectAllValuesOnLeaf | induction over the chain; merge loop invariant |
| C08 | stack arrays of searches and consolidation, `depth` | induction over the chain; depth of mapped leaves: a second program logic over all interleavings (`Proofs/TreeDepth`); fails for inner nodes (two-thread witness, defect 19) |
| C09, C10 | FindSplitPoint, GetSplitSibling, inner split | list induction, arithmetic |
| C12, C13 | inner chain search, existence search, FindLeftSibling | induction over the chain |
| C14–C17, C32 | iterators as programs that ask the concurrent tree for pages | sweep invariant over page reads; witnesses for Begin() and `--` |
| C18, C19 | iterator handles with reference counts; comparison operators | invariant over operation sequences; witnesses |
| C20, C21 | epoch GC with per-thread records, per-access steps | invariant over all interleavings. Props/Reclaim: once the epoch has advanced and every thread has passed through an operation, 1025 further retirements of a thread free all its older garbage (`C21_bounded_delay`), whatever the others do; for the tree with its collector, everything retired can be destroyed (`C21_tree_reclaims`) |
| C22 | AtomicStack, one producer many consumers, per-access steps | invariant over all interleavings |
| C23, C24, C27 | NodeID counter, inline allocation of delta records, aligned metadata slots | invariants, arithmetic |
| C25, C26, C35 | BloomFilter, SortedSmallSet, comparison helpers | induction |
| C28, C29 | concurrent tree | global invariant |
| C30, C31 | concurrent tree | reachable witnesses, and partial theorems for the rest |
| C33 | the counting epoch manager (`USE_OLD_EPOCH`) | invariant over all interleavings; witnesses for the races |
| C34 | FreeEpochDeltaChain on one chain; on the chains of Model/Tree with the memory in which their records lie (Model/FreeOrder) | induction; for the tree: shape of published chains (`Plain`, Props/KeyRef), and a retired chain with a merge record in an execution with collector (Props/FreeMerge) |
| C36, C37 | concurrent tree with addresses inside records and ownership of every address | ownership invariant: every address has one owner (free, a thread, a mapping entry, another record, the garbage list) |
| C38 | same model | owners also record which thread still has to retire an address; a visible address never becomes invisible, every visible address is classified by its owner, and the calling thread owes nothing when its call ends |
| C39 | same model | the lock of a node names a thread; a thread whose call has ended holds no lock |
| C40 | Model/Destroy: `~BwTree`, `ClearThreadLocalGarbage`, `FreeNodeByNodeID`, `FreeNodeByPointer` as a function of the memory left behind by the concurrent tree model | ownership of every record (C36) plus two invariants: a remove record names the only node it is mapped at, a split record names a node of the tree; induction over mapped nodes and addresses; the leak is a reachable state (Proofs/LongRun, StuckRun) whose unposted leaf is outside the closure of what the destructor follows (Proofs/DestroyReach); the unfinished removal is a reachable state too (Props/Unfinished); merge records: `destroyIn` (Model/FreeOrder) is `destroy` with the memory shared by the records of a chain; it follows `destroy` until the first merge record (Props/FreeDestroy); without merge records it goes on as `destroy`, because the base node a record lies in is destroyed after it (`C40_shared_memory`, Props/FreeSeq) |
| C41 | same model restricted to histories without overlap (`Spec/Solo`: `Steps` runs one program to its end, `SeqReach` strings calls together) | a second program logic (`Proofs/SeqLogic`) with no interference, run beside the concurrent one; structural invariant `SInv` (every node has a parent or was just split off, no merge or abort records are left, separators are exact); the measure `work` (per NodeID: not yet used, not removed, not placed) decreases with every aborted attempt |
| C42 | same; with the collector: Model/Collect, Spec/Collected | every call is alone, so the linearization of C01/C02 is at its own set; the leaf a lookup reads has no merge record. With a collector that takes records out of the heap and clears entries (Props/SeqCollect, also for C41 and C44): simulation by the run on a memory that keeps everything; the obligations of C44 at each read and compare-and-swap say that the missing parts are not looked at |
| C43 | same, with Model/Destroy | `SInv` puts every live node below the root by child pointers or one split record, and every merged node lost its separator, so its marker is retired. After a collector has destroyed part of the retired memory (Props/SeqCollectDestroy, `C43_collected`): the simulation of C42 also says that chains are destroyed as a whole and that the entries they name are cleared and never filled again (an entry is filled only for a NodeID the call was given); the destructor then makes the same steps as on the memory that keeps everything. With shared memory (`C43_shared_memory`): `SInv` excludes merge records in the tree |
| C44 | Spec/Collector (time line of calls and collector) over Model/Tree | a NodeID the tree names is not deleted in its parents, so (`DelInv`) its entry is not retired; deleted entries never change again, live ones only get records that were not retired; retirement only grows. Partial (Props/TreeUse): it needs that the tree names the NodeID. Refuted in general (Props/UseAfterFree): a search can return a NodeID the tree does not name, by an execution as for C45 and, for stepping back, by one thread alone. Without overlap it holds for every call but stepping back (Props/SeqUse): the total correctness logic of C41 obliges every read of an entry to name a node of the tree, or the node just merged whose record the same call is about to retire. Model/TreeGC puts tree and epoch manager on one time line, with calls of UpdateThreadLocal between operations; Props/TreeGC proves that the epoch manager is a collector as assumed, and that it excludes no execution of the tree. Props/Reclaim continues the two refuting executions until the epoch manager has destroyed the node (1025 rounds of inserts and deletes in a leaf elsewhere, by induction), so the calls really look at destroyed memory. Props/BackLate: two threads make the same step back to the empty leftmost leaf; other calls replace the leaf and retire enough, so the collector destroys the record that one of the two is about to read outside its epoch. Chunks (Props/ChunkLive): each record lies in the memory of a base node of its own chain (`block_plain`), so what C44 says of records holds of chunks |
| C45 | Model/Tree | refuted by an execution of 9690 calls by one thread and one, long interrupted, by another; written down by 25 states (`Proofs/LongRun`, `Proofs/StuckRun`), evaluated between them by the kernel on tries that hold part of the memory (`Proofs/FastRun`, proved to agree with the model); the last call is followed for every number of retries; for GetValue the execution is continued by 40 more deletes (Props/UseAfterFree). Without overlap: C41 |
| C46 | iterator programs (Model/Iterator) over calls of Model/Tree that do not overlap (Spec/SoloIter) | each page names the next leaf; a NodeID keeps the key at which its leaf begins, so every page read passes one more of at most 2^20 NodeIDs, whatever is split or merged on the way; each page read ends by C41; what is visited: the sweep theorems of C16 for a constant set; with a collector (Spec/CollectedIter): the same pages are read as without it |
| C47 | Model/GarbageList: the per-thread garbage lists as linked records with an allocator that may reuse addresses, the metadata array, ClearThreadLocalGarbage, UpdateThreadLocal, the destructors | representation invariant (`Proofs/GarbageList`), step-by-step simulation by Model/EpochGC (`Proofs/GarbageSim`), loops by induction (`Proofs/GarbageLife`); Props/GarbageList. Model/TreeGC has UpdateThreadLocal between operations of the tree, so C36, C37 and C44 hold across changes of the number of threads, and Props/TreeUpdate says what such a change destroys |
| C48 | RegisterThread, AssignGCID, GetGCMetaData's assertion; the same model | induction over action sequences; invariant over all interleavings for the silent thread (Props/Registration) |
| C49 | Model/KeyRef: the pointers to the low and high key pair that each constructor copies, as addresses of members of records | published nodes are split records, updates and merges over base nodes (`Plain`), so the pointers end in a base node or in a split or merge record of the chain; liveness from C44. Partial as C44 |
| C50 | Model/Alloc with the sizes of the code on 64-bit machines (`ptrLayout`) | invariant over all interleavings: every tail and every returned address has the same residue. Partial: refuted for 16-byte alignment |
| C51 | Model/Peloton: `Scan`, `ScanAllKeys` of the adapter as programs over the iterator; the functions of Peloton they call are fields of `Cond` with the contract in Spec/Peloton | the loop is the loop of C46 / C14 with a filter; an early stop is a filter if the matching keys come first. Partial: refuted for several kinds of conditions (defect 23) |
| C52 | Model/Peloton: `InsertEntry`, `CondInsertEntry` on the leaf of the key, Model/TreeCond: on the whole tree; with the fate of the allocated object | from the leaf results of C02 and C05, and on trees from C41, C42 and C05; with overlapping calls from the linearizability of C05. Partial: refuted for an entry that is there already (defect 24) |
| C53 | Model/TreeCondSem: any number of threads, with ConditionalInsert | from the linearizability of C05: in the linearization the first of the two adds its value, nothing deletes it, so the second finds it. Partial as C05 |
| C54 | Model/SpinLock: the four lock functions with relaxed loads and exchanges, fences, and one protected location; knowledge of accesses as views | invariants: the newest value counts the readers or is -1 for one writer, every value since a reader entered is positive; every access is attached to the newest value or known to an owner. Partial: refuted for writers (defect 25), with the repaired fence in full |
| C55 | Model/EpochTSO: C20 with a first-in first-out store buffer per thread (x86) for `epoch` and `last_active_epoch`; Model/TreeTSO: the tree together with these counters | invariant: the values of a counter in memory and buffer do not decrease, the last value a thread stored is at most the epoch in memory and at most the delete epoch of everything unlinked during its operation; for the tree, the proof of `C44_epochs_partial` with this invariant (`C55_tree_partial`). Partial: refuted if the thread that advances the epoch also uses the tree (defect 26) or an unregistered thread starts again (defect 27) |

## 4. Defects found

Each is a theorem unless marked "not formalised".

1. ConditionalInsert after a Delete of a value in the base node records an index that breaks the next consolidation or iterator (`C05_consolidation_breaks`, `C05_tree_breaks`).
2. GetValue does not reset its index window at a leaf merge record: it can miss pairs (`C30_getValue_wrong`, `C01_getValue_not_linearizable`),
   or search outside the array (`C31_getValue_outside_leaf`).
3. NodeIDs are never reused; after 2^20-1 of them InstallNewNode writes past the table (`C23_table_overflow`).
4. Begin() on an empty leftmost leaf with a right sibling dereferences past the page (`C15_begin_undefined`). For the same
   reason IsBegin() can be false on the first pair (`C16_isBegin_missed`).
5. Copying a moved-from or null iterator dereferences null (`C18_copy_null`); move assignment leaks the old page (`C18_move_leak`).
6. GetValue uses an uninitialised parent snapshot (`C31_getValue_uses_uninitialised`).
7. Backward iteration: a placeholder key is compared (`C17_backward_placeholder`; so after 129 inserts of the integers from -64 to 64, `--Begin(0)` is undefined,
   `C41_back_placeholder`); the search below a deleted separator returns the deleted child
   (`C17_backward_search_wrong`); helping is undefined (`C17_backward_helping_undefined`). So a single thread that steps back after a merge runs into undefined behaviour
   (`C41_back_undefined`, 200 inserts and 36 deletes) or never returns (`C41_back_never_returns`, 270 inserts and 42 deletes);
   in the latter case it looks at a leaf whose memory was retired (`C44_back_use_after_free`) and that the collector can have destroyed by then
   (`C44_epochs_back_use_after_free`, also without overlapping calls).
8. AtomicStack: batch push overruns (`C22_batch_overrun`).
9. Epoch GC needs a single ticker and no unregistration of running threads (`C20_two_tickers`, `C20_unregister_running`).
10. FreeEpochDeltaChain runs the destructor of a merge record after its memory was released (`C34_merge_destructor_after_release`): the record lies in the
   preallocated space of the right branch's base node, which is destroyed first. It happens to every retired or destroyed chain with a merge record
   (`C34_tree_chain`), in the collector (`C34_collector_merge_destructor`) and in `~BwTree` (`C40_merge_destructor_witness`). What the destructor does there is to
   destroy a key, so nothing is observed for key types with a trivial destructor.
11. FindLeftSibling with a missing separator is undefined (`C13_missing_separator`).
12. Comparing an iterator before the first item reads outside the page (`C19_rend_undefined`).
13. Counting epoch manager: JoinEpoch can increment, and its undo can decrement, a counter in a deleted epoch node (`C33_join_race`, `C33_undo_race`).
14. MoveBackByOne reads the low key of the leaf it found (9323) after LeaveEpoch (9305), whenever that leaf has no smaller item, for instance when it is the empty
    leftmost leaf. Other threads can have replaced the leaf and the collector destroyed it by then (`C44_back_late_read`).
15. A thread with a stale root that meets a remove or merge record at level 0 fails the assertion 5156/5202 (`C31_stale_root_assertion`: the thread
    read the root NodeID when the tree was new; it resumes when node 1, by then an inner node below the root, takes in its right neighbour).
16. The abort record restores the same parent address, so a concurrent inner split can succeed after its check that the child it splits at is not being
    removed. The removed leaf is then the first child of one inner node, the leaf it is merged into the last child of another, and every thread that tries to
    complete the merge fails the assertion 6910 (`C31_merge_assertion`). A base inner node of 128 children or more is split by whoever loads it, so this takes a
    parent snapshot of such a node that was obtained by the consolidation inside FindLeftSibling: in the execution (Proofs/WideRun) one thread is interrupted while
    it merges two inner nodes, a second consolidates the result, a third splits it.
17. After inner nodes were merged, a thread with an old parent snapshot skips posting a separator, because the high key of the snapshot is too low, and
    puts its record on top of the split record, so nobody posts it later. When the unposted leaf is emptied it is marked removed, FindLeftSibling returns the
    leaf before its left neighbour, JumpToLeftSibling gives up, and every call for its keys retries for ever, also when no other call runs
    (`C45_alone_never_returns`). If instead its left neighbour is consolidated, only a right sibling link leads to it; the destructor does not follow
    such links and leaks it (`C40_leaks`).
18. Not formalised, and not excluded by C41: GetValue can read its uninitialised parent snapshot even when calls do not overlap, if it meets a split
    node whose new sibling was not posted and itself needs a split. That takes an inner node of more than 500 children, which arises only if at each
    of its consolidations the middle child happens to be marked removed (AdjustNodeSize then skips the split, 6636-6653).
19. A thread that moves right over several siblings posts each separator on the same parent snapshot without consolidating it, so an inner node's depth
    can pass the threshold (`C08_inner_depth_exceeds`: 9 with two threads; each further thread that waits with an old parent snapshot can add one). The
    arrays are sized by `depth` itself, so nothing overflows until the 16-bit field wraps.
20. Taking the abort record off a parent restores the old address, so a thread that was about to post a separator there still succeeds afterwards. With an
    unposted leaf (17) this lets a thread that has just marked a leaf removed reach its key without passing that leaf again: all calls return, the removal
    stays unfinished, and the destructor stops at `assert(false)` (2990; `C40_unfinished_removal`; the comment there says this cannot happen).
21. A separator record carries its neighbours, and the inner search returns one of them as a shortcut (3546-3732). When a neighbour is merged away, the newer
    delete record shadows the older one only up to its own right neighbour. If a separator in between was never posted (17), keys beyond it still reach the
    older record and so the deleted NodeID. Its node was retired with the delete record; when the collector has freed it, InvalidateNodeID (2821) has cleared
    the entry, and every GetValue, Insert, Delete and Begin(key) for such a key dereferences null (`C44_use_after_free`, `C44_epochs_use_after_free`). Until then they retry for ever, also
    when no other call runs (`C45_get_never_returns`).
22. The preallocated space in front of a base node has 24 bytes more than a multiple of the record size, so for key or value types aligned to 16 bytes
    (`long double`, 128-bit integers) every base node and every record in its space is misaligned (`C50_misaligned`).
23. Scans of the Peloton adapter. Given only equalities, the scan into pointers stops at the first key that does not match, although matching keys may follow
    if an unconstrained column lies before a constrained one (`C51_scan_stops_early`); the scan into objects looks up the lower bound alone, and misses every match if
    some column is unconstrained (`C51_point_misses`). In mvcc-dev-scale a scan with any other comparison starts at a key that was never set (`C51_mvcc_misses`).
    Scans from the beginning dereference past an empty first leaf (`C51_scan_undefined`, a case of 4).
24. CondInsertEntry asserts that the insertion succeeded whenever no value satisfied the predicate; inserting an entry that is there already fails that
    assert (`C52_cond_insert_aborts`).
25. `write_lock` of the benchmark spin lock ends with a release fence in place of an acquire fence; nothing orders the accesses of a writer after those of
    the previous owners, so they are data races (`C54_writer_races`, `C54_writer_races_reader`); with an acquire-release fence there are none (`C54_repaired`).
26. JoinEpoch has no fence. A thread that calls IncreaseEpoch and then starts an operation sees the new epoch in its own store buffer, while others still retire nodes in
    the old one; these nodes are freed while the operation runs (`C55_ticker_operates`). It does not happen if the thread that advances the epoch does nothing else.
27. For the same reason a thread that has called UnregisterThread must not start an operation again under the same number (other than after UpdateThreadLocal): while its
    store in JoinEpoch is buffered the others still read 2^64 - 1 and free what it reads (`C55_rejoin`; without buffers this is safe, C20).

## 5. Trusted base

* Lean 4.33.0 kernel; axioms `propext`, `Classical.choice`, `Quot.sound` and no others (`#print axioms` on any theorem listed in `MANIFEST.json`; components
  C22–C27, C35 partly use fewer). No `sorry`, no added axioms, no `native_decide`, no `bv_decide`. Executions in witnesses are evaluated by
  the kernel (`decide +kernel`).
* The claim that the definitions in `Model/` transcribe the cited code. Every definition cites its lines and states its simplifications.
* Modelled: bwtree.h — comparison helpers, node and delta types with metadata, all searches on leaf and inner chains, consolidation, split, merge,
  remove, abort, FinishPartialSMO, Traverse / TraverseBI / TraverseReadOptimized, Insert, Delete, GetValue, ConditionalInsert, iterators,
  InlineAllocate, epoch GC (both mechanisms; the one in use down to its linked records), thread registration, UpdateThreadLocal, FreeEpochDeltaChain, NodeID allocation, the destructor; atomic_stack.h, bloom_filter.h, sorted_small_set.h completely.
* Not modelled: C++ object layout and lifetimes beyond what is cited, weak memory orderings (counters of the epoch GC are plain integers; only C54 models relaxed atomics and fences, for the benchmark lock, and C55 the store buffers of x86, for the epoch counters), `malloc` failure,
  exceptions of user types, address reuse inside the tree model (covered by C20, C36, C37 at their interface only), and, where calls overlap, the destruction of
  retired memory (it is modelled for calls that do not overlap: Model/Collect), termination of loops when calls overlap, statistics and debug printing. Of the Peloton adapter
  (`src/peloton`) only the scans (C51) and insertions (C52) are modelled, without tuples and the objects behind the stored pointers; DeleteEntry calls `DeleteExchange`, which neither `bwtree.h` nor the repository contains.
