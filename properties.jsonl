{"id": "C01", "title": "Updates are linearizable", "statement": "In every concurrent execution, every completed Insert(k,v), Delete(k,v) and every GetValue(k) appears to take effect atomically at one instant between its call and its return: there is a single total order of the operations, compatible with real time, in which every returned value is the one an ordinary set of (key,value) pairs would give.", "quantifier": "all numbers of threads, all programs of operations per thread, all interleavings of atomic loads / CAS / fetch-add, all trees reachable that way", "why_tests_cant": "the number of interleavings of the help-along SMO protocol is unbounded; stress tests sample a handful of schedules", "anchors": ["src/bwtree.h:BwTree::Insert", "src/bwtree.h:BwTree::Delete", "src/bwtree.h:BwTree::GetValue", "src/bwtree.h:BwTree::Traverse", "src/bwtree.h:InstallNodeToReplace", "src/bwtree.h:FinishPartialSMO", "src/bwtree.h:AdjustNodeSize"]}
{"id": "C02", "title": "Insert is set insertion", "statement": "Insert(k,v) returns true exactly when (k,v) was not in the tree, and afterwards the tree contains exactly the old pairs plus (k,v); it returns false exactly when (k,v) was there, and then nothing changes.", "quantifier": "all keys, values and all delta chains / histories that precede the call", "why_tests_cant": "depends on every previous insert/delete/consolidate/split/merge; unbounded histories", "anchors": ["src/bwtree.h:BwTree::Insert", "src/bwtree.h:NavigateLeafNode(Context*,const ValueType&,std::pair<int,bool>*)", "src/bwtree.h:LeafInsertNode"]}
{"id": "C03", "title": "Delete is set deletion", "statement": "Delete(k,v) returns true exactly when (k,v) was in the tree, and afterwards the tree contains exactly the old pairs without (k,v); it returns false exactly when (k,v) was absent, and then nothing changes.", "quantifier": "all keys, values and all delta chains / histories that precede the call", "why_tests_cant": "unbounded histories of deletes and re-inserts of the same pair above the same base node", "anchors": ["src/bwtree.h:BwTree::Delete", "src/bwtree.h:LeafDeleteNode"]}
{"id": "C04", "title": "GetValue returns exactly the stored values", "statement": "GetValue(k) returns every value v with (k,v) in the tree, no other value, and no value twice.", "quantifier": "all keys and all delta chains / histories that precede the call", "why_tests_cant": "binary-search narrowing by recorded indices is only wrong for particular chain shapes", "anchors": ["src/bwtree.h:BwTree::GetValue", "src/bwtree.h:NavigateLeafNode(Context*,std::vector<ValueType>&)", "src/bwtree.h:TraverseReadOptimized"]}
{"id": "C05", "title": "ConditionalInsert respects the predicate", "statement": "ConditionalInsert(k,v,p) inserts and returns true exactly when no value stored under k satisfies p and (k,v) is absent; otherwise it changes nothing, and predicate_satisfied is set only if some stored value satisfies p. The tree stays a set.", "quantifier": "all keys, values, predicates and preceding histories", "why_tests_cant": "the predicate ranges over functions; correctness interacts with earlier deletes of the same pair", "anchors": ["src/bwtree.h:BwTree::ConditionalInsert", "src/bwtree.h:NavigateLeafNode(predicate)"]}
{"id": "C06", "title": "Consolidation is invisible", "statement": "Replacing a leaf's delta chain by its consolidated node changes neither the set of pairs a lookup can see, nor the key range, nor the right sibling of the leaf; the consolidated node lists the pairs in key order without duplicates.", "quantifier": "all well-formed leaf delta chains of any length, any nesting of merges", "why_tests_cant": "the replay merges deltas by remembered index; chain shapes are unbounded", "anchors": ["src/bwtree.h:CollectAllValuesOnLeaf", "src/bwtree.h:CollectAllValuesOnLeafRecursive", "src/bwtree.h:ConsolidateLeafNode"]}
{"id": "C07", "title": "Item counts are exact, consolidation never overruns its buffer", "statement": "The item count carried by a leaf is the number of pairs it stores, so consolidation (and an iterator's page copy) writes exactly as many items as it allocated, never more.", "quantifier": "all leaf chains any history can build", "why_tests_cant": "a heap overrun by one element is silent in most runs", "anchors": ["src/bwtree.h:NodeMetaData::item_count", "src/bwtree.h:CollectAllValuesOnLeaf", "src/bwtree.h:ElasticNode::PushBack", "src/bwtree.h:IteratorContext::Get"]}
{"id": "C08", "title": "Scratch arrays sized by chain depth never overflow", "statement": "Every stack array that lookups and consolidation size by the chain's depth is large enough for all delta records they store in it, and depth stays below the consolidation bound so its 16-bit field never wraps.", "quantifier": "all delta chains any history can build", "why_tests_cant": "stack smashing only for chains longer than tests build", "anchors": ["src/bwtree.h:NodeMetaData::depth", "src/bwtree.h:NavigateLeafNode", "src/bwtree.h:CollectAllValuesOnLeaf", "src/bwtree.h:CollectAllSepsOnInner", "src/bloom_filter.h:BloomFilter", "src/sorted_small_set.h:SortedSmallSet"]}
{"id": "C09", "title": "Leaf split is lossless and never separates equal keys", "statement": "When a leaf is split, every pair of the old leaf is in exactly one of the two new leaves, all values of one key stay together, every key on the left is smaller than the split key and every key on the right is not smaller, and both halves hold more items than the merge threshold; if no such split point exists the leaf is left alone.", "quantifier": "all sorted leaves of any size and key multiplicity", "why_tests_cant": "depends on the distribution of duplicate keys around the middle", "anchors": ["src/bwtree.h:LeafNode::FindSplitPoint", "src/bwtree.h:LeafNode::GetSplitSibling", "src/bwtree.h:AdjustNodeSize", "src/bwtree.h:LeafSplitNode"]}
{"id": "C10", "title": "Inner split is lossless", "statement": "When an inner node is split, every separator is in exactly one half and a lookup of any key reaches the same child before and after (through the left half or through the sibling link).", "quantifier": "all inner nodes with at least two separators and all search keys", "why_tests_cant": "needs all keys against all separator lists", "anchors": ["src/bwtree.h:InnerNode::GetSplitSibling", "src/bwtree.h:InnerSplitNode"]}
{"id": "C11", "title": "Merging two leaves is lossless", "statement": "Posting a merge makes the left leaf answer every lookup exactly as the two leaves did before, over the union of their ranges, and the later consolidation keeps it so.", "quantifier": "all pairs of adjacent well-formed leaf chains, all keys", "why_tests_cant": "pairs of arbitrary delta chains", "anchors": ["src/bwtree.h:LeafMergeNode", "src/bwtree.h:PostLeafMergeNode", "src/bwtree.h:CollectAllValuesOnLeafRecursive"]}
{"id": "C12", "title": "Inner-node search agrees with the separators", "statement": "Searching an inner node's delta chain sends a key to the child with the largest separator not above the key, which is the same child its consolidated node gives; in particular a key is never sent to a child whose range begins above the key.", "quantifier": "all well-formed inner delta chains, all search keys in the node's range", "why_tests_cant": "index-narrowed search over unbounded chains", "anchors": ["src/bwtree.h:NavigateInnerNode(Context*)", "src/bwtree.h:LocateSeparatorByKey", "src/bwtree.h:CollectAllSepsOnInner", "src/bwtree.h:InnerInsertNode", "src/bwtree.h:InnerDeleteNode"]}
{"id": "C13", "title": "Left sibling lookup is correct", "statement": "When a removed node has to be merged, the node found as its left sibling is the child with the next smaller separator in the same parent.", "quantifier": "all inner delta chains and all non-leftmost separators", "why_tests_cant": "two-pointer replay over unbounded delta chains", "anchors": ["src/bwtree.h:FindLeftSibling", "src/bwtree.h:JumpToLeftSibling"]}
{"id": "C14", "title": "Forward iteration is complete, ordered and duplicate free", "statement": "On a quiescent tree, iterating from the first element with ++ until IsEnd() visits every stored pair exactly once, in non-decreasing key order.", "quantifier": "all tree contents and all ways they are spread over leaves (including empty leaves)", "why_tests_cant": "page-boundary behaviour depends on the distribution of pairs over leaves", "anchors": ["src/bwtree.h:ForwardIterator", "src/bwtree.h:MoveAheadByOne", "src/bwtree.h:LowerBound"]}
{"id": "C15", "title": "Begin() denotes the smallest element", "statement": "On a non-empty quiescent tree Begin() points at a pair with the smallest key, and is not dereferenced past the end of its page.", "quantifier": "all tree contents and all ways they are spread over leaves", "why_tests_cant": "only wrong when the first leaf has been emptied while later ones have not", "anchors": ["src/bwtree.h:ForwardIterator::ForwardIterator(BwTree*)"]}
{"id": "C16", "title": "Begin(k) denotes the lower bound", "statement": "On a quiescent tree Begin(k) points at the first pair whose key is not below k, or IsEnd() holds if there is none; iterating from there visits exactly the pairs with key >= k in order.", "quantifier": "all keys k and all tree contents / leaf layouts", "why_tests_cant": "unbounded layouts, empty leaves, keys at page boundaries", "anchors": ["src/bwtree.h:ForwardIterator::LowerBound"]}
{"id": "C17", "title": "Backward iteration mirrors forward iteration", "statement": "On a quiescent tree, stepping back with -- from the end visits every stored pair exactly once in non-increasing key order and stops at IsREnd().", "quantifier": "all tree contents, layouts and keys (including keys equal to the default-constructed key)", "why_tests_cant": "the leftmost separator holds a placeholder key that only some key domains collide with", "anchors": ["src/bwtree.h:ForwardIterator::MoveBackByOne", "src/bwtree.h:NavigateInnerNodeBI", "src/bwtree.h:LocateSeparatorByKeyBI", "src/bwtree.h:TraverseBI"]}
{"id": "C18", "title": "Iterator page buffers are released exactly once", "statement": "Across any sequence of iterator constructions, copies, assignments, moves, increments and destructions, a page buffer is never used after release, never released twice and, once no iterator refers to it, is released.", "quantifier": "all sequences of iterator operations on any number of iterators", "why_tests_cant": "needs all operation sequences, including moves onto non-empty iterators and copies of null iterators", "anchors": ["src/bwtree.h:IteratorContext", "src/bwtree.h:ForwardIterator::operator=", "src/bwtree.h:ForwardIterator::~ForwardIterator"]}
{"id": "C19", "title": "Iterator comparison is a consistent order", "statement": "Iterator < and == follow the keys they point to, with all end iterators equal to each other and greater than every other iterator; < is a strict weak order and never holds together with ==.", "quantifier": "all triples of iterators", "why_tests_cant": "order laws quantify over all triples", "anchors": ["src/bwtree.h:ForwardIterator::operator<", "src/bwtree.h:ForwardIterator::operator=="]}
{"id": "C20", "title": "Memory is never reclaimed while a running operation may use it", "statement": "A node that was unlinked from the tree is not freed while any thread is inside an operation that began before the node was unlinked.", "quantifier": "all thread counts, all interleavings of joins, leaves, epoch increments, unlinks and collections", "why_tests_cant": "use-after-free needs a precise interleaving", "anchors": ["src/bwtree.h:BwTreeBase::UpdateLastActiveEpoch", "src/bwtree.h:BwTreeBase::SummarizeGCEpoch", "src/bwtree.h:AddGarbageNode", "src/bwtree.h:PerformGC"]}
{"id": "C21", "title": "Garbage is eventually reclaimable and reclaimed once", "statement": "Every retired node is freed at most once; nodes are freed in retirement order per thread; and once every thread has refreshed its epoch after the epoch has advanced past a retirement, the owner's next collection frees that node. The per-thread garbage counter always equals the number of pending nodes.", "quantifier": "all interleavings", "why_tests_cant": "double free / leak depend on schedules", "anchors": ["src/bwtree.h:AddGarbageNode", "src/bwtree.h:PerformGC", "src/bwtree.h:GCMetaData"]}
{"id": "C22", "title": "Free-ID stack hands out each item once", "statement": "With one producer and any number of consumers, every item pushed is popped at most once, only pushed items are popped, and none is lost: at every quiescent moment the stack holds exactly the pushed, not yet popped items. Pop fails only if the stack is empty or a push is in progress.", "quantifier": "all numbers of consumers, all interleavings of pushes and pops at the granularity of the code's atomic accesses, all stack contents", "why_tests_cant": "ABA needs a specific interleaving", "anchors": ["src/atomic_stack.h:AtomicStack", "src/atomic_stack.h:VersionedPointer"]}
{"id": "C23", "title": "Node IDs are unique", "statement": "No two allocations of a node ID return the same ID, none returns the invalid ID, and an ID handed out is inside the mapping table or the allocator stops the program.", "quantifier": "all interleavings of allocations by any number of threads", "why_tests_cant": "races in fetch_add / free list", "anchors": ["src/bwtree.h:GetNextNodeID", "src/bwtree.h:InvalidateNodeID", "src/bwtree.h:MAPPING_TABLE_SIZE"]}
{"id": "C24", "title": "Delta-node memory never overlaps", "statement": "Any two delta nodes allocated inline from the same base node occupy disjoint memory that lies inside the chunks owned by that node and does not overlap its header or items; every chunk is reachable for release exactly once.", "quantifier": "all interleavings of concurrent allocations, all request sizes up to a chunk, any number of chunks", "why_tests_cant": "fetch_sub under-run and lost chunks only under contention", "anchors": ["src/bwtree.h:AllocationMeta::TryAllocate", "src/bwtree.h:AllocationMeta::GrowChunk", "src/bwtree.h:AllocationMeta::Allocate", "src/bwtree.h:AllocationMeta::Destroy"]}
{"id": "C25", "title": "Membership filter is exact", "statement": "After inserting values, Exists(v) is true exactly when an equal value was inserted, provided equal values hash equally.", "quantifier": "all hash functions, all value sequences, all queries", "why_tests_cant": "false negatives only for particular hash bit patterns", "anchors": ["src/bloom_filter.h:BloomFilter::Insert", "src/bloom_filter.h:BloomFilter::Exists"]}
{"id": "C26", "title": "Small sorted set keeps order and first-come deduplication", "statement": "Insert keeps the set sorted and keeps the first of any equal elements; InsertNoDedup keeps it sorted, keeps all elements and puts later equal ones after earlier ones; PopFront removes the least element.", "quantifier": "all comparators that are strict weak orders, all operation sequences", "why_tests_cant": "all sequences", "anchors": ["src/sorted_small_set.h:SortedSmallSet::Insert", "src/sorted_small_set.h:SortedSmallSet::InsertNoDedup"]}
{"id": "C27", "title": "Per-thread GC metadata does not overlap and is cache-line aligned", "statement": "Each registered thread's GC record lies on its own 64-byte-aligned slot inside the allocated block, for every address malloc may return.", "quantifier": "all base addresses and thread counts", "why_tests_cant": "depends on the address malloc returns", "anchors": ["src/bwtree.h:BwTreeBase::PrepareThreadLocal", "src/bwtree.h:BwTreeBase::GetGCMetaData"]}
{"id": "C28", "title": "The tree stays a set partitioned by key ranges", "statement": "At every moment of every concurrent execution each pair is stored in exactly one leaf, the one whose key range covers its key, leaves' ranges tile the key space in sibling order, and no pair is stored twice.", "quantifier": "all reachable states of all concurrent executions", "why_tests_cant": "must hold in the middle of every SMO", "anchors": ["src/bwtree.h:AdjustNodeSize", "src/bwtree.h:FinishPartialSMO", "src/bwtree.h:NavigateSiblingChain"]}
{"id": "C29", "title": "Structure changes never change the abstract set", "statement": "Consolidation, split, remove, merge, separator insertion/deletion and root growth, including failed attempts and retries, leave the stored set of pairs unchanged at every step.", "quantifier": "all reachable states, all interleavings", "why_tests_cant": "failed CAS paths are hard to hit in tests", "anchors": ["src/bwtree.h:ConsolidateNode", "src/bwtree.h:AdjustNodeSize", "src/bwtree.h:FinishPartialSMO", "src/bwtree.h:PostInnerInsertNode", "src/bwtree.h:PostInnerDeleteNode", "src/bwtree.h:InstallRootNode"]}
{"id": "C30", "title": "Reads under concurrent merges", "statement": "A GetValue(k) that runs concurrently with merges of leaves still returns exactly the values stored under k at some instant of the call.", "quantifier": "all interleavings of GetValue with remove/merge/insert", "why_tests_cant": "needs an update to land on a merge delta before it is consolidated", "anchors": ["src/bwtree.h:NavigateLeafNode(Context*,std::vector<ValueType>&)", "src/bwtree.h:LeafMergeNode", "src/bwtree.h:FinishPartialSMO"]}
{"id": "C31", "title": "Read path never touches uninitialised state", "statement": "GetValue only follows snapshots it has initialised, whatever structure modifications other threads have in flight.", "quantifier": "all interleavings", "why_tests_cant": "needs a right-sibling hop onto an underfull or half-modified sibling", "anchors": ["src/bwtree.h:TraverseReadOptimized", "src/bwtree.h:JumpToNodeID", "src/bwtree.h:IsOnLeftMostChild", "src/bwtree.h:Context"]}
{"id": "C32", "title": "Concurrent iteration is ordered and only returns stored pairs", "statement": "An iterator running concurrently with updates yields keys in non-decreasing order, and every pair it yields was stored in the tree at some instant after the iterator was created; a pair that is present during the whole iteration and lies above the start key is yielded.", "quantifier": "all interleavings of one iterator with any number of updating threads", "why_tests_cant": "pages are re-located by key between splits and merges", "anchors": ["src/bwtree.h:ForwardIterator::LowerBound", "src/bwtree.h:MoveAheadByOne"]}
{"id": "C33", "title": "Epoch manager (old mechanism) reclaims safely", "statement": "With USE_OLD_EPOCH, an epoch's garbage is freed only when no thread that joined that epoch or an earlier one is still active.", "quantifier": "all interleavings of JoinEpoch, LeaveEpoch, AddGarbageNode, CreateNewEpoch and ClearEpoch", "why_tests_cant": "race windows between load and fetch_add", "anchors": ["src/bwtree.h:EpochManager::JoinEpoch", "src/bwtree.h:EpochManager::ClearEpoch"]}
{"id": "C34", "title": "Freeing a chain frees each node once", "statement": "Freeing a retired delta chain visits every node of the chain exactly once, and does not visit nodes below a remove or abort delta.", "quantifier": "all delta chains", "why_tests_cant": "double free only for chains with particular SMO nesting", "anchors": ["src/bwtree.h:FreeEpochDeltaChain", "src/bwtree.h:FreeNodeByPointer"]}
{"id": "C35", "title": "Derived key comparisons agree with the order", "statement": "The six key comparison helpers used everywhere are mutually consistent with the user's strict order whenever the user's equality checker is the equivalence it induces.", "quantifier": "all strict weak orders", "why_tests_cant": "quantifies over all comparators", "anchors": ["src/bwtree.h:KeyCmpLess", "src/bwtree.h:KeyCmpEqual", "src/bwtree.h:KeyCmpGreaterEqual", "src/bwtree.h:KeyCmpGreater", "src/bwtree.h:KeyCmpLessEqual"]}
{"id": "C36", "title": "No record is freed twice", "statement": "Whatever the threads do, destroying every delta chain that was ever handed to the garbage collector destroys each record at most once, and only records that were allocated; chains share records after merges, removals and rolled back updates.", "quantifier": "all interleavings of Insert, Delete, GetValue and iteration by any number of threads, at every moment", "why_tests_cant": "double frees need a particular nesting of concurrent structure modifications", "anchors": ["src/bwtree.h:AddGarbageNode", "src/bwtree.h:FreeEpochDeltaChain", "src/bwtree.h:FinishPartialSMO", "src/bwtree.h:RemoveAbortOnParent", "src/bwtree.h:ConsolidateNode"]}
{"id": "C37", "title": "The tree never refers to retired memory", "statement": "A node that can be reached from the root, from the leftmost leaf, through child links or through right sibling links is not among the memory handed to the garbage collector, nor is any record a reader of that node would follow; this includes nodes marked removed that are about to be merged.", "quantifier": "all interleavings of all calls by any number of threads, at every moment", "why_tests_cant": "use after free depends on the order in which retirement and link removal are interleaved with other threads", "anchors": ["src/bwtree.h:AddGarbageNode", "src/bwtree.h:LoadNodeID", "src/bwtree.h:FinishPartialSMO", "src/bwtree.h:InvalidateNodeID"]}
{"id": "C38", "title": "Replaced memory is always handed to the garbage collector", "statement": "When no call is running, every record that was ever part of the tree is still part of it or has been handed to the garbage collector; the only other records are markers of merged nodes, kept in the mapping table until the separator of the node is deleted. While calls run, a record can be in transit only on behalf of a call that has not returned.", "quantifier": "all interleavings of all calls by any number of threads; every pair of an earlier and a later moment", "why_tests_cant": "leaks show up only in particular interleavings of failed and helped structure modifications, and a test does not observe them", "anchors": ["src/bwtree.h:AddGarbageNode", "src/bwtree.h:ConsolidateNode", "src/bwtree.h:FinishPartialSMO", "src/bwtree.h:RemoveAbortOnParent", "src/bwtree.h:AdjustRootNode"]}
{"id": "C39", "title": "No node stays locked", "statement": "An inner node that is locked while one of its children is removed is locked by a call that is still running: when no call is running no node of the tree is locked, so later updates are never blocked forever by a finished one.", "quantifier": "all interleavings of all calls by any number of threads, at every moment", "why_tests_cant": "a forgotten unlock needs a failure of the removal at one particular step", "anchors": ["src/bwtree.h:PostAbortOnParent", "src/bwtree.h:RemoveAbortOnParent", "src/bwtree.h:TryConsolidateNode", "src/bwtree.h:FinishPartialSMO"]}
{"id": "C40", "title": "Destroying the tree frees each piece of memory once", "statement": "Destroying a tree while no call is running frees everything that was ever part of the tree exactly once: nothing is freed twice, nothing is used after it was freed, nothing is left over, and the destructor terminates without running into a failed assertion.", "quantifier": "all trees left behind by any interleaving of any calls by any number of threads", "why_tests_cant": "double frees and leaks in the destructor depend on which splits, merges and failed updates happened before; a test covers a few histories and does not observe leaks", "anchors": ["src/bwtree.h:~BwTree", "src/bwtree.h:ClearThreadLocalGarbage", "src/bwtree.h:FreeNodeByNodeID", "src/bwtree.h:FreeNodeByPointer", "src/bwtree.h:InvalidateNodeID", "src/bwtree.h:FreeEpochDeltaChain"]}
{"id": "C41", "title": "Calls made one at a time always finish", "statement": "When no two calls overlap, every insert, delete, lookup, positioning of an iterator and step of an iterator finishes after finitely many steps, without failed assertion and without undefined behaviour, whatever calls were made before. The only exception is that the mapping table, which holds about a million node identifiers, is used up.", "quantifier": "all histories of calls that do not overlap, all keys and values, trees of any size", "why_tests_cant": "the calls retry in loops without a bound while they help unfinished splits and removals; a loop that never ends needs one particular arrangement of sizes, depths and pending changes", "anchors": ["src/bwtree.h:Traverse", "src/bwtree.h:TraverseReadOptimized", "src/bwtree.h:FinishPartialSMO", "src/bwtree.h:AdjustNodeSize", "src/bwtree.h:JumpToLeftSibling"]}
{"id": "C42", "title": "Calls made one at a time are exact", "statement": "When no two calls overlap, the tree is a set of key-value pairs: insert adds the pair and reports whether it was new, delete removes it and reports whether it was there, a lookup returns exactly the values stored under the key, each once, and changes nothing, an iterator page holds exactly the stored pairs of its key range.", "quantifier": "all histories of calls that do not overlap, all keys and values, trees of any size", "why_tests_cant": "a lookup can miss pairs after certain merges when calls overlap; that it cannot otherwise is a statement about all histories", "anchors": ["src/bwtree.h:Insert", "src/bwtree.h:Delete", "src/bwtree.h:GetValue", "src/bwtree.h:LoadLeafPage"]}
{"id": "C43", "title": "Destroying a tree used one call at a time frees everything once", "statement": "After any history of calls that do not overlap, the destructor runs to its end without failed assertion, and together with the memory handed to the epoch manager it frees everything that was ever part of the tree exactly once.", "quantifier": "all histories of calls that do not overlap, every moment at which a record was part of the tree", "why_tests_cant": "leaks depend on which splits and merges happened before; a test covers a few histories", "anchors": ["src/bwtree.h:~BwTree", "src/bwtree.h:FreeNodeByPointer", "src/bwtree.h:InvalidateNodeID"]}
{"id": "C44", "title": "Calls never use destroyed memory", "statement": "A running call never reads a node that the garbage collector has destroyed. Nodes taken out of the tree while the call runs stay valid until the call ends, and nodes taken out before it began cannot be found by it, although the call may read the mapping entry of a node identifier long after it learned the identifier.", "quantifier": "all interleavings of any number of calls, every moment at which the tree names a node identifier, every later moment at which its entry is read, every record below the one found", "why_tests_cant": "it takes a call that is suspended between learning a node identifier and reading its entry while other calls merge the node away and the collector runs; whether freed memory is then touched depends on timing and usually goes unnoticed", "anchors": ["src/bwtree.h:LoadNodeID", "src/bwtree.h:GetNode", "src/bwtree.h:AddGarbageNode", "src/bwtree.h:ClearEpoch", "src/bwtree.h:FinishPartialSMO"]}
{"id": "C45", "title": "A call that runs alone returns", "statement": "Once all other calls have returned, a call that runs alone returns, whatever calls overlapped before: no earlier interleaving leaves the tree in a state in which GetValue, Insert, Delete or Begin(key) retries for ever.", "quantifier": "all interleavings of any number of calls before, every call made when no other call is in progress", "why_tests_cant": "it takes a rare interleaving of splits and merges thousands of calls earlier, and a test cannot tell a slow call from one that never returns", "anchors": ["src/bwtree.h:Traverse", "src/bwtree.h:FinishPartialSMO", "src/bwtree.h:JumpToLeftSibling", "src/bwtree.h:FindLeftSibling"]}
{"id": "C46", "title": "Iteration ends when nothing else runs", "statement": "When no other call runs meanwhile, the loop for(it = tree.Begin(k); !it.IsEnd(); ++it) ends after finitely many steps, although reading a page may itself split and merge nodes and pages may be empty; it has then visited exactly the stored pairs with key >= k, in key order, each once, and the stored set is unchanged. Begin(k) and every single ++ end as well, whatever calls (not overlapping) were made since the iterator was positioned. The only exception is that the mapping table is used up.", "quantifier": "all histories of non-overlapping calls (insert, delete, lookup, forward iteration) of any length on keys of any totally ordered type, all start keys, all iterator positions", "why_tests_cant": "That a loop ends on every tree is a statement about all histories; a test only sees the trees it builds. The number of pages read depends on splits, merges and empty leaves left by the history and on the changes the loop makes itself.", "anchors": ["src/bwtree.h:ForwardIterator::LowerBound"]}
{"id": "C47", "title": "Lists of retired memory survive changes of the number of threads", "statement": "Each thread keeps retired nodes in a linked list of records. Whatever the threads do and in whatever interleaving, handling these lists never touches a deleted record, never leaves the per-thread array and never fails an assertion; every record is in exactly one list, and the lists hold exactly the nodes that were retired and not yet freed, each once. UpdateThreadLocal(n), called while no operation runs, succeeds for every n: afterwards everything retired has been freed exactly once, no record is left, and the tree serves n threads; no node is freed while a running operation may use it, also across such changes. Destroying the tree frees every retired node exactly once and leaves no record.", "quantifier": "all numbers of threads, all interleavings of any length, any number of calls of UpdateThreadLocal with any arguments, any choice of addresses by the allocator including reuse", "why_tests_cant": "use after delete and leaks of list records depend on when a collection empties a list and on addresses being reused; tests run under one allocator and a few schedules", "anchors": ["src/bwtree.h:AddGarbageNode", "src/bwtree.h:PerformGC", "src/bwtree.h:ClearThreadLocalGarbage", "src/bwtree.h:UpdateThreadLocal", "src/bwtree.h:DestroyThreadLocal", "src/bwtree.h:PrepareThreadLocal"]}
{"id": "C48", "title": "Registered threads have distinct ids, and silent ones block reclamation", "statement": "Threads that call RegisterThread get distinct ids. A tree serves exactly the threads that registered before the tree was created and have not registered again since; any other thread that starts an operation fails an assertion. As long as one of the threads a tree serves has neither used the tree nor been unregistered, no memory of the tree is reclaimed, whatever the others do.", "quantifier": "all sequences of registrations and tree creations, all interleavings of operations", "why_tests_cant": "the claim ranges over all orders of registration and creation; that nothing is ever reclaimed cannot be observed in finite time", "anchors": ["src/bwtree.h:RegisterThread", "src/bwtree.h:AssignGCID", "src/bwtree.h:GetGCMetaData", "src/bwtree.h:SummarizeGCEpoch", "src/bwtree.h:UnregisterThread"]}
{"id": "C49", "title": "The key range of a node lies in memory that lives as long as the node", "statement": "A node does not store its key range in each of its records: records point to keys stored elsewhere. Whatever inserts, deletes, splits, merges and failed updates built a node, these pointers lead to keys that belong to this node itself and are the bounds of the range the node covers; and the space for its next update, which is found through such a pointer, is that of a node of the same kind. A call that found a node in the tree can use both bounds as long as it runs: the collector does not release them before.", "quantifier": "all nodes in all states reached by any interleaving of any calls by any number of threads, with or without a collector", "why_tests_cant": "a dangling or foreign bound shows only if the other node is reclaimed and its memory reused at the right moment", "anchors": ["src/bwtree.h:GetLowKeyPair", "src/bwtree.h:GetHighKeyPair", "src/bwtree.h:InlineAllocate", "src/bwtree.h:GetNodeHeader", "src/bwtree.h:DeltaNode"]}
{"id": "C50", "title": "Keys and values are stored at aligned addresses", "statement": "The tree is a template over key and value types. For every such pair of types, all nodes and update records in which it stores keys and values lie at addresses that are multiples of the alignment of these types.", "quantifier": "all key and value types with their alignments and sizes, all interleavings of allocations by any number of threads, all addresses the allocator may return", "why_tests_cant": "reading misaligned objects works on most machines for most types; whether it is undefined behaviour depends on the types a user instantiates the tree with", "anchors": ["src/bwtree.h:AllocationMeta", "src/bwtree.h:DeltaNodeUnion", "src/bwtree.h:ElasticNode::Get"]}
{"id": "C51", "title": "An index scan returns exactly the entries that satisfy its condition", "statement": "A scan of the index adapter over the tree with a condition on key columns returns the entries whose key satisfies the condition, all of them and no others, in key order and each once. ScanAllKeys returns all entries. A scan for a single key returns the entries of that key. When other operations run meanwhile, every key is judged by what was stored at one instant during the scan.", "quantifier": "all contents of the tree that calls can lead to, all conditions with their lower bounds, all interleavings with other calls", "why_tests_cant": "it depends on the combination of constrained columns, on the shape of the tree (an empty first leaf, splits and merges met on the way) and on the value of an unset variable", "anchors": ["src/peloton/master/bwtree_index.cpp:Scan", "src/peloton/master/bwtree_index.cpp:ScanAllKeys", "src/peloton/master/bwtree_index.cpp:ScanKey", "src/peloton/mvcc-dev-scale/bwtree_index.cpp:Scan"]}
{"id": "C52", "title": "Insertions through the index adapter keep one object per entry and never stop the program", "statement": "InsertEntry returns true exactly if the entry is not in the index, and then adds it. CondInsertEntry returns true exactly if the entry is not in the index and no value stored under the key satisfies the predicate, and then adds it. If an insertion returns true the object allocated for the entry lives on in the index; if it returns false the object is deleted and the index is unchanged. No assert of the adapter fails.", "quantifier": "all leaves that calls can lead to and all trees after calls that do not overlap, all keys, values and predicates", "why_tests_cant": "whether an assert fails depends on which values are stored under the key and on the predicate of the caller", "anchors": ["src/peloton/master/bwtree_index.cpp:InsertEntry", "src/peloton/master/bwtree_index.cpp:CondInsertEntry", "src/bwtree.h:ConditionalInsert"]}
{"id": "C53", "title": "Conditional insertions that exclude each other never both succeed", "statement": "If threads call ConditionalInsert for the same key at the same time, each with a predicate that holds for the value of the other one, at most one of them returns true and adds its value, whatever other calls run, as long as the value added is not deleted. In particular, with a predicate that is always true no key ever gets two values.", "quantifier": "all interleavings of any number of threads calling Insert, Delete, GetValue, ConditionalInsert and iterator operations, all keys, values and predicates", "why_tests_cant": "test and insertion are separate steps of the code; whether another thread can get in between depends on the interleaving", "anchors": ["src/bwtree.h:ConditionalInsert", "src/bwtree.h:NavigateLeafNode", "src/peloton/master/bwtree_index.cpp:CondInsertEntry"]}
{"id": "C54", "title": "The reader-writer lock around the compared trees excludes writers and orders what its owners do", "statement": "The benchmarks protect the single-threaded trees the Bw-Tree is compared with by a reader-writer spin lock. While a thread has the lock for writing no other thread has it; unlocking never fails an assertion; and whatever a thread does to the protected data while it has the lock happens after what earlier owners did, so that no access is a data race.", "quantifier": "all interleavings of any number of threads (fewer than 2^31 - 1), all values that relaxed loads may return under the C++ memory model, all spurious failures of the weak exchange", "why_tests_cant": "the lock uses relaxed atomics and explicit fences; a missing ordering does not show on x86 or depends on what the compiler does", "anchors": ["benchmark/spinlock/spinlock.cpp:read_lock", "benchmark/spinlock/spinlock.cpp:write_lock", "benchmark/spinlock/spinlock.cpp:write_unlock", "test/benchmark_btree_full.cpp:38-70"]}
{"id": "C55", "title": "Reclamation stays safe when stores to the epoch counters are delayed", "statement": "The counters of the epoch scheme are plain integers written without fences; the code claims that reading stale values does not affect correctness. On a processor that delays stores in a buffer while later loads already execute (x86), memory is never freed while an operation is running that started before the memory was made unreachable.", "quantifier": "all interleavings of any number of worker threads and one thread that advances the epoch, all delays of all buffered stores", "why_tests_cant": "the delay of a store is a few nanoseconds and not under the control of a test; a wrong release must coincide with it", "anchors": ["src/bwtree.h:UpdateLastActiveEpoch", "src/bwtree.h:GetGlobalEpoch", "src/bwtree.h:IncreaseEpoch", "src/bwtree.h:SummarizeGCEpoch", "src/bwtree.h:PerformGC"]}
