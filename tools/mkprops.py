import json
P=[]
def p(id,title,statement,quantifier,why,anchors):
    P.append(dict(id=id,title=title,statement=statement,quantifier=quantifier,why_tests_cant=why,anchors=anchors))
B="src/bwtree.h"
p("C01","Updates are linearizable",
 "In every concurrent execution, every completed Insert(k,v), Delete(k,v) and every GetValue(k) appears to take effect atomically at one instant between its call and its return: there is a single total order of the operations, compatible with real time, in which every returned value is the one an ordinary set of (key,value) pairs would give.",
 "all numbers of threads, all programs of operations per thread, all interleavings of atomic loads / CAS / fetch-add, all trees reachable that way",
 "the number of interleavings of the help-along SMO protocol is unbounded; stress tests sample a handful of schedules",
 [f"{B}:BwTree::Insert",f"{B}:BwTree::Delete",f"{B}:BwTree::GetValue",f"{B}:BwTree::Traverse",f"{B}:InstallNodeToReplace",f"{B}:FinishPartialSMO",f"{B}:AdjustNodeSize"])
p("C02","Insert is set insertion",
 "Insert(k,v) returns true exactly when (k,v) was not in the tree, and afterwards the tree contains exactly the old pairs plus (k,v); it returns false exactly when (k,v) was there, and then nothing changes.",
 "all keys, values and all delta chains / histories that precede the call",
 "depends on every previous insert/delete/consolidate/split/merge; unbounded histories",
 [f"{B}:BwTree::Insert",f"{B}:NavigateLeafNode(Context*,const ValueType&,std::pair<int,bool>*)",f"{B}:LeafInsertNode"])
p("C03","Delete is set deletion",
 "Delete(k,v) returns true exactly when (k,v) was in the tree, and afterwards the tree contains exactly the old pairs without (k,v); it returns false exactly when (k,v) was absent, and then nothing changes.",
 "all keys, values and all delta chains / histories that precede the call",
 "unbounded histories of deletes and re-inserts of the same pair above the same base node",
 [f"{B}:BwTree::Delete",f"{B}:LeafDeleteNode"])
p("C04","GetValue returns exactly the stored values",
 "GetValue(k) returns every value v with (k,v) in the tree, no other value, and no value twice.",
 "all keys and all delta chains / histories that precede the call",
 "binary-search narrowing by recorded indices is only wrong for particular chain shapes",
 [f"{B}:BwTree::GetValue",f"{B}:NavigateLeafNode(Context*,std::vector<ValueType>&)",f"{B}:TraverseReadOptimized"])
p("C05","ConditionalInsert respects the predicate",
 "ConditionalInsert(k,v,p) inserts and returns true exactly when no value stored under k satisfies p and (k,v) is absent; otherwise it changes nothing, and predicate_satisfied is set only if some stored value satisfies p. The tree stays a set.",
 "all keys, values, predicates and preceding histories",
 "the predicate ranges over functions; correctness interacts with earlier deletes of the same pair",
 [f"{B}:BwTree::ConditionalInsert",f"{B}:NavigateLeafNode(predicate)"])
p("C06","Consolidation is invisible",
 "Replacing a leaf's delta chain by its consolidated node changes neither the set of pairs a lookup can see, nor the key range, nor the right sibling of the leaf; the consolidated node lists the pairs in key order without duplicates.",
 "all well-formed leaf delta chains of any length, any nesting of merges",
 "the replay merges deltas by remembered index; chain shapes are unbounded",
 [f"{B}:CollectAllValuesOnLeaf",f"{B}:CollectAllValuesOnLeafRecursive",f"{B}:ConsolidateLeafNode"])
p("C07","Item counts are exact, consolidation never overruns its buffer",
 "The item count carried by a leaf is the number of pairs it stores, so consolidation (and an iterator's page copy) writes exactly as many items as it allocated, never more.",
 "all leaf chains any history can build",
 "a heap overrun by one element is silent in most runs",
 [f"{B}:NodeMetaData::item_count",f"{B}:CollectAllValuesOnLeaf",f"{B}:ElasticNode::PushBack",f"{B}:IteratorContext::Get"])
p("C08","Scratch arrays sized by chain depth never overflow",
 "Every stack array that lookups and consolidation size by the chain's depth is large enough for all delta records they store in it, and depth stays below the consolidation bound so its 16-bit field never wraps.",
 "all delta chains any history can build",
 "stack smashing only for chains longer than tests build",
 [f"{B}:NodeMetaData::depth",f"{B}:NavigateLeafNode",f"{B}:CollectAllValuesOnLeaf",f"{B}:CollectAllSepsOnInner","src/bloom_filter.h:BloomFilter","src/sorted_small_set.h:SortedSmallSet"])
p("C09","Leaf split is lossless and never separates equal keys",
 "When a leaf is split, every pair of the old leaf is in exactly one of the two new leaves, all values of one key stay together, every key on the left is smaller than the split key and every key on the right is not smaller, and both halves hold more items than the merge threshold; if no such split point exists the leaf is left alone.",
 "all sorted leaves of any size and key multiplicity",
 "depends on the distribution of duplicate keys around the middle",
 [f"{B}:LeafNode::FindSplitPoint",f"{B}:LeafNode::GetSplitSibling",f"{B}:AdjustNodeSize",f"{B}:LeafSplitNode"])
p("C10","Inner split is lossless",
 "When an inner node is split, every separator is in exactly one half and a lookup of any key reaches the same child before and after (through the left half or through the sibling link).",
 "all inner nodes with at least two separators and all search keys",
 "needs all keys against all separator lists",
 [f"{B}:InnerNode::GetSplitSibling",f"{B}:InnerSplitNode"])
p("C11","Merging two leaves is lossless",
 "Posting a merge makes the left leaf answer every lookup exactly as the two leaves did before, over the union of their ranges, and the later consolidation keeps it so.",
 "all pairs of adjacent well-formed leaf chains, all keys",
 "pairs of arbitrary delta chains",
 [f"{B}:LeafMergeNode",f"{B}:PostLeafMergeNode",f"{B}:CollectAllValuesOnLeafRecursive"])
p("C12","Inner-node search agrees with the separators",
 "Searching an inner node's delta chain sends a key to the child with the largest separator not above the key, which is the same child its consolidated node gives; in particular a key is never sent to a child whose range begins above the key.",
 "all well-formed inner delta chains, all search keys in the node's range",
 "index-narrowed search over unbounded chains",
 [f"{B}:NavigateInnerNode(Context*)",f"{B}:LocateSeparatorByKey",f"{B}:CollectAllSepsOnInner",f"{B}:InnerInsertNode",f"{B}:InnerDeleteNode"])
p("C13","Left sibling lookup is correct",
 "When a removed node has to be merged, the node found as its left sibling is the child with the next smaller separator in the same parent.",
 "all inner delta chains and all non-leftmost separators",
 "two-pointer replay over unbounded delta chains",
 [f"{B}:FindLeftSibling",f"{B}:JumpToLeftSibling"])
p("C14","Forward iteration is complete, ordered and duplicate free",
 "On a quiescent tree, iterating from the first element with ++ until IsEnd() visits every stored pair exactly once, in non-decreasing key order.",
 "all tree contents and all ways they are spread over leaves (including empty leaves)",
 "page-boundary behaviour depends on the distribution of pairs over leaves",
 [f"{B}:ForwardIterator",f"{B}:MoveAheadByOne",f"{B}:LowerBound"])
p("C15","Begin() denotes the smallest element",
 "On a non-empty quiescent tree Begin() points at a pair with the smallest key, and is not dereferenced past the end of its page.",
 "all tree contents and all ways they are spread over leaves",
 "only wrong when the first leaf has been emptied while later ones have not",
 [f"{B}:ForwardIterator::ForwardIterator(BwTree*)"])
p("C16","Begin(k) denotes the lower bound",
 "On a quiescent tree Begin(k) points at the first pair whose key is not below k, or IsEnd() holds if there is none; iterating from there visits exactly the pairs with key >= k in order.",
 "all keys k and all tree contents / leaf layouts",
 "unbounded layouts, empty leaves, keys at page boundaries",
 [f"{B}:ForwardIterator::LowerBound"])
p("C17","Backward iteration mirrors forward iteration",
 "On a quiescent tree, stepping back with -- from the end visits every stored pair exactly once in non-increasing key order and stops at IsREnd().",
 "all tree contents, layouts and keys (including keys equal to the default-constructed key)",
 "the leftmost separator holds a placeholder key that only some key domains collide with",
 [f"{B}:ForwardIterator::MoveBackByOne",f"{B}:NavigateInnerNodeBI",f"{B}:LocateSeparatorByKeyBI",f"{B}:TraverseBI"])
p("C18","Iterator page buffers are released exactly once",
 "Across any sequence of iterator constructions, copies, assignments, moves, increments and destructions, a page buffer is never used after release, never released twice and, once no iterator refers to it, is released.",
 "all sequences of iterator operations on any number of iterators",
 "needs all operation sequences, including moves onto non-empty iterators and copies of null iterators",
 [f"{B}:IteratorContext",f"{B}:ForwardIterator::operator=",f"{B}:ForwardIterator::~ForwardIterator"])
p("C19","Iterator comparison is a consistent order",
 "Iterator < and == follow the keys they point to, with all end iterators equal to each other and greater than every other iterator; < is a strict weak order and never holds together with ==.",
 "all triples of iterators",
 "order laws quantify over all triples",
 [f"{B}:ForwardIterator::operator<",f"{B}:ForwardIterator::operator=="])
p("C20","Memory is never reclaimed while a running operation may use it",
 "A node that was unlinked from the tree is not freed while any thread is inside an operation that began before the node was unlinked.",
 "all thread counts, all interleavings of joins, leaves, epoch increments, unlinks and collections",
 "use-after-free needs a precise interleaving",
 [f"{B}:BwTreeBase::UpdateLastActiveEpoch",f"{B}:BwTreeBase::SummarizeGCEpoch",f"{B}:AddGarbageNode",f"{B}:PerformGC"])
p("C21","Garbage is eventually reclaimable and reclaimed once",
 "Every retired node is freed at most once; nodes are freed in retirement order per thread; and once every thread has refreshed its epoch after the epoch has advanced past a retirement, the owner's next collection frees that node. The per-thread garbage counter always equals the number of pending nodes.",
 "all interleavings",
 "double free / leak depend on schedules",
 [f"{B}:AddGarbageNode",f"{B}:PerformGC",f"{B}:GCMetaData"])
p("C22","Free-ID stack hands out each item once",
 "With one producer and any number of consumers, every item pushed is popped at most once, only pushed items are popped, and none is lost: at every quiescent moment the stack holds exactly the pushed, not yet popped items. Pop fails only if the stack is empty or a push is in progress.",
 "all numbers of consumers, all interleavings of pushes and pops at the granularity of the code's atomic accesses, all stack contents",
 "ABA needs a specific interleaving",
 ["src/atomic_stack.h:AtomicStack","src/atomic_stack.h:VersionedPointer"])
p("C23","Node IDs are unique",
 "No two allocations of a node ID return the same ID, none returns the invalid ID, and an ID handed out is inside the mapping table or the allocator stops the program.",
 "all interleavings of allocations by any number of threads",
 "races in fetch_add / free list",
 [f"{B}:GetNextNodeID",f"{B}:InvalidateNodeID",f"{B}:MAPPING_TABLE_SIZE"])
p("C24","Delta-node memory never overlaps",
 "Any two delta nodes allocated inline from the same base node occupy disjoint memory that lies inside the chunks owned by that node and does not overlap its header or items; every chunk is reachable for release exactly once.",
 "all interleavings of concurrent allocations, all request sizes up to a chunk, any number of chunks",
 "fetch_sub under-run and lost chunks only under contention",
 [f"{B}:AllocationMeta::TryAllocate",f"{B}:AllocationMeta::GrowChunk",f"{B}:AllocationMeta::Allocate",f"{B}:AllocationMeta::Destroy"])
p("C25","Membership filter is exact",
 "After inserting values, Exists(v) is true exactly when an equal value was inserted, provided equal values hash equally.",
 "all hash functions, all value sequences, all queries",
 "false negatives only for particular hash bit patterns",
 ["src/bloom_filter.h:BloomFilter::Insert","src/bloom_filter.h:BloomFilter::Exists"])
p("C26","Small sorted set keeps order and first-come deduplication",
 "Insert keeps the set sorted and keeps the first of any equal elements; InsertNoDedup keeps it sorted, keeps all elements and puts later equal ones after earlier ones; PopFront removes the least element.",
 "all comparators that are strict weak orders, all operation sequences",
 "all sequences",
 ["src/sorted_small_set.h:SortedSmallSet::Insert","src/sorted_small_set.h:SortedSmallSet::InsertNoDedup"])
p("C27","Per-thread GC metadata does not overlap and is cache-line aligned",
 "Each registered thread's GC record lies on its own 64-byte-aligned slot inside the allocated block, for every address malloc may return.",
 "all base addresses and thread counts",
 "depends on the address malloc returns",
 [f"{B}:BwTreeBase::PrepareThreadLocal",f"{B}:BwTreeBase::GetGCMetaData"])
p("C28","The tree stays a set partitioned by key ranges",
 "At every moment of every concurrent execution each pair is stored in exactly one leaf, the one whose key range covers its key, leaves' ranges tile the key space in sibling order, and no pair is stored twice.",
 "all reachable states of all concurrent executions",
 "must hold in the middle of every SMO",
 [f"{B}:AdjustNodeSize",f"{B}:FinishPartialSMO",f"{B}:NavigateSiblingChain"])
p("C29","Structure changes never change the abstract set",
 "Consolidation, split, remove, merge, separator insertion/deletion and root growth, including failed attempts and retries, leave the stored set of pairs unchanged at every step.",
 "all reachable states, all interleavings",
 "failed CAS paths are hard to hit in tests",
 [f"{B}:ConsolidateNode",f"{B}:AdjustNodeSize",f"{B}:FinishPartialSMO",f"{B}:PostInnerInsertNode",f"{B}:PostInnerDeleteNode",f"{B}:InstallRootNode"])
p("C30","Reads under concurrent merges",
 "A GetValue(k) that runs concurrently with merges of leaves still returns exactly the values stored under k at some instant of the call.",
 "all interleavings of GetValue with remove/merge/insert",
 "needs an update to land on a merge delta before it is consolidated",
 [f"{B}:NavigateLeafNode(Context*,std::vector<ValueType>&)",f"{B}:LeafMergeNode",f"{B}:FinishPartialSMO"])
p("C31","Read path never touches uninitialised state",
 "GetValue only follows snapshots it has initialised, whatever structure modifications other threads have in flight.",
 "all interleavings",
 "needs a right-sibling hop onto an underfull or half-modified sibling",
 [f"{B}:TraverseReadOptimized",f"{B}:JumpToNodeID",f"{B}:IsOnLeftMostChild",f"{B}:Context"])
p("C32","Concurrent iteration is ordered and only returns stored pairs",
 "An iterator running concurrently with updates yields keys in non-decreasing order, and every pair it yields was stored in the tree at some instant after the iterator was created; a pair that is present during the whole iteration and lies above the start key is yielded.",
 "all interleavings of one iterator with any number of updating threads",
 "pages are re-located by key between splits and merges",
 [f"{B}:ForwardIterator::LowerBound",f"{B}:MoveAheadByOne"])
p("C33","Epoch manager (old mechanism) reclaims safely",
 "With USE_OLD_EPOCH, an epoch's garbage is freed only when no thread that joined that epoch or an earlier one is still active.",
 "all interleavings of JoinEpoch, LeaveEpoch, AddGarbageNode, CreateNewEpoch and ClearEpoch",
 "race windows between load and fetch_add",
 [f"{B}:EpochManager::JoinEpoch",f"{B}:EpochManager::ClearEpoch"])
p("C34","Freeing a chain frees each node once",
 "Freeing a retired delta chain visits every node of the chain exactly once, and does not visit nodes below a remove or abort delta.",
 "all delta chains",
 "double free only for chains with particular SMO nesting",
 [f"{B}:FreeEpochDeltaChain",f"{B}:FreeNodeByPointer"])
p("C35","Derived key comparisons agree with the order",
 "The six key comparison helpers used everywhere are mutually consistent with the user's strict order whenever the user's equality checker is the equivalence it induces.",
 "all strict weak orders",
 "quantifies over all comparators",
 [f"{B}:KeyCmpLess",f"{B}:KeyCmpEqual",f"{B}:KeyCmpGreaterEqual",f"{B}:KeyCmpGreater",f"{B}:KeyCmpLessEqual"])
open('/verif/properties.jsonl','w').write("".join(json.dumps(x)+"\n" for x in P))
print(len(P))
