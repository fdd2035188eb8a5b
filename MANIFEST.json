{
 "claims": [
  {
   "property": "C01",
   "status": "partial",
   "theorems": [
    "BwTree.Tree.C01_updates_linearizable",
    "BwTree.Tree.C01_linearizable_partial",
    "BwTree.Tree.C01_all_calls_linearizable",
    "BwTree.Iterator.C01_takes_effect",
    "BwTree.Tree.C01_getValue_not_linearizable"
   ],
   "note": "Insert and Delete: proved in full for all interleavings. GetValue: proved when no data record lies above a merge record in the leaf it reads; otherwise false, with a reachable witness. Executions in which a thread stops at a failed assertion are covered up to that point"
  },
  {
   "property": "C02",
   "status": "proved",
   "theorems": [
    "BwTree.C02_insert",
    "BwTree.C04_history",
    "BwTree.Iterator.C02_insert_tree"
   ],
   "note": "leaf level: every reachable leaf chain, every key in its range; whole tree: every execution in which no other thread runs an update meanwhile"
  },
  {
   "property": "C03",
   "status": "proved",
   "theorems": [
    "BwTree.C03_delete",
    "BwTree.C04_history",
    "BwTree.Iterator.C03_delete_tree"
   ],
   "note": "leaf level and whole tree"
  },
  {
   "property": "C04",
   "status": "partial",
   "theorems": [
    "BwTree.C04_lookup_partial",
    "BwTree.C04_lookup_sound",
    "BwTree.C04_history",
    "BwTree.Iterator.C04_get_tree_partial"
   ],
   "note": "returned values are always stored and distinct; completeness excludes chains with a data record above a merge record: the code misses values there (C30_getValue_wrong)"
  },
  {
   "property": "C05",
   "status": "partial",
   "theorems": [
    "BwTree.C05_result",
    "BwTree.C05_chain_partial",
    "BwTree.C05_consolidation_breaks",
    "BwTree.Tree.C05_tree",
    "BwTree.Tree.C05_tree_continues_partial",
    "BwTree.Tree.C05_tree_fresh_partial",
    "BwTree.Tree.C05_histories_partial",
    "BwTree.Tree.C05_histories_return",
    "BwTree.Tree.C05_linearizable_partial",
    "BwTree.Tree.C05_failures",
    "BwTree.Tree.C05_tree_breaks"
   ],
   "note": "results, flag and set effect proved on every leaf chain (C05_result) and on whole trees after any history of calls that do not overlap (C05_tree); the tree left behind is one the other calls reach unless the pair is in the base node of its leaf, deleted (C05_tree_continues_partial), so every history that conditionally inserts only pairs not deleted before refines the set specification (C05_histories_partial); otherwise the next consolidation or iterator runs into undefined behaviour (witnesses C05_consolidation_breaks, C05_tree_breaks). With overlapping calls: every history of all calls and of conditional insertions of pairs that nobody deletes is linearizable (C05_linearizable_partial), and no call runs into a wrong index (C05_failures). Missing: overlapping calls with conditional insertions of pairs that are deleted, for which the code is wrong"
  },
  {
   "property": "C06",
   "status": "proved",
   "theorems": [
    "BwTree.C06_consolidate"
   ],
   "note": ""
  },
  {
   "property": "C07",
   "status": "proved",
   "theorems": [
    "BwTree.C07_item_count",
    "BwTree.C07_scratch_fits",
    "BwTree.C07_search_in_range"
   ],
   "note": ""
  },
  {
   "property": "C08",
   "status": "partial",
   "theorems": [
    "BwTree.C08_inner_consolidation",
    "BwTree.C07_item_count",
    "BwTree.Tree.C08_leaf_depth",
    "BwTree.Tree.C08_leaf_depth_met",
    "BwTree.Tree.C08_inner_depth_exceeds",
    "BwTree.C08_inner_scratch_fits"
   ],
   "note": "scratch arrays proved for leaf and inner chains of any shape; leaf depth proved at most 8 in every reachable state; for inner nodes the bound is false: C08_inner_depth_exceeds reaches depth 9 with two threads (defect 19)"
  },
  {
   "property": "C09",
   "status": "proved",
   "theorems": [
    "BwTree.C09_split",
    "BwTree.C09_split_iff"
   ],
   "note": ""
  },
  {
   "property": "C10",
   "status": "proved",
   "theorems": [
    "BwTree.C10_inner_split"
   ],
   "note": ""
  },
  {
   "property": "C11",
   "status": "proved",
   "theorems": [
    "BwTree.C11_merge"
   ],
   "note": ""
  },
  {
   "property": "C12",
   "status": "proved",
   "theorems": [
    "BwTree.C12_search",
    "BwTree.C12_no_overshoot",
    "BwTree.C12_existence"
   ],
   "note": ""
  },
  {
   "property": "C13",
   "status": "proved",
   "theorems": [
    "BwTree.C13_left_sibling",
    "BwTree.C13_left_sibling_below",
    "BwTree.C13_missing_separator",
    "BwTree.C13_scratch_fits"
   ],
   "note": "the separator of the removed node must still be in the parent; if not, the code may read out of bounds (C13_missing_separator)"
  },
  {
   "property": "C14",
   "status": "partial",
   "theorems": [
    "BwTree.Iterator.C14_scan_partial",
    "BwTree.Iterator.C14_ub_only_empty_first",
    "BwTree.Iterator.C15_begin_undefined",
    "BwTree.Iterator.C14_nonvacuous"
   ],
   "note": "complete, ordered, duplicate free for every quiet period of every concurrent execution; undefined exactly when Begin() reads an empty leftmost leaf that has a right sibling, which happens (witness)"
  },
  {
   "property": "C15",
   "status": "partial",
   "theorems": [
    "BwTree.Iterator.C15_begin_partial",
    "BwTree.Iterator.C15_begin_isEnd",
    "BwTree.Iterator.C15_begin_undefined",
    "BwTree.Iterator.C15_isBegin",
    "BwTree.Iterator.C15_null",
    "BwTree.Iterator.C15_nonvacuous"
   ],
   "note": "smallest element whenever the dereference is defined; undefined for an empty leftmost leaf (reachable witness)"
  },
  {
   "property": "C16",
   "status": "proved",
   "theorems": [
    "BwTree.Iterator.C16_begin",
    "BwTree.Iterator.C16_scan",
    "BwTree.Iterator.C16_isBegin_partial",
    "BwTree.Iterator.C16_isBegin_missed",
    "BwTree.Iterator.C16_nonvacuous"
   ],
   "note": "for runs of the loop that end; IsBegin() is sound, but false on the first pair when an empty leaf lies to its left (witness)"
  },
  {
   "property": "C17",
   "status": "partial",
   "theorems": [
    "BwTree.Iterator.C17_backward_scan_partial",
    "BwTree.Iterator.C17_backward_concurrent",
    "BwTree.Iterator.C17_nonvacuous",
    "BwTree.C17_backward_search_partial",
    "BwTree.C17_backward_search_wrong",
    "BwTree.C17_backward_helping_undefined",
    "BwTree.C17_backward_placeholder",
    "BwTree.Tree.C41_back_undefined",
    "BwTree.Tree.C41_back_never_returns",
    "BwTree.Tree.C41_back_placeholder"
   ],
   "note": "backward scan complete and ordered whenever its page reads are answered; three ways the page search goes wrong, with witnesses, also on whole trees used by a single thread"
  },
  {
   "property": "C18",
   "status": "partial",
   "theorems": [
    "BwTree.Iter.C18_defined_iff",
    "BwTree.Iter.C18_alive",
    "BwTree.Iter.C18_released_partial",
    "BwTree.Iter.C18_count_partial",
    "BwTree.Iter.C18_move_leak",
    "BwTree.Iter.C18_copy_null"
   ],
   "note": "holds for all uses without move assignment onto a live iterator and without copying a moved-from iterator; both exceptions fail, with witnesses"
  },
  {
   "property": "C19",
   "status": "partial",
   "theorems": [
    "BwTree.Iterator.C19_lt",
    "BwTree.Iterator.C19_eq",
    "BwTree.Iterator.C19_order_partial",
    "BwTree.Iterator.C19_rend_undefined"
   ],
   "note": "all triples of iterators that are at the end or point to an item; comparing an iterator before the first item is undefined (witness)"
  },
  {
   "property": "C20",
   "status": "partial",
   "theorems": [
    "BwTree.GC.C20_no_early_free",
    "BwTree.GC.C20_no_early_free_unpublished",
    "BwTree.GC.C20_linked_not_freed",
    "BwTree.GC.C20_two_tickers",
    "BwTree.GC.C20_unregister_running"
   ],
   "note": "proved for all interleavings under the caller contract (one thread advances the epoch, threads run only while registered); without the contract it fails, with witnesses"
  },
  {
   "property": "C21",
   "status": "proved",
   "theorems": [
    "BwTree.GC.C21_fifo",
    "BwTree.GC.C21_freed_once",
    "BwTree.GC.C21_counter",
    "BwTree.GC.C21_reclaims",
    "BwTree.GC.C21_collection_ends",
    "BwTree.GC.C21_nonvacuous",
    "BwTree.GC.C21_bounded_delay",
    "BwTree.Tree.C21_tree_reclaims"
   ],
   "note": ""
  },
  {
   "property": "C22",
   "status": "proved",
   "theorems": [
    "BwTree.AStack.C22_linearizable",
    "BwTree.AStack.C22_conservation",
    "BwTree.AStack.C22_fail_only_if",
    "BwTree.AStack.C22_in_bounds",
    "BwTree.AStack.C22_batch_overrun"
   ],
   "note": "bounds hold under the caller contract FitsRun; without it the batch push overruns (witness)"
  },
  {
   "property": "C23",
   "status": "partial",
   "theorems": [
    "BwTree.NodeId.C23_unique",
    "BwTree.NodeId.C23_first_ids",
    "BwTree.NodeId.C23_in_table_partial",
    "BwTree.NodeId.C23_table_overflow"
   ],
   "note": "uniqueness in full; inside the table only for the first 2^20-1 allocations, the next one writes out of bounds (witness)"
  },
  {
   "property": "C24",
   "status": "proved",
   "theorems": [
    "BwTree.Alloc.C24_disjoint",
    "BwTree.Alloc.C24_inside",
    "BwTree.Alloc.C24_destroy"
   ],
   "note": ""
  },
  {
   "property": "C25",
   "status": "proved",
   "theorems": [
    "BwTree.C25_byte_in_bounds",
    "BwTree.C25_exists_exact"
   ],
   "note": ""
  },
  {
   "property": "C26",
   "status": "proved",
   "theorems": [
    "BwTree.C26_insert_sequence",
    "BwTree.C26_insertNoDedup_sequence",
    "BwTree.C26_popFront"
   ],
   "note": ""
  },
  {
   "property": "C27",
   "status": "proved",
   "theorems": [
    "BwTree.TL.C27_aligned_inside",
    "BwTree.TL.C27_disjoint",
    "BwTree.TL.C27_registered"
   ],
   "note": ""
  },
  {
   "property": "C28",
   "status": "proved",
   "theorems": [
    "BwTree.Tree.C28_leaves_partition",
    "BwTree.Tree.C28_no_pair_twice"
   ],
   "note": ""
  },
  {
   "property": "C29",
   "status": "proved",
   "theorems": [
    "BwTree.Tree.C29_steps_keep_set"
   ],
   "note": ""
  },
  {
   "property": "C30",
   "status": "partial",
   "theorems": [
    "BwTree.C30_getValue_wrong",
    "BwTree.Tree.C30_linearizable_sound",
    "BwTree.Tree.C01_getValue_not_linearizable",
    "BwTree.Tree.C01_linearizable_partial"
   ],
   "note": "the property fails: witness chain and a reachable non-linearizable execution (missed values); it holds whenever no data record lies above a merge record in the leaf that was read; without that proviso all calls are linearizable if GetValue may miss values (it returns no wrong value and none twice)"
  },
  {
   "property": "C31",
   "status": "partial",
   "theorems": [
    "BwTree.Tree.C31_getValue_uses_uninitialised",
    "BwTree.Tree.C31_failures_partial",
    "BwTree.Tree.C31_stale_root_assertion",
    "BwTree.Tree.C31_getValue_outside_leaf",
    "BwTree.Tree.C31_merge_assertion"
   ],
   "note": "the property fails: GetValue can use its uninitialised snapshot or search outside a leaf's array, every call that goes down from the root can stop at the assertion that a node under change has a parent, and Insert, Delete, Begin(k) and stepping back at the assertion that a separator to be deleted is in the range of the parent (reachable witnesses); all other calls never use the uninitialised snapshot, and the possible failures of each call are listed"
  },
  {
   "property": "C32",
   "status": "proved",
   "theorems": [
    "BwTree.Iterator.C32_scanFrom",
    "BwTree.Iterator.C32_concurrent_scan",
    "BwTree.Iterator.C32_concurrent_scanAll",
    "BwTree.Iterator.C16_nonvacuous"
   ],
   "note": ""
  },
  {
   "property": "C33",
   "status": "partial",
   "theorems": [
    "BwTree.OldEpoch.C33_no_early_free_partial",
    "BwTree.OldEpoch.C33_freed_once",
    "BwTree.OldEpoch.C33_freed_retired",
    "BwTree.OldEpoch.C33_no_crash",
    "BwTree.OldEpoch.C33_ub_only_join",
    "BwTree.OldEpoch.C33_join_race",
    "BwTree.OldEpoch.C33_undo_race",
    "BwTree.OldEpoch.C33_atomic_join",
    "BwTree.OldEpoch.C33_destroy"
   ],
   "note": "safe for every execution that does not touch a deleted epoch node; only JoinEpoch can do so, and it can (witnesses); with an uninterrupted JoinEpoch the claim holds in full"
  },
  {
   "property": "C34",
   "status": "partial",
   "theorems": [
    "BwTree.FreeChain.C34_each_once",
    "BwTree.FreeChain.C34_released_once",
    "BwTree.FreeChain.C34_no_use_after_release_partial",
    "BwTree.FreeChain.C34_merge_destructor_after_release",
    "BwTree.Tree.C34_tree_chain",
    "BwTree.Tree.C34_collector_merge_destructor"
   ],
   "note": "every node destroyed once, nothing below remove/abort touched; the destructor of a merge record runs on memory already returned. C34_tree_chain says for the chains of the tree in every execution which of the two happens; C34_collector_merge_destructor is an execution of tree and collector in which it does. Harmless when the destructor of the key type does nothing"
  },
  {
   "property": "C35",
   "status": "proved",
   "theorems": [
    "BwTree.C35_trichotomy",
    "BwTree.C35_congr"
   ],
   "note": ""
  },
  {
   "property": "C36",
   "status": "proved",
   "theorems": [
    "BwTree.Tree.C36_no_double_free",
    "BwTree.Tree.C36_frees_allocated",
    "BwTree.Tree.C36_records_consistent",
    "BwTree.Tree.C36_epochs_freed_once"
   ],
   "note": "all interleavings of all calls; every chain handed over during the whole execution"
  },
  {
   "property": "C37",
   "status": "partial",
   "theorems": [
    "BwTree.Tree.C37_linked_not_retired_partial",
    "BwTree.Tree.C37_right_sibling_not_retired",
    "BwTree.Tree.C37_tree_not_retired",
    "BwTree.Tree.C37_tree_disjoint",
    "BwTree.Tree.C37_epochs"
   ],
   "note": "everything linked from the root, the leftmost leaf, children and right siblings; a search can be led elsewhere by an outdated neighbour field of a separator record (C44_use_after_free)"
  },
  {
   "property": "C38",
   "status": "proved",
   "theorems": [
    "BwTree.Tree.C38_accounted",
    "BwTree.Tree.C38_no_leak",
    "BwTree.Tree.C38_marker_retired"
   ],
   "note": "all interleavings of all calls, every earlier and later moment"
  },
  {
   "property": "C39",
   "status": "proved",
   "theorems": [
    "BwTree.Tree.C39_locked_running",
    "BwTree.Tree.C39_no_lock_left"
   ],
   "note": "all interleavings of all calls; a thread stopped at a failed assertion counts as running"
  },
  {
   "property": "C40",
   "status": "partial",
   "theorems": [
    "BwTree.Tree.C40_no_double_free",
    "BwTree.Tree.C40_completes",
    "BwTree.Tree.C40_frees_partial",
    "BwTree.Tree.C40_no_leak_partial",
    "BwTree.Tree.C40_leaks",
    "BwTree.Tree.C40_unfinished_removal",
    "BwTree.Tree.C40_merge_destructor",
    "BwTree.Tree.C40_merge_destructor_witness",
    "BwTree.Tree.C40_shared_memory"
   ],
   "note": "the claim is false in three ways: C40_leaks reaches, with all calls returned, a tree with a leaf that the destructor does not free; C40_unfinished_removal one with a leaf marked removed but never merged, where the destructor stops at its assertion. No double free, no use after free and termination are proved for every tree left behind by any interleaving; completeness is proved for nodes below the root by child pointers and split records, and reaching the end for trees in which no removal was left unfinished. C40_no_double_free takes each record for an allocation of its own; in the memory the records really share, a merge record left in the tree is destroyed after its memory was released (C40_merge_destructor, C40_merge_destructor_witness); without one in the tree it uses no memory it gave back (C40_shared_memory)"
  },
  {
   "property": "C41",
   "status": "partial",
   "theorems": [
    "BwTree.Tree.C41_returns",
    "BwTree.Tree.C41_get_partial",
    "BwTree.Tree.C41_deterministic",
    "BwTree.Tree.C41_back_undefined",
    "BwTree.Tree.C41_back_placeholder",
    "BwTree.Tree.C41_back_never_returns",
    "BwTree.Tree.C41_collected"
   ],
   "note": "Insert, Delete, Begin(k), Begin() and stepping forward: every call returns after any history of them and of GetValue, unless the mapping table is full; GetValue may in addition stop at its uninitialised parent snapshot; the claim is false for stepping backwards: after a merge it may be undefined or never return, and it is undefined at a page that begins with the default key (witnesses); C41_collected says the same, with a bound on the number of steps, while the collector destroys retired records and clears the entries of removed nodes"
  },
  {
   "property": "C42",
   "status": "proved",
   "theorems": [
    "BwTree.Tree.C42_exact",
    "BwTree.Tree.C42_collected",
    "BwTree.Tree.C42_example"
   ],
   "note": "histories of Insert, Delete, GetValue, Begin(k), Begin() and steps forward, of any number of threads, one call after the other; C42_collected: also while the collector destroys retired records and clears the entries of removed nodes"
  },
  {
   "property": "C43",
   "status": "proved",
   "theorems": [
    "BwTree.Tree.C43_destroy",
    "BwTree.Tree.C43_collected",
    "BwTree.Tree.C43_shared_memory"
   ],
   "note": "histories as for C42; everything that was part of the tree at any moment, also within a call. C43_collected: the collector has destroyed any part of the retired memory, during calls or between them, before the destructor runs; what it destroyed is not touched again, and everything else that was ever part of the tree is freed once. C43_shared_memory: the same for memory shared by the records of a chain; after such calls no node of the tree has a merge record (retired chains may: C34)"
  },
  {
   "property": "C44",
   "status": "partial",
   "theorems": [
    "BwTree.Tree.C44_load",
    "BwTree.Tree.C44_contents_partial",
    "BwTree.Tree.C44_no_use_after_free_partial",
    "BwTree.Tree.C44_epochs_collector",
    "BwTree.Tree.C44_epochs_partial",
    "BwTree.Tree.C44_epochs_not_blocked",
    "BwTree.Tree.C44_epochs_complete",
    "BwTree.Tree.C44_sequential",
    "BwTree.Tree.C44_no_overlap",
    "BwTree.Tree.C44_collected",
    "BwTree.Tree.C44_use_after_free",
    "BwTree.Tree.C44_back_use_after_free",
    "BwTree.Tree.C44_epochs_use_after_free",
    "BwTree.Tree.C44_epochs_back_use_after_free",
    "BwTree.Tree.C44_back_late_read",
    "BwTree.Tree.C44_chunks_partial",
    "BwTree.Tree.C44_chunks_sequential"
   ],
   "note": "proved for the tree running together with the epoch manager (C44_epochs_*), and for any collector with the property C20; it holds for every call except stepping back as long as calls do not overlap (C44_sequential, C44_no_overlap; C44_collected on a memory from which the collector really takes the records away); with overlap it holds for every NodeID that the tree names (missing there: what lies below the record found, for a NodeID that was already merged away when the tree named it) and fails for NodeIDs that only an outdated neighbour field names: witnesses for GetValue, Insert, Delete, Begin(key) after overlapping calls and for stepping back without overlap; in both cases the epoch manager of the code does destroy the node before the call begins (C44_epochs_use_after_free, C44_epochs_back_use_after_free); stepping back also reads the leaf it found once more after leaving the epoch, when the collector can have destroyed it (C44_back_late_read). C44_chunks_partial and C44_chunks_sequential say the same of the memory chunks in which records lie"
  },
  {
   "property": "C45",
   "status": "partial",
   "theorems": [
    "BwTree.Tree.C45_alone_never_returns",
    "BwTree.Tree.C45_get_never_returns",
    "BwTree.Tree.C41_returns"
   ],
   "note": "the property fails: witness of 9691 calls by two threads, of which the second makes one, for Insert, Delete and Begin(key), and 40 deletes more for GetValue as well; it holds after any history of calls that do not overlap (C41_returns)"
  },
  {
   "property": "C46",
   "status": "proved",
   "theorems": [
    "BwTree.Iterator.C46_scanFrom_ends",
    "BwTree.Iterator.C46_begin_ends",
    "BwTree.Iterator.C46_step_ends",
    "BwTree.Iterator.C46_deterministic",
    "BwTree.Iterator.C46_scanAll_ends_partial",
    "BwTree.Iterator.C46_scanFrom_collected",
    "BwTree.Iterator.C46_step_collected",
    "BwTree.Iterator.C46_example"
   ],
   "note": "Begin(k) in full. C46_scanAll_ends_partial: the loop from Begin() ends too, but in undefined behaviour if the leftmost leaf is empty and not the only one (C15). The same while the collector destroys retired memory between and during the page reads (C46_scanFrom_collected, C46_step_collected)."
  },
  {
   "property": "C47",
   "status": "proved",
   "theorems": [
    "BwTree.GC.Rec.C47_no_fault",
    "BwTree.GC.Rec.C47_lists",
    "BwTree.GC.Rec.C47_update",
    "BwTree.GC.Rec.C47_tearDown",
    "BwTree.GC.Rec.C47_freed_once",
    "BwTree.GC.Rec.C47_no_early_free",
    "BwTree.GC.Rec.C47_refines",
    "BwTree.GC.Rec.C47_covers",
    "BwTree.GC.Rec.demo_exec",
    "BwTree.Tree.C47_tree_update"
   ],
   "note": "Usage contract in Spec/GarbageList.Allowed: one thread calls IncreaseEpoch, threads are unregistered between operations, UpdateThreadLocal runs while no operation runs, the epoch counter has not reached 2^64-1. Two threads must not use the same id. C47_tree_update: the tree with the epoch manager across changes of the number of threads."
  },
  {
   "property": "C48",
   "status": "proved",
   "theorems": [
    "BwTree.GC.Rec.C48_ids",
    "BwTree.GC.Rec.C48_usable",
    "BwTree.GC.Rec.C48_bad_id",
    "BwTree.GC.Rec.C48_silent_thread"
   ],
   "note": "Ids come from RegisterThread; with AssignGCID the caller chooses them."
  },
  {
   "property": "C49",
   "status": "partial",
   "theorems": [
    "BwTree.Tree.C49_keys",
    "BwTree.Tree.C49_keys_live_partial",
    "BwTree.Tree.C49_keys_sequential"
   ],
   "note": "where the pointers lead is proved for every node; that the memory is still there while a call runs, for nodes not merged away when the call met their NodeID (the gap of C44); when calls do not overlap, for every node of the tree that a call reads (C49_keys_sequential)"
  },
  {
   "property": "C50",
   "status": "partial",
   "theorems": [
    "BwTree.Alloc.C50_aligned_partial",
    "BwTree.Alloc.C50_misaligned"
   ],
   "note": "holds for types aligned to at most 8 bytes; fails for every type aligned to 16 bytes: then no node and no record allocated in its space is aligned"
  },
  {
   "property": "C51",
   "status": "partial",
   "theorems": [
    "BwTree.Peloton.C51_scan_partial",
    "BwTree.Peloton.C51_scan_begin_partial",
    "BwTree.Peloton.C51_scan_all_keys_partial",
    "BwTree.Peloton.C51_scan_objects_partial",
    "BwTree.Peloton.C51_scan_point_partial",
    "BwTree.Peloton.C51_mvcc_scan_partial",
    "BwTree.Peloton.C51_scan_concurrent",
    "BwTree.Peloton.C51_scan_begin_concurrent_partial",
    "BwTree.Peloton.C51_scan_all_keys_concurrent_partial",
    "BwTree.Peloton.C51_scan_stops_early",
    "BwTree.Peloton.C51_point_misses",
    "BwTree.Peloton.C51_mvcc_misses",
    "BwTree.Peloton.C51_scan_undefined"
   ],
   "note": "with = on the leading column: never undefined, exact, also while other calls run, if the columns compared with = are the leading ones; refuted otherwise (stops early), for the scan into objects with = on some of the columns only (looks up one key), for mvcc-dev-scale unless all constraints are equalities (unset start key), and for scans from the beginning when the first leaf is empty (undefined). ConstructLowerBoundTuple and Compare are not in the repository: their contract is a hypothesis. When calls do not overlap the scans end, unless reading on uses up the mapping table; when they overlap termination is not claimed."
  },
  {
   "property": "C52",
   "status": "partial",
   "theorems": [
    "BwTree.Peloton.C52_insert_entry",
    "BwTree.Peloton.C52_cond_insert_partial",
    "BwTree.Peloton.C52_cond_insert_aborts",
    "BwTree.Tree.C52_tree_insert",
    "BwTree.Tree.C52_tree_cond_partial",
    "BwTree.Tree.C52_concurrent_partial",
    "BwTree.Tree.C52_tree_cond_aborts"
   ],
   "note": "on the leaf the key belongs to; refuted for CondInsertEntry of an entry that is there already when no value satisfies the predicate: ConditionalInsert returns false with the flag unset, and the assert fails; the same on whole trees after any history of calls that do not overlap (C52_tree_*); with overlapping calls the assert fails only if another call inserts the same entry (C52_concurrent_partial)"
  },
  {
   "property": "C53",
   "status": "partial",
   "theorems": [
    "BwTree.Tree.C53_exclusive_partial",
    "BwTree.Tree.C53_race"
   ],
   "note": "all interleavings, for executions in which ConditionalInsert is only called for pairs that nobody deletes (otherwise see C05_tree_breaks); C53_race is an execution in which two threads race"
  },
  {
   "property": "C54",
   "status": "partial",
   "theorems": [
    "BwTree.Spin.C54_exclusive",
    "BwTree.Spin.C54_readers_partial",
    "BwTree.Spin.C54_writer_races",
    "BwTree.Spin.C54_writer_races_reader",
    "BwTree.Spin.C54_repaired"
   ],
   "note": "exclusion and the assertions in full, under relaxed loads of stale values and spurious failures; no data race for readers; refuted for writers: write_lock ends with a release fence where an acquire fence is needed, with which the claim holds (C54_repaired)"
  },
  {
   "property": "C55",
   "status": "partial",
   "theorems": [
    "BwTree.GC.C55_no_early_free_partial",
    "BwTree.GC.C55_unregister_partial",
    "BwTree.GC.C55_ticker_operates",
    "BwTree.GC.C55_rejoin",
    "BwTree.GC.C55_nonvacuous",
    "BwTree.Tree.C55_tree_collector_partial",
    "BwTree.Tree.C55_tree_partial",
    "BwTree.Tree.C55_tree_not_part_partial"
   ],
   "note": "proved when the epoch is advanced by a thread that does not use the tree itself and a thread that has called UnregisterThread does not start again (C55_unregister_partial); refuted for a thread that both advances the epoch and uses the tree (C55_ticker_operates), and for an unregistered thread that starts an operation again (C55_rejoin), although the contract of C20 is respected. Proved for objects that are linked and unlinked as in C20, and, without UnregisterThread, for the tree running together with the epoch manager as in C44 (C55_tree_*, with what is missing in C44_epochs_partial)"
  }
 ]
}
