#!/usr/bin/env python3
"""Writes MANIFEST.json. One entry per property: (status, theorem names without the BwTree prefix, note)."""
import json, os
C = {
 "C02": ("proved", ["C02_insert", "C04_history", "Iterator.C02_insert_tree"], "leaf level: every reachable leaf chain, every key in its range; whole tree: every execution in which no other thread runs an update meanwhile"),
 "C03": ("proved", ["C03_delete", "C04_history", "Iterator.C03_delete_tree"], "leaf level and whole tree"),
 "C04": ("partial", ["C04_lookup_partial", "C04_lookup_sound", "C04_history", "Iterator.C04_get_tree_partial"], "returned values are always stored and distinct; completeness excludes chains with a data record above a merge record: the code misses values there (C30_getValue_wrong)"),
 "C05": ("partial", ["C05_result", "C05_chain_partial", "C05_consolidation_breaks"], "results and set effect proved in full; the chain left behind is broken if the pair was deleted from the base node before (witness)"),
 "C06": ("proved", ["C06_consolidate"], ""),
 "C07": ("proved", ["C07_item_count", "C07_scratch_fits", "C07_search_in_range"], ""),
 "C09": ("proved", ["C09_split", "C09_split_iff"], ""),
 "C11": ("proved", ["C11_merge"], ""),
 "C22": ("proved", ["AStack.C22_linearizable", "AStack.C22_conservation", "AStack.C22_fail_only_if", "AStack.C22_in_bounds", "AStack.C22_batch_overrun"], "bounds hold under the caller contract FitsRun; without it the batch push overruns (witness)"),
 "C18": ("partial", ["Iter.C18_defined_iff", "Iter.C18_alive", "Iter.C18_released_partial", "Iter.C18_count_partial", "Iter.C18_move_leak", "Iter.C18_copy_null"], "holds for all uses without move assignment onto a live iterator and without copying a moved-from iterator; both exceptions fail, with witnesses"),
 "C20": ("partial", ["GC.C20_no_early_free", "GC.C20_no_early_free_unpublished", "GC.C20_linked_not_freed", "GC.C20_two_tickers", "GC.C20_unregister_running"], "proved for all interleavings under the caller contract (one thread advances the epoch, threads run only while registered); without the contract it fails, with witnesses"),
 "C21": ("proved", ["GC.C21_fifo", "GC.C21_freed_once", "GC.C21_counter", "GC.C21_reclaims", "GC.C21_collection_ends", "GC.C21_nonvacuous"], ""),
 "C23": ("partial", ["NodeId.C23_unique", "NodeId.C23_first_ids", "NodeId.C23_in_table_partial", "NodeId.C23_table_overflow"], "uniqueness in full; inside the table only for the first 2^20-1 allocations, the next one writes out of bounds (witness)"),
 "C24": ("proved", ["Alloc.C24_disjoint", "Alloc.C24_inside", "Alloc.C24_destroy"], ""),
 "C27": ("proved", ["TL.C27_aligned_inside", "TL.C27_disjoint", "TL.C27_registered"], ""),
 "C25": ("proved", ["C25_byte_in_bounds", "C25_exists_exact"], ""),
 "C26": ("proved", ["C26_insert_sequence", "C26_insertNoDedup_sequence", "C26_popFront"], ""),
 "C08": ("partial", ["C08_inner_consolidation", "C07_item_count"], "scratch arrays proved for leaf and inner chains of any shape; the bound on the depth itself is part of the concurrent model, not proved yet"),
 "C10": ("proved", ["C10_inner_split"], ""),
 "C12": ("proved", ["C12_search", "C12_no_overshoot", "C12_existence"], ""),
 "C13": ("proved", ["C13_left_sibling", "C13_left_sibling_below", "C13_missing_separator"], "the separator of the removed node must still be in the parent; if not, the code may read out of bounds (C13_missing_separator)"),
 "C17": ("partial", ["Iterator.C17_backward_scan_partial", "Iterator.C17_backward_concurrent", "Iterator.C17_nonvacuous", "C17_backward_search_partial", "C17_backward_search_wrong", "C17_backward_helping_undefined", "C17_backward_placeholder", "Tree.C41_back_undefined", "Tree.C41_back_never_returns"], "backward scan complete and ordered whenever its page reads are answered; three ways the page search goes wrong, with witnesses, also on whole trees used by a single thread"),
 "C34": ("partial", ["FreeChain.C34_each_once", "FreeChain.C34_released_once", "FreeChain.C34_no_use_after_release_partial", "FreeChain.C34_merge_destructor_after_release"], "every node destroyed once, nothing below remove/abort touched; the destructor of a merge record runs on memory already returned"),
 "C30": ("partial", ["C30_getValue_wrong", "Tree.C30_linearizable_sound", "Tree.C01_getValue_not_linearizable", "Tree.C01_linearizable_partial"], "the property fails: witness chain and a reachable non-linearizable execution (missed values); it holds whenever no data record lies above a merge record in the leaf that was read; without that proviso all calls are linearizable if GetValue may miss values (it returns no wrong value and none twice)"),
 "C01": ("partial", ["Tree.C01_updates_linearizable", "Tree.C01_linearizable_partial", "Tree.C01_all_calls_linearizable", "Iterator.C01_takes_effect", "Tree.C01_getValue_not_linearizable"], "Insert and Delete: proved in full for all interleavings. GetValue: proved when no data record lies above a merge record in the leaf it reads; otherwise false, with a reachable witness. Executions in which a thread stops at a failed assertion are covered up to that point"),
 "C28": ("proved", ["Tree.C28_leaves_partition", "Tree.C28_no_pair_twice"], ""),
 "C29": ("proved", ["Tree.C29_steps_keep_set"], ""),
 "C31": ("partial", ["Tree.C31_getValue_uses_uninitialised", "Tree.C31_failures_partial"], "the property fails (reachable witness); all other calls never use the uninitialised snapshot"),
 "C14": ("partial", ["Iterator.C14_scan_partial", "Iterator.C14_ub_only_empty_first", "Iterator.C15_begin_undefined", "Iterator.C14_nonvacuous"], "complete, ordered, duplicate free for every quiet period of every concurrent execution; undefined exactly when Begin() reads an empty leftmost leaf that has a right sibling, which happens (witness)"),
 "C15": ("partial", ["Iterator.C15_begin_partial", "Iterator.C15_begin_isEnd", "Iterator.C15_begin_undefined", "Iterator.C15_isBegin", "Iterator.C15_null", "Iterator.C15_nonvacuous"], "smallest element whenever the dereference is defined; undefined for an empty leftmost leaf (reachable witness)"),
 "C16": ("proved", ["Iterator.C16_begin", "Iterator.C16_scan", "Iterator.C16_isBegin_partial", "Iterator.C16_isBegin_missed", "Iterator.C16_nonvacuous"], "for runs of the loop that end; IsBegin() is sound, but false on the first pair when an empty leaf lies to its left (witness)"),
 "C19": ("partial", ["Iterator.C19_lt", "Iterator.C19_eq", "Iterator.C19_order_partial", "Iterator.C19_rend_undefined"], "all triples of iterators that are at the end or point to an item; comparing an iterator before the first item is undefined (witness)"),
 "C32": ("proved", ["Iterator.C32_scanFrom", "Iterator.C32_concurrent_scan", "Iterator.C32_concurrent_scanAll", "Iterator.C16_nonvacuous"], ""),
 "C33": ("partial", ["OldEpoch.C33_no_early_free_partial", "OldEpoch.C33_freed_once", "OldEpoch.C33_freed_retired", "OldEpoch.C33_no_crash", "OldEpoch.C33_ub_only_join", "OldEpoch.C33_join_race", "OldEpoch.C33_undo_race", "OldEpoch.C33_atomic_join", "OldEpoch.C33_destroy"], "safe for every execution that does not touch a deleted epoch node; only JoinEpoch can do so, and it can (witnesses); with an uninterrupted JoinEpoch the claim holds in full"),
 "C36": ("proved", ["Tree.C36_no_double_free", "Tree.C36_frees_allocated", "Tree.C36_records_consistent"], "all interleavings of all calls; every chain handed over during the whole execution"),
 "C37": ("partial", ["Tree.C37_linked_not_retired_partial", "Tree.C37_right_sibling_not_retired", "Tree.C37_tree_not_retired", "Tree.C37_tree_disjoint"], "everything linked from the root, the leftmost leaf, children and right siblings; a search that is misled by a separator posted after its node was merged away is not covered"),
 "C38": ("proved", ["Tree.C38_accounted", "Tree.C38_no_leak", "Tree.C38_marker_retired"], "all interleavings of all calls, every earlier and later moment"),
 "C39": ("proved", ["Tree.C39_locked_running", "Tree.C39_no_lock_left"], "all interleavings of all calls; a thread stopped at a failed assertion counts as running"),
 "C40": ("partial", ["Tree.C40_no_double_free", "Tree.C40_completes", "Tree.C40_frees_partial", "Tree.C40_no_leak_partial"], "no double free, no use after free and termination are proved for every tree left behind by any interleaving; completeness is proved for nodes below the root by child pointers, and reaching the end for trees in which no removal was left unfinished; that every execution leaves such a tree is not proved"),
 "C41": ("partial", ["Tree.C41_returns", "Tree.C41_get_partial", "Tree.C41_deterministic", "Tree.C41_back_undefined", "Tree.C41_back_never_returns"], "Insert, Delete, Begin(k), Begin() and stepping forward: every call returns after any history of them and of GetValue, unless the mapping table is full; GetValue may in addition stop at its uninitialised parent snapshot; the claim is false for stepping backwards: after a merge it may be undefined or never return (witnesses)"),
 "C42": ("proved", ["Tree.C42_exact", "Tree.C42_example"], "histories of Insert, Delete, GetValue, Begin(k), Begin() and steps forward, of any number of threads, one call after the other"),
 "C43": ("proved", ["Tree.C43_destroy"], "histories as for C42; everything that was part of the tree at any moment, also within a call"),
 "C44": ("partial", ["Tree.C44_load", "Tree.C44_contents_partial", "Tree.C44_no_use_after_free_partial"], "the collector is what C20 proves of the epoch manager; missing: what lies below the record found, for a NodeID that was already merged away when the tree named it"),
 "C35": ("proved", ["C35_trichotomy", "C35_congr"], ""),
}
out = {"claims": [{"property": p, "status": s, "theorems": ["BwTree." + t for t in ts], "note": n} for p, (s, ts, n) in sorted(C.items())]}
json.dump(out, open(os.path.join(os.path.dirname(__file__), "..", "MANIFEST.json"), "w"), indent=1)
