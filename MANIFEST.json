{
 "claims": [
  {
   "property": "C01",
   "status": "proved",
   "theorems": [
    "Verif.Avl.C01_avl_history"
   ],
   "note": "All histories, all key/value types."
  },
  {
   "property": "C02",
   "status": "proved",
   "theorems": [
    "Verif.RedBlack.C02_rb_history"
   ],
   "note": "All histories."
  },
  {
   "property": "C03",
   "status": "proved",
   "theorems": [
    "Verif.Splay.C03_splay_history"
   ],
   "note": "All histories."
  },
  {
   "property": "C04",
   "status": "proved",
   "theorems": [
    "Verif.Treap.C04_treap_history",
    "Verif.Treap.C04_treap_represents"
   ],
   "note": "All histories, all priority draws; also for maps built by set operations and split_off."
  },
  {
   "property": "C05",
   "status": "proved",
   "theorems": [
    "Verif.Skip.Map.C05_skip_map_history",
    "Verif.Skip.Map.C05_skip_map_represents"
   ],
   "note": "Pointer-level model: nodes in a heap, null/dangling/out-of-bounds accesses make a call fail; the theorem says no call ever fails."
  },
  {
   "property": "C06",
   "status": "proved",
   "theorems": [
    "Verif.Avl.C06_avl_insert_balance"
   ],
   "note": ""
  },
  {
   "property": "C07",
   "status": "partial",
   "theorems": [
    "Verif.Avl.C07_avl_remove_unbalanced",
    "Verif.Avl.C07_avl_decay",
    "Verif.Avl.C07_avl_not_logarithmic",
    "Verif.Avl.C07_avl_remove_balance_partial"
   ],
   "note": "The full statement is false of the code: C07_avl_remove_unbalanced exhibits a history after which removal leaves a node with height difference 2, and C07_avl_decay gives for every h a history that leaves h(h+1)/2 keys in a tree of height h, so no logarithmic bound holds (C07_avl_not_logarithmic). The _partial theorem covers removals that do not go through the defective path."
  },
  {
   "property": "C08",
   "status": "proved",
   "theorems": [
    "Verif.RedBlack.C08_rb_height"
   ],
   "note": ""
  },
  {
   "property": "C09",
   "status": "proved",
   "theorems": [
    "Verif.Treap.C09_treap_heap",
    "Verif.Treap.C09_treap_shape"
   ],
   "note": ""
  },
  {
   "property": "C10",
   "status": "proved",
   "theorems": [
    "Verif.Treap.C10_union",
    "Verif.Treap.C10_intersection",
    "Verif.Treap.C10_difference",
    "Verif.Treap.C10_symmetric_difference"
   ],
   "note": "len exactness is part of Represents; TreapSet is the instance with unit values; + and - are union and difference."
  },
  {
   "property": "C11",
   "status": "proved",
   "theorems": [
    "Verif.Treap.C11_split_off"
   ],
   "note": ""
  },
  {
   "property": "C12",
   "status": "proved",
   "theorems": [
    "Verif.Treap.Implicit.C12_treap_list_history",
    "Verif.Treap.Implicit.C12_treap_list_represents",
    "Verif.Treap.Implicit.C12_treap_list_add"
   ],
   "note": ""
  },
  {
   "property": "C13",
   "status": "proved",
   "theorems": [
    "Verif.Skip.Lst.C13_skip_list_history",
    "Verif.Skip.Lst.C13_skip_list_represents"
   ],
   "note": "All histories, heights and allocation addresses; also every list built with + whose left operand never lost an element."
  },
  {
   "property": "C14",
   "status": "partial",
   "theorems": [
    "Verif.Skip.Lst.C14_skip_list_concat_partial",
    "Verif.Skip.Lst.C14_skip_list_concat_violated"
   ],
   "note": "The claim is false of the code: remove leaves stale distances in null links, which + then adds up (violated theorem gives the lists). Proved for left operands from which nothing was removed except by clear."
  },
  {
   "property": "C15",
   "status": "partial",
   "theorems": [
    "Verif.Skip.Map.C15_union",
    "Verif.Skip.Map.C15_difference_partial",
    "Verif.Skip.Map.C15_symmetric_difference_partial",
    "Verif.Skip.Map.C15_difference_crash",
    "Verif.Skip.Map.C15_intersection_partial",
    "Verif.Skip.Map.C15_difference_violated",
    "Verif.Skip.Map.C15_intersection_violated",
    "Verif.Skip.Map.C15_intersection_exact",
    "Verif.Skip.Map.C15_intersection_breaks"
   ],
   "note": "Union holds in full. Differences hold exactly when no left key exceeds all right keys and dereference null otherwise. Intersection works exactly when every left node with a common key has the full 33 links (one draw in 2^32); otherwise it writes out of bounds, or removing a common key from the result reads out of bounds. Missing because false: the other pairs of maps."
  },
  {
   "property": "C16",
   "status": "partial",
   "theorems": [
    "Verif.Skip.Map.C16_map_into_iter_exact",
    "Verif.Skip.Map.C16_map_into_iter_partial",
    "Verif.Skip.Map.C16_map_into_iter_violated",
    "Verif.Skip.Lst.C16_list_into_iter_exact",
    "Verif.Skip.Lst.C16_list_into_iter_partial",
    "Verif.Skip.Lst.C16_list_into_iter_violated"
   ],
   "note": "False of the code: dropping an unfinished consuming iterator drops every remaining element twice (exact theorems for SkipMap and SkipList). Proved for iterators run to the end. SkipSet wraps SkipMap's iterator."
  },
  {
   "property": "C17",
   "status": "proved",
   "theorems": [
    "Verif.Bst.C17_avl_iter",
    "Verif.Bst.C17_avl_iter_mut",
    "Verif.Bst.C17_rb_iter",
    "Verif.Bst.C17_rb_iter_mut",
    "Verif.Bst.C17_splay_iter",
    "Verif.Bst.C17_splay_iter_mut",
    "Verif.Bst.C17_treap_iter",
    "Verif.Bst.C17_treap_iter_mut",
    "Verif.Bst.C17_iter_mut_references"
   ],
   "note": ""
  },
  {
   "property": "C18",
   "status": "proved",
   "theorems": [
    "Verif.Arena.C18_history",
    "Verif.Arena.C18_no_panic",
    "Verif.Arena.C18_calls"
   ],
   "note": "All histories, all chunk sizes including 0."
  },
  {
   "property": "C19",
   "status": "proved",
   "theorems": [
    "Verif.Arena.C19_chunk_bound",
    "Verif.Arena.C19_new_chunk_only_when_full",
    "Verif.Arena.C19_position_kept",
    "Verif.Arena.C19_chunk_size_zero"
   ],
   "note": "C19_chunk_size_zero shows that the hypothesis of a positive chunk size is needed."
  },
  {
   "property": "C20",
   "status": "partial",
   "theorems": [
    "Verif.Arena.C20_stale_handle_reaches_new_object",
    "Verif.Arena.C20_freed_handle_is_reused",
    "Verif.Arena.C20_dead_until_reused_partial"
   ],
   "note": "The full statement is false of the code: handles carry no generation, the first allocation after a free returns the freed handle. The _partial theorem: dead until an allocation returns the handle again."
  },
  {
   "property": "C21",
   "status": "proved",
   "theorems": [
    "Verif.Stack.C21_linearizable",
    "Verif.Stack.C21_contents",
    "Verif.Stack.C21_no_loss_no_duplicate"
   ],
   "note": "Any number of threads, any schedule, any legal reclamation times; interleaving semantics of the atomic accesses."
  },
  {
   "property": "C22",
   "status": "partial",
   "theorems": [
    "Verif.Stack.C22_len_quiescent",
    "Verif.Stack.C22_len_bound",
    "Verif.Stack.C22_len_wraps_below_zero",
    "Verif.Stack.C22_no_wrap_partial"
   ],
   "note": "Quiescent exactness and the bound by the operations in progress are proved in full. 'Never wraps' is false of the code: C22_len_wraps_below_zero reaches an empty stack whose len is 2^64-1."
  },
  {
   "property": "C23",
   "status": "partial",
   "theorems": [
    "Verif.Stack.C23_popped_values_dropped_twice",
    "Verif.Stack.C23_double_drop",
    "Verif.Stack.C23_leak",
    "Verif.Stack.C23_collector_drops_popped_partial"
   ],
   "note": "The full statement is false of the code: every popped value is dropped again by the deferred closure, and values left in the stack are leaked."
  },
  {
   "property": "C24",
   "status": "proved",
   "theorems": [
    "Verif.Stack.C24_no_use_after_free",
    "Verif.Stack.C24_dereferenced_nodes_allocated",
    "Verif.Stack.C24_no_reclaim_while_held",
    "Verif.Stack.C24_cas_installs_current_next"
   ],
   "note": "Epoch scheme assumed as the contract stated in the property."
  },
  {
   "property": "C25",
   "status": "partial",
   "theorems": [
    "Verif.Radix.C25_radix_exact",
    "Verif.Radix.C25_radix_map_partial",
    "Verif.Radix.C25_violated",
    "Verif.Radix.C25_violated_last"
   ],
   "note": "As stated the property is false of the code: after a remove that leaves the map empty (even a remove on an empty map) the next insert panics (C25_violated, C25_violated_last). C25_radix_exact characterises the panicking histories exactly and shows that all other histories behave as an abstract map; C25_radix_map_partial is the property for histories in which no remove leaves the map empty."
  },
  {
   "property": "C26",
   "status": "proved",
   "theorems": [
    "Verif.Radix.C26_radix_order"
   ],
   "note": "For every reachable state, including the empty state after the last removal."
  },
  {
   "property": "C27",
   "status": "partial",
   "theorems": [
    "Verif.Radix.C27_longest_prefix_exact",
    "Verif.Radix.C27_longest_prefix_sound_partial",
    "Verif.Radix.C27_longest_prefix_extension_partial",
    "Verif.Radix.C27_violated",
    "Verif.Radix.C27_history_dependent"
   ],
   "note": "As stated the property is false of the code: {aab, aac} queried with aad returns nothing (C27_violated), and maps with equal contents can answer differently (C27_history_dependent). C27_longest_prefix_exact states what is returned in every case; soundness always holds; completeness holds whenever some stored key starts with the query."
  },
  {
   "property": "C28",
   "status": "partial",
   "theorems": [
    "Verif.Bp.C28_bp_map_partial",
    "Verif.Bp.C28_covered",
    "Verif.Bp.C28_exact",
    "Verif.Bp.C28_violated_all",
    "Verif.Bp.C28_violated",
    "Verif.Bp.C28_violated_small"
   ],
   "note": "The code does not have the property: with leaf degree 5 or more, inserting an existing key that is in one of the last slots of a full leaf loses entries, and degrees below the minimum panic. For leaf degree at least 1 and internal degree at least 3, C28_exact says exactly which histories behave as an ordered map: those in which no insert overwrites a key in a slot after leaf degree / 2 + 1 of a full leaf. C28_covered: these are all histories for leaf degree up to 4, and all histories without overwriting for any leaf degree. The violation is proved for every leaf degree from 5."
  },
  {
   "property": "C29",
   "status": "partial",
   "theorems": [
    "Verif.Bp.C29_balanced_partial"
   ],
   "note": "For the states reached by admissible histories (see C28), with leaf degree at least 1 and internal degree at least 3. By C28_exact these are all histories before the first one that has already destroyed entries; by C28_covered all histories if the leaf degree is at most 4. Missing: states after entries were destroyed, and smaller degrees."
  },
  {
   "property": "C30",
   "status": "partial",
   "theorems": [
    "Verif.Bp.C30_leaf_chain_partial"
   ],
   "note": "For the states reached by admissible histories (see C28), with leaf degree at least 1 and internal degree at least 3. By C28_exact these are all histories before the first one that has already destroyed entries; by C28_covered all histories if the leaf degree is at most 4. Missing: states after entries were destroyed, and smaller degrees."
  },
  {
   "property": "C31",
   "status": "partial",
   "theorems": [
    "Verif.Bp.C31_pages_partial"
   ],
   "note": "For the states reached by admissible histories (see C28), with leaf degree at least 1 and internal degree at least 3. By C28_exact these are all histories before the first one that has already destroyed entries; by C28_covered all histories if the leaf degree is at most 4. Missing: states after entries were destroyed, and smaller degrees."
  },
  {
   "property": "C32",
   "status": "proved",
   "theorems": [
    "Verif.Bp.C32_reopen",
    "Verif.Bp.C32_reopen_contents"
   ],
   "note": "Every state and every later history: C32_reopen has no restriction to admissible histories; C32_reopen_contents is about the histories that C28 covers."
  },
  {
   "property": "C33",
   "status": "partial",
   "theorems": [
    "Verif.Bp.C33_exact",
    "Verif.Bp.C33_fits_partial",
    "Verif.Bp.C33_nodes_partial",
    "Verif.Bp.C33_write_node",
    "Verif.Bp.C33_write_header",
    "Verif.Bp.C33_set_len",
    "Verif.Bp.C33_read",
    "Verif.Bp.C33_read_header",
    "Verif.Bp.C33_violated",
    "Verif.Bp.C33_violated_niche",
    "Verif.Bp.C33_violated_byte_keys",
    "Verif.Bp.C33_default_partial"
   ],
   "note": "The code does not have the property: for key or entry types whose Option needs no extra space (strings, non-zero integers, ...) and for one-byte keys the page size is too small. C33_exact says exactly when all nodes fit; for types that meet a simple criterion the byte-level file refines the page-level model. C33_default_partial: the degrees that new computes always pass the assertions of with_degrees, are the largest accepted ones, and are too small for the tree when two entries do not fit."
  },
  {
   "property": "C34",
   "status": "partial",
   "theorems": [
    "Verif.Bp.C34_insert_partial",
    "Verif.Bp.C34_remove_partial",
    "Verif.Bp.C34_violated_insert",
    "Verif.Bp.C34_violated_remove",
    "Verif.Bp.C34_violated_len",
    "Verif.Bp.C34_insert_exact",
    "Verif.Bp.C34_remove_exact",
    "Verif.Bp.C34_clear_exact",
    "Verif.Bp.C34_insert_state_exact",
    "Verif.Bp.C34_remove_state_exact"
   ],
   "note": "The code does not have the property: splitting insertions and borrowing removals pass through files that lose keys. The _exact theorems say for which calls it holds and that it fails for every other one: for the contents alone (no split, no sibling, clear of a one-leaf file) and for contents and stored length (only calls that do not change the length)."
  },
  {
   "property": "C35",
   "status": "partial",
   "theorems": [
    "Verif.Lsm.C35_violated",
    "Verif.Lsm.C35_get_partial",
    "Verif.Lsm.C35_exact",
    "Verif.Lsm.C35_get_exact",
    "Verif.Lsm.C35_clean_partial",
    "Verif.Lsm.C35_returns"
   ],
   "note": "The code does not have the property: a removed key can come back (C35_violated, a history of seven flushes with default-like factors). C35_get_partial: in every history live keys have their latest value and no value is made up. C35_exact and C35_get_exact say for every history exactly which answers are wrong: a removed key has the value v if and only if a call took over a compaction result in which the key is missing while the newest table entry of the key was a removal and the tables kept beside the result still have v, and the key was not written since. C35_clean_partial: the full property for histories in which no tombstone is the newest entry of a table written out. C35_returns: every call of such histories returns."
  },
  {
   "property": "C36",
   "status": "proved",
   "theorems": [
    "Verif.Lsm.C36_get",
    "Verif.Lsm.C36_returns",
    "Verif.Lsm.C36_limits"
   ],
   "note": "All histories including restarts, all thresholds, all times at which the background compaction finishes. C36_returns needs positive max_initial_level_count and growth_factor (see C45) and no restart before the first write (see C40)."
  },
  {
   "property": "C37",
   "status": "partial",
   "theorems": [
    "Verif.Lsm.C37_leveled",
    "Verif.Lsm.C37_sizeTiered_partial",
    "Verif.Lsm.C35_exact",
    "Verif.Lsm.C35_clean_partial",
    "Verif.Lsm.C35_violated",
    "Verif.Lsm.C37_limits"
   ],
   "note": "Full for the leveled strategy. With the size-tiered strategy a removed key can come back; proved there: ascending keys, every live pair is yielded with its latest value, the full statement for the histories of C35_clean_partial, and for every history exactly which removed pairs are yielded in addition (C35_exact, for iter, len and is_empty as for get)."
  },
  {
   "property": "C38",
   "status": "partial",
   "theorems": [
    "Verif.Lsm.C38_violated",
    "Verif.Lsm.C38_exact_partial",
    "Verif.Lsm.C38_flushed_partial",
    "Verif.Lsm.C38_bound_partial"
   ],
   "note": "The code does not have the property: a removal held in memory is not seen by min and max of the tables. C38_exact_partial, C38_flushed_partial and C38_bound_partial say what holds."
  },
  {
   "property": "C39",
   "status": "proved",
   "theorems": [
    "Verif.Lsm.C39_sizeTiered",
    "Verif.Lsm.C39_leveled"
   ],
   "note": "All histories and timings, both strategies."
  },
  {
   "property": "C40",
   "status": "partial",
   "theorems": [
    "Verif.Lsm.C40_sizeTiered_partial",
    "Verif.Lsm.C40_leveled_partial",
    "Verif.Lsm.C40_contents",
    "Verif.Lsm.C40_violated"
   ],
   "note": "Both strategies: once anything was written, the directory can be opened after flush and all questions have the same answers; with the leveled strategy later writes win (C40_contents). False of the code: a directory that was never written cannot be opened (C40_violated, for every strategy)."
  },
  {
   "property": "C41",
   "status": "partial",
   "theorems": [
    "Verif.Lsm.C41_violated",
    "Verif.Lsm.C41_leveled_partial",
    "Verif.Lsm.C41_sizeTiered_partial",
    "Verif.Lsm.C41_sound_leveled",
    "Verif.Lsm.C41_sound_sizeTiered",
    "Verif.Lsm.C41_deleting_leveled",
    "Verif.Lsm.C41_deleting_sizeTiered"
   ],
   "note": "The code does not have the property: table directories are deleted before the metadata is written. Proved: recovery from every crash point whose last write is not such a deletion, up to the last call that wrote the memory out, also with extra directories left by the thread (_partial). At every crash point, with any directories created or deleted in addition: if the directory opens, nothing flushed is lost (C41_sound). In every call but clear, each crash right after a deletion leaves a directory that does not open (C41_deleting)."
  },
  {
   "property": "C42",
   "status": "proved",
   "theorems": [
    "Verif.Lsm.File.C42_sstable",
    "Verif.Lsm.File.C42_refines"
   ],
   "note": "At the level of bytes: builder, files, binary search, offsets. Any filter without false negatives, any search function with the contract of binary_search_by_key, any block size. Files below 2^64 bytes. C42_refines connects the files with the tables used in the model of the map."
  },
  {
   "property": "C43",
   "status": "proved",
   "theorems": [
    "Verif.Lsm.C43_merge"
   ],
   "note": "For any number of sorted runs of any length: the merge yields each key once, ascending, with its newest version, and every key of the runs."
  },
  {
   "property": "C44",
   "status": "partial",
   "theorems": [
    "Verif.Lsm.C44_sizeTiered_partial",
    "Verif.Lsm.C44_leveled_partial",
    "Verif.Lsm.C44_violated"
   ],
   "note": "The budget holds in all histories. The bookkeeping is exact until clear is called; after that it is an upper bound (C44_violated)."
  },
  {
   "property": "C45",
   "status": "partial",
   "theorems": [
    "Verif.Lsm.C45_levels",
    "Verif.Lsm.C45_ends_partial",
    "Verif.Lsm.C45_ends_exact",
    "Verif.Lsm.C45_never_ends",
    "Verif.Lsm.C45_violated",
    "Verif.Lsm.C45_overflow_partial",
    "Verif.Lsm.C45_overflow_exact",
    "Verif.Lsm.C45_overflow_violated",
    "Verif.Lsm.C45_wrap_partial"
   ],
   "note": "Levels: proved for all histories and parameters. Termination: proved for positive max_initial_level_count and growth_factor. For the other parameters C45_ends_exact says exactly which compactions end: those whose live entries fit in max_initial_level_count tables; all others never end, which contradicts the claim (C45_violated). These theorems take the limits as unbounded numbers. In 64 bits: C45_overflow_partial says that if growth_factor times the number of different keys written is at most 2^64, all calls have the same results with checked and with wrapping arithmetic; C45_overflow_exact and C45_overflow_violated say what happens if the limits wrap around to 0 (endless compaction). For all other parameters C36_limits and C37_limits say that the answers are right whatever the limits are, and C87 what happens after the compaction thread has panicked on an overflow. C45_wrap_partial says that all histories run to their end if no limit wraps around to 0, for example for every odd growth_factor. Missing: which compactions end if the limits are positive at first and wrap around to 0 from a later level on."
  },
  {
   "property": "C46",
   "status": "proved",
   "theorems": [
    "Verif.Lsm.SizeTiered.C46_range",
    "Verif.Lsm.SizeTiered.C46_small"
   ],
   "note": "For every list of table sizes, every bucket test and every parameter."
  },
  {
   "property": "C47",
   "status": "proved",
   "theorems": [
    "Verif.Splay.C47_splay_insert",
    "Verif.Splay.C47_splay_get_mut",
    "Verif.Splay.C47_splay_remove_absent"
   ],
   "note": ""
  },
  {
   "property": "C48",
   "status": "proved",
   "theorems": [
    "Verif.Lsm.C48_is_intersecting",
    "Verif.Lsm.C48_merge_ranges"
   ],
   "note": "is_intersecting holds exactly when the two closed key ranges share a point; merge_ranges is the least range covering both."
  },
  {
   "property": "C51",
   "status": "proved",
   "theorems": [
    "Verif.Skip.Map.C51_skip_map_drop_frees_all"
   ],
   "note": ""
  },
  {
   "property": "C52",
   "status": "proved",
   "theorems": [
    "Verif.Skip.Lst.C52_skip_list_drop_frees_all"
   ],
   "note": ""
  },
  {
   "property": "C49",
   "status": "partial",
   "theorems": [
    "Verif.Sets.C49_avl_set",
    "Verif.Sets.C49_red_black_set",
    "Verif.Sets.C49_splay_set",
    "Verif.Sets.C49_treap_set",
    "Verif.Sets.C49_skip_set",
    "Verif.Sets.C49_treap_set_algebra",
    "Verif.Sets.C49_treap_set_split_off",
    "Verif.Sets.C49_skip_set_union",
    "Verif.Sets.C49_skip_set_difference_exact",
    "Verif.Sets.C49_radix_set_partial",
    "Verif.Sets.C49_radix_set_violated",
    "Verif.Sets.C49_skip_set_intersection_exact"
   ],
   "note": "Full for AvlSet, RedBlackSet, SplaySet, TreapSet (with all set operations) and for the single-set calls and union of SkipSet. SkipSet difference works exactly when no left element exceeds all right elements, its intersection exactly when all left nodes with common elements have full height. RadixSet panics when inserting after a removal that left it empty; proved for the other histories."
  },
  {
   "property": "C50",
   "status": "proved",
   "theorems": [
    "Verif.Stack.Weak.C50_no_fault",
    "Verif.Stack.Weak.C50_hb_linearizable",
    "Verif.Stack.Weak.C50_orderings_suffice",
    "Verif.Stack.Weak.C50_publication",
    "Verif.Stack.Weak.C50_clocks",
    "Verif.Stack.Weak.C50_len",
    "Verif.Stack.Weak.C50_realtime_violated",
    "Verif.Stack.Weak.C50_acquire_needed",
    "Verif.Stack.Weak.C50_release_needed"
   ],
   "note": "View-based machine for release/acquire/relaxed accesses without load buffering; crossbeam-epoch by contract. The order is up to happens-before of the client: C50_realtime_violated shows that real-time order fails without synchronisation. C50_acquire_needed and C50_release_needed show runs that go wrong when one ordering is weakened."
  },
  {
   "property": "C53",
   "status": "proved",
   "theorems": [
    "Verif.Splay.C53_splay_amortized",
    "Verif.Splay.C53_splay_total",
    "Verif.Splay.C53_get_linear"
   ],
   "note": "Comparisons are counted by an instrumented copy of the splay loop that is proved to compute the same tree. C53_get_linear shows that get and contains_key, which do not splay, are outside the bound."
  },
  {
   "property": "C54",
   "status": "partial",
   "theorems": [
    "Verif.Treap.C54_total",
    "Verif.Treap.C54_treap_expected_height",
    "Verif.Treap.C54_treap_height_tail",
    "Verif.Treap.C54_treap_expected_get",
    "Verif.Treap.C54_live_eq_len",
    "Verif.Treap.C54_overwrites_violated",
    "Verif.Treap.Implicit.C54_list_total",
    "Verif.Treap.Implicit.C54_list_expected_height"
   ],
   "note": "Proved for all histories with the number of insert calls whose key is still present in place of the number of keys; the two agree when no insert overwrites a value (C54_live_eq_len). With overwriting the documented claim is false of the code: a present key keeps the larger of its priorities, and C54_overwrites_violated gives histories with n keys and average height at least n/2. TreapList: proved in full. Draws are distinct; ties are not averaged over."
  },
  {
   "property": "C55",
   "status": "proved",
   "theorems": [
    "Verif.Stack.C55_lock_free",
    "Verif.Stack.C55_some_operation_returns",
    "Verif.Stack.C55_solo",
    "Verif.Stack.Weak.C55_lock_free_weak",
    "Verif.Stack.Weak.C55_never_blocks_weak",
    "Verif.Stack.Weak.C55_solo_weak"
   ],
   "note": "For all numbers of threads and all schedules, with no fairness, on interleaved memory and on the view machine of C50. The bounds count the accesses of push and try_pop; the time inside the allocator and crossbeam-epoch is not counted."
  },
  {
   "property": "C56",
   "status": "partial",
   "theorems": [
    "Verif.Skip.Map.C56_comparisons_partial",
    "Verif.Skip.Map.C56_comparisons_general",
    "Verif.Skip.Map.C56_total",
    "Verif.Skip.Map.C56_size",
    "Verif.Skip.Map.C56_violated",
    "Verif.Skip.Map.C56_wraps"
   ],
   "note": "Proved for maps of fewer than 2^32 entries: at most 3 log2 n + 8 comparisons on average. False of the code beyond: the number of entries is cut to 32 bits when the starting level is chosen, and with a multiple of 2^32 entries get passes every entry, whatever the heights (C56_violated). C56_comparisons_general bounds the comparisons of all calls without that limit. The words are uniform and independent; the generator itself is not modelled."
  },
  {
   "property": "C57",
   "status": "partial",
   "theorems": [
    "Verif.Skip.Lst.C57_links_partial",
    "Verif.Skip.Lst.C57_links_general",
    "Verif.Skip.Lst.C57_total",
    "Verif.Skip.Lst.C57_lower",
    "Verif.Skip.Lst.C57_violated"
   ],
   "note": "Proved for lists of fewer than 2^32 elements: at most log2 n + 35 links on average. Without a bound on the length the claim is false of the code, since no node has more than 33 levels: a call at the end of the list reads at least 33 + n/2^32 links on average (C57_lower), which no multiple of log2 n + 1 bounds (C57_violated). C57_links_general holds for all lengths. The way up of insert, which adjusts a fixed number of links, is not counted; the words are uniform and independent; the generator itself is not modelled."
  },
  {
   "property": "C58",
   "status": "partial",
   "theorems": [
    "Verif.Lsm.Iter.C58_sizeTiered",
    "Verif.Lsm.Iter.C58_leveled_partial",
    "Verif.Lsm.Iter.C58_calls_leveled",
    "Verif.Lsm.Iter.C58_no_compaction",
    "Verif.Lsm.Iter.C58_iter_returns",
    "Verif.Lsm.Iter.C58_violated"
   ],
   "note": "Size-tiered: proved for all programs, including clear and closing the map; the pairs are those iter() collected at once would yield, which C35 and C37 relate to the live pairs. Leveled: proved for programs that neither clear nor close the map while the iterator is alive; false otherwise (C58_violated): the iterator then returns an error in the middle and leaves out pairs. An open file is taken to be readable after its directory is deleted, as on POSIX systems."
  },
  {
   "property": "C59",
   "status": "partial",
   "theorems": [
    "Verif.Lsm.C59_leveled",
    "Verif.Lsm.C59_leveled_safe",
    "Verif.Lsm.C59_leveled_returns",
    "Verif.Lsm.C59_sizeTiered_get_partial",
    "Verif.Lsm.C59_sizeTiered_iter_partial",
    "Verif.Lsm.C59_sizeTiered_safe",
    "Verif.Lsm.C59_sizeTiered_returns",
    "Verif.Lsm.C59_leveled_minmax_partial",
    "Verif.Lsm.C59_sizeTiered_minmax_partial"
   ],
   "note": "Leveled: proved in full. Size-tiered: directories and progress proved in full; answers as far as the strategy gives them in a sequential run (a removed key may come back, C35_violated). Accesses to one lock or one directory are single steps; the in-memory tree, the current metadata and the clock belong to the calling thread. min and max answer as C38 says of sequential runs, in all interleavings (C59_*_minmax_partial). A reopen is called only after a write (C40)."
  },
  {
   "property": "C60",
   "status": "proved",
   "theorems": [
    "Verif.Lsm.File.C60_size_tiered",
    "Verif.Lsm.File.C60_leveled",
    "Verif.Lsm.File.C60_answers",
    "Verif.Lsm.File.C60_time",
    "Verif.Lsm.File.C60_missing"
   ],
   "note": "Byte level, both strategies, any previous contents of the files."
  },
  {
   "property": "C61",
   "status": "partial",
   "theorems": [
    "Verif.Lsm.File.C61_moved_violated",
    "Verif.Lsm.File.C61_moved_partial",
    "Verif.Lsm.File.C61_moved_leveled_partial"
   ],
   "note": "False of the code: tables are stored with the path they were made under, so a moved map with a table cannot be opened. The partial theorems are exact: a moved map can be opened exactly if it has no tables."
  },
  {
   "property": "C62",
   "status": "partial",
   "theorems": [
    "Verif.Lsm.File.C62_torn_violated",
    "Verif.Lsm.File.Example.C62_mixed_violated",
    "Verif.Lsm.File.C62_push_exact",
    "Verif.Lsm.File.C62_time_torn_partial",
    "Verif.Lsm.File.C62_first_time_torn"
   ],
   "note": "False of the code for the list of tables: C62_push_exact says for the write that adds a table that every cut after the parameters leaves a file that cannot be opened or lists other tables. Proved for the logical time (except for the very first write): a cut write never leaves an earlier time."
  },
  {
   "property": "C63",
   "status": "proved",
   "theorems": [
    "Verif.Radix.C63_radix_iter_mut",
    "Verif.Radix.C63_radix_iter_mut_distinct"
   ],
   "note": "For every reachable map, every list of updates (also longer than the map), with a bound on the loop rounds of each call of next. The resulting map is reachable by calls of get_mut, so all other theorems apply to it."
  },
  {
   "property": "C64",
   "status": "proved",
   "theorems": [
    "Verif.Arena.C64_history",
    "Verif.Arena.C64_calls"
   ],
   "note": "For all histories with any number of caught panics and all chunk sizes, including repeated double frees."
  },
  {
   "property": "C65",
   "status": "partial",
   "theorems": [
    "Verif.Arena.C65_violated",
    "Verif.Arena.C65_lost_forever",
    "Verif.Arena.C65_partial"
   ],
   "note": "The code does not have the property: free of a vacant block takes the free list before it panics (C65_violated: for every positive chunk size a chunk outgrows any bound with at most one live object). C65_lost_forever: every block vacant at that moment is lost for good. C65_partial: as long as no free of a vacant block is made, caught panics do no harm and C19 holds."
  },
  {
   "property": "C66",
   "status": "proved",
   "theorems": [
    "Verif.Radix.C66_space",
    "Verif.Radix.C66_comparisons",
    "Verif.Radix.C66_same_results"
   ],
   "note": "Space after every history; comparisons counted in the same functions with a counter, which return the same results (C66_same_results). get_mut makes the comparisons of get."
  },
  {
   "property": "C67",
   "status": "partial",
   "theorems": [
    "Verif.Lsm.C67_sizeTiered",
    "Verif.Lsm.C67_leveled_exact",
    "Verif.Lsm.C67_leveled_stays",
    "Verif.Lsm.C67_leveled_violated",
    "Verif.Lsm.C67_sizeTiered_bare_violated"
   ],
   "note": "Size-tiered: in every history every table on the disk is in use (C67_sizeTiered). The code does not have the property with the leveled strategy: tables that a compaction writes and merges again before it ends are never deleted; C67_leveled_exact says exactly which tables are left, C67_leveled_stays that they stay until clear, C67_leveled_violated that rewriting two keys leaves any number of them. With both strategies a builder that gets no entry leaves a directory without a table (C67_sizeTiered_bare_violated, C67_leveled_violated); these are counted beside the model of the disk, which holds tables only."
  },
  {
   "property": "C68",
   "status": "partial",
   "theorems": [
    "Verif.Bp.C68_file_partial",
    "Verif.Bp.C68_in_use_partial",
    "Verif.Bp.C68_writes_partial"
   ],
   "note": "Proved for the histories covered by C28 (no insert over a key in the last slots of a full leaf; leaf degree at least 1, internal degree at least 3). Missing: the other histories, which lose entries (C28_violated_all). The bounds are reached, see the examples."
  },
  {
   "property": "C69",
   "status": "partial",
   "theorems": [
    "Verif.Drop.C69_red_black_partial",
    "Verif.Drop.C69_avl_partial",
    "Verif.Drop.C69_avl_violated",
    "Verif.Drop.C69_treap_partial",
    "Verif.Drop.C69_splay_partial",
    "Verif.Drop.C69_splay_violated",
    "Verif.Drop.C69_radix_partial",
    "Verif.Drop.C69_radix_violated"
   ],
   "note": "Full for RedBlackMap. AvlMap: for histories without remove; fails with removals (C69_avl_violated). TreapMap: for all but a share 1/2^t of the orders of the random draws. SplayMap: fails, the nesting equals the number of entries after ascending inserts; never more than that. RadixMap: bounded by 256 times the longest key. TreapList and the recursive insert and remove: see C83."
  },
  {
   "property": "C70",
   "status": "partial",
   "theorems": [
    "Verif.Lsm.C70_exact_partial",
    "Verif.Lsm.C70_partial",
    "Verif.Lsm.C70_flushed_partial",
    "Verif.Lsm.C70_sizeTiered_partial",
    "Verif.Lsm.C70_violated",
    "Verif.Lsm.C70_flush_violated",
    "Verif.Lsm.C70_open_violated",
    "Verif.Lsm.C70_panic_violated",
    "Verif.Lsm.C70_leak_violated"
   ],
   "note": "The code does not have the property: acknowledged writes in memory are lost (C70_violated), a table can be missing from the metadata after a successful flush (C70_flush_violated), the directory can stop opening (C70_open_violated), later writes panic (C70_panic_violated), compactions stop for good (C70_leak_violated). Proved for the leveled strategy and all histories without reopen: exactly which writes are kept (C70_exact_partial), all of them if no table fails to be filled (C70_partial), and what a successful flush wrote is never lost (C70_flushed_partial); for the size-tiered strategy live keys have their latest kept value. Failing operations are taken to leave the named files as they were; files left half-written are not modelled."
  },
  {
   "property": "C71",
   "status": "partial",
   "theorems": [
    "Verif.Lsm.C71_exact",
    "Verif.Lsm.C71_partial",
    "Verif.Lsm.C71_sizeTiered_partial",
    "Verif.Lsm.C71_len_violated",
    "Verif.Lsm.C71_max_violated",
    "Verif.Lsm.C71_stale_violated"
   ],
   "note": "The code does not have the property: len and max return wrong answers without an error, and after an error an iterator yields outdated pairs. C71_exact says for both strategies and every state exactly what is yielded: the right pairs up to the first error, overall the merge of shortened runs, one error for each run with a failing read; min is right whenever it returns a key. C71_partial: ascending, no pair is made up, and keys that do not occur in a run with a failing read are right (leveled). A failing first read of a run makes iter itself fail, see C70."
  },
  {
   "property": "C72",
   "status": "partial",
   "theorems": [
    "Verif.Lsm.File.C72_open",
    "Verif.Lsm.File.C72_get",
    "Verif.Lsm.File.C72_get_exact",
    "Verif.Lsm.File.C72_scan_exact",
    "Verif.Lsm.File.C72_violated"
   ],
   "note": "Opening and get: proved in full, for all cuts of all files. Scans: the code does not have the property; C72_scan_exact says for every cut of data.dat exactly what is returned: the complete entries, then an error unless less than 8 bytes follow; C72_violated: every table with two or more entries can be cut so that a scan leaves out entries without an error and a compaction makes the loss permanent. Decoding is assumed not to depend on the bytes after a value."
  },
  {
   "property": "C73",
   "status": "partial",
   "theorems": [
    "Verif.Bp.C73_partial",
    "Verif.Bp.C73_exact",
    "Verif.Bp.C73_violated",
    "Verif.Bp.C73_answers",
    "Verif.Bp.C73_retry_violated",
    "Verif.Bp.C73_reopen_partial",
    "Verif.Bp.C73_reopen_synced_partial",
    "Verif.Bp.C73_reopen_violated"
   ],
   "note": "The code does not have the property (C73_violated). C73_partial: whatever operations fail, as long as no failing call had written some but not all pages of the tree, every history is that of an ordered map in which a failed call had no effect or all of it, except that a failing remove can make the reported length too small by one. C73_exact: for every reached map and call, no failure does harm iff the call only looks, or is an insert that overwrites or finds room in its leaf, or removes a missing key, or clears an empty map whose tree is the first page. C73_reopen_partial: the file reopened after covered failures holds the same entries; C73_reopen_synced_partial: after a call that changed the number of entries it also goes on as one history with calls that write and further failures; C73_reopen_violated: otherwise the length may be wrong and a later insert may panic. Missing: pages written in part."
  },
  {
   "property": "C74",
   "status": "partial",
   "theorems": [
    "Verif.Panic.C74_avl",
    "Verif.Panic.C74_rb",
    "Verif.Panic.C74_splay",
    "Verif.Panic.C74_treap",
    "Verif.Panic.C74_skip_partial",
    "Verif.Panic.C74_skip_low",
    "Verif.Panic.C74_skip_low_keeps",
    "Verif.Panic.C74_avl_exact",
    "Verif.Panic.C74_rb_exact",
    "Verif.Panic.C74_splay_exact",
    "Verif.Panic.C74_treap_exact",
    "Verif.Panic.C74_treap_split_off",
    "Verif.Panic.C74_skip_returns",
    "Verif.Panic.C74_uprooted_atomic",
    "Verif.Panic.C74_avl_violated",
    "Verif.Panic.C74_rb_violated",
    "Verif.Panic.C74_splay_violated",
    "Verif.Panic.C74_treap_violated",
    "Verif.Panic.C74_skip_violated"
   ],
   "note": "The code does not have the property (C74_*_violated, one per map). For the four search trees all histories are characterised (C74_avl, C74_rb, C74_splay, C74_treap) and for every position of the panic what is left (C74_*_exact); for SkipMap all histories in which no insert panics after it has linked its node at an upper level. The set operations of SkipMap are C78 (those of TreapMap take both maps by value, so that no map is left), LsmMap is C88, BpMap is C89; RadixMap compares bytes only, so that no code of the user can panic in it. SkipMap after such an insert, and its drop after a panic, are C90."
  },
  {
   "property": "C75",
   "status": "partial",
   "theorems": [
    "Verif.Skip.Map.C75_lawless_comparisons_partial",
    "Verif.Skip.Map.C75_nothing_lost_or_doubled_partial",
    "Verif.Skip.Map.C75_covers_lawful",
    "Verif.Skip.Map.C75_violated",
    "Verif.Skip.Map.C75_violated_lt"
   ],
   "note": "The code does not have the property (C75_violated: answers that change while a call runs lead to a read of freed memory). It holds for all histories in which the comparisons keep to their answers during each insert and remove; the other calls may get any answers. Missing because false: changing answers; not modelled here: the set operations with lawless comparisons."
  },
  {
   "property": "C76",
   "status": "partial",
   "theorems": [
    "Verif.Skip.Map.C76_skip_map_drop",
    "Verif.Skip.Map.C76_skip_map_clear_partial",
    "Verif.Skip.Map.C76_skip_map_clear_exact",
    "Verif.Skip.Map.C76_skip_map_violated",
    "Verif.Skip.Lst.C76_skip_list_drop",
    "Verif.Skip.Lst.C76_skip_list_clear_partial",
    "Verif.Skip.Lst.C76_skip_list_clear_exact",
    "Verif.Skip.Lst.C76_skip_list_violated",
    "Verif.Panic.C76_avl_partial",
    "Verif.Panic.C76_rb_partial",
    "Verif.Panic.C76_splay_partial",
    "Verif.Panic.C76_treap",
    "Verif.Panic.C76_radix_partial",
    "Verif.Panic.C76_violated"
   ],
   "note": "The code does not have the property: clearing a SkipMap or SkipList whose destructors panic always leads to undefined behaviour (C76_skip_map_clear_exact, C76_skip_list_clear_exact), clearing the AVL, red-black and splay maps leaves a wrong length (C76_violated). It holds for dropping skip maps and lists, for clearing treaps, and, except for the length, for clearing the other trees. Panics of destructors inside the set operations of SkipMap are C81."
  },
  {
   "property": "C77",
   "status": "partial",
   "theorems": [
    "Verif.Skip.Layout.C77_fits",
    "Verif.Skip.Layout.C77_aligned_exact",
    "Verif.Skip.Layout.C77_node_layout_partial",
    "Verif.Skip.Layout.C77_header_kept",
    "Verif.Skip.Layout.C77_violated"
   ],
   "note": "Room and disjointness hold for all element types, numbers of links and word sizes (C77_fits). The alignment holds exactly for element types with an alignment of at most 8 (C77_aligned_exact, C77_violated)."
  },
  {
   "property": "C78",
   "status": "partial",
   "theorems": [
    "Verif.Skip.Map.C78_set_operations_exact",
    "Verif.Skip.Map.C78_union_partial",
    "Verif.Skip.Map.C78_result_usable",
    "Verif.Skip.Map.C78_covers_lawful",
    "Verif.Skip.Map.C78_violated"
   ],
   "note": "The code does not have the property: a panicking comparison leaks the two entries compared and two head nodes (C78_violated); everything else is freed once and no memory is misused (C78_union_partial). C78_set_operations_exact says what union, difference and symmetric difference do for all answers, including when a difference crashes (C15). Missing: intersection, which corrupts memory already with a proper order (C15)."
  },
  {
   "property": "C79",
   "status": "partial",
   "theorems": [
    "Verif.Avl.C79_avl",
    "Verif.Treap.C79_treap",
    "Verif.Splay.C79_splay_exact",
    "Verif.Splay.C79_splay_partial",
    "Verif.RedBlack.C79_red_black_kept",
    "Verif.RedBlack.C79_red_black_partial",
    "Verif.Avl.C79_avl_covers_lawful",
    "Verif.Treap.C79_treap_covers_lawful",
    "Verif.Splay.C79_splay_covers_lawful",
    "Verif.RedBlack.C79_red_black_covers_lawful",
    "Verif.Splay.C79_splay_violated",
    "Verif.RedBlack.C79_red_black_violated"
   ],
   "note": "Proved in full for AvlMap and TreapMap. The other two maps do not have the property: SplayMap::remove can destroy entries (C79_splay_violated; C79_splay_exact says what can happen in general, C79_splay_partial when it cannot), and RedBlackMap can panic (C79_red_black_violated) though it never loses entries before that (C79_red_black_kept) and only after a removal whose answers contradict the order of iteration (C79_red_black_partial)."
  },
  {
   "property": "C80",
   "status": "proved",
   "theorems": [
    "Verif.Treap.C80_treap_set_ops",
    "Verif.Treap.C80_treap_split_off",
    "Verif.Treap.C80_treap_calls",
    "Verif.Treap.C80_treap_covers_lawful"
   ],
   "note": "The answers are a function of the place of the recursion and the number of the comparison there, so they are arbitrary and independent. The set operations of SkipMap with such answers are C78."
  },
  {
   "property": "C81",
   "status": "partial",
   "theorems": [
    "Verif.Skip.Map.C81_exact",
    "Verif.Skip.Map.C81_union_partial",
    "Verif.Skip.Map.C81_difference_tail",
    "Verif.Skip.Map.C81_result_usable",
    "Verif.Skip.Map.C81_covers_calm",
    "Verif.Skip.Map.C81_violated"
   ],
   "note": "The code does not have the property: a panic in the destructor of the last right entry is undefined behaviour (C81_violated), and other panics leak entries and nodes. C81_exact says how each call ends, for all maps, answers and panicking destructors. C81_union_partial: a union is undefined only if the destructor of the last right entry panics, and runs no destructor twice. Missing: intersection, which corrupts memory already with a proper order (C15)."
  },
  {
   "property": "C82",
   "status": "partial",
   "theorems": [
    "Verif.Avl.C82_avl",
    "Verif.RedBlack.C82_red_black",
    "Verif.Splay.C82_splay",
    "Verif.Treap.C82_treap",
    "Verif.Treap.C82_treap_set_ops",
    "Verif.Treap.C82_treap_split_off",
    "Verif.Skip.Map.C82_skip",
    "Verif.Skip.Map.C82_skip_union",
    "Verif.Skip.Map.C82_skip_difference_partial"
   ],
   "note": "Proved for all calls of the five maps and for the set operations and split_off of TreapMap and union of SkipMap. difference and symmetric_difference of SkipMap: proved whenever they do not crash, and exactly when they crash. Missing: intersection of SkipMap, which corrupts memory already when equal keys are the same (C15)."
  },
  {
   "property": "C83",
   "status": "partial",
   "theorems": [
    "Verif.Drop.C83_red_black",
    "Verif.Drop.C83_avl_partial",
    "Verif.Drop.C83_avl_violated",
    "Verif.Drop.C83_treap_partial",
    "Verif.Drop.C83_treap_union",
    "Verif.Drop.C83_list_partial",
    "Verif.Drop.C83_radix",
    "Verif.Drop.C83_treap_sets",
    "Verif.Drop.C83_list_join"
   ],
   "note": "Full for RedBlackMap and RadixMap. AvlMap: for histories without remove before; fails after removals (C83_avl_violated). TreapMap: insert, remove and split_off for all but a share 1/2^t of the orders of the draws, union against the nesting of destroying both maps. TreapList: on average over the orders of the draws. intersection and the differences (with the destruction of what they leave out): at most two deeper than destroying both maps and the result; joining lists: at most one deeper than destroying the result. Missing: equal priorities."
  },
  {
   "property": "C84",
   "status": "partial",
   "theorems": [
    "Verif.Skip.Map.C84_shared_exact",
    "Verif.Skip.Map.C84_one_iterator_partial",
    "Verif.Skip.Map.C84_violated",
    "Verif.Skip.Map.C84_two_iterators_violated"
   ],
   "note": "The code does not have the property: iter_mut takes a shared reference, so values are lent twice (C84_two_iterators_violated) and change behind a reference from get (C84_violated), for every entry of every map. C84_shared_exact: for all programs what they see and what the map contains afterwards, if assignments through aliased references take effect in program order. C84_one_iterator_partial: one iterator lends no value twice."
  },
  {
   "property": "C85",
   "status": "proved",
   "theorems": [
    "Verif.Lsm.C85_levels",
    "Verif.Lsm.C85_asked",
    "Verif.Lsm.C85_lookup",
    "Verif.Lsm.C85_frame",
    "Verif.Lsm.C85_flushed",
    "Verif.Lsm.C85_calls"
   ],
   "note": "All histories of the leveled strategy. Limits of levels are unbounded numbers here; C45_overflow_partial says when 64 bits make no difference. How many tables are outside the levels is C93. C85_flushed joins both after an insertion and flush. C85_calls states it for histories of calls, with no hypothesis on the state."
  },
  {
   "property": "C86",
   "status": "partial",
   "theorems": [
    "Verif.Bp.C86_reads_partial",
    "Verif.Bp.C86_get_frame",
    "Verif.Bp.C86_min_frame",
    "Verif.Bp.C86_max_frame",
    "Verif.Bp.C86_list_frame",
    "Verif.Bp.C86_insert_frame",
    "Verif.Bp.C86_remove_frame"
   ],
   "note": "The frame theorems hold for all files. The counts hold for the histories covered by C28 (leaf degree at least 1, internal degree at least 3, no insert over a key in the last slots of a full leaf). Missing: the other histories, which lose entries (C28_violated_all). The bounds are reached, see the examples."
  },
  {
   "property": "C87",
   "status": "partial",
   "theorems": [
    "Verif.Lsm.C87_leveled",
    "Verif.Lsm.C87_sizeTiered_partial",
    "Verif.Lsm.C87_stuck",
    "Verif.Lsm.C87_violated"
   ],
   "note": "Data: proved for the leveled strategy with any arithmetic for the level limits, and for the size-tiered strategy as far as C35 holds. Calls return: C87_stuck. Recovery is false of the code: no compaction starts until the map is reopened (C87_stuck), and the number of tables has no bound (C87_violated)."
  },
  {
   "property": "C88",
   "status": "partial",
   "theorems": [
    "Verif.Lsm.C88_leveled_partial",
    "Verif.Lsm.C88_sizeTiered_partial",
    "Verif.Lsm.C88_poisoned",
    "Verif.Lsm.C88_flushed",
    "Verif.Lsm.C88_table",
    "Verif.Lsm.C88_violated"
   ],
   "note": "The code does not have the property (C88_violated: a poisoned mutex, entries lost in flush, an underflow).  Proved: panics in the in-memory tree and while an iterator is read do no harm (C88_*_partial; in BTreeMap::insert if the new version is not smaller), what all calls do after a panic with the mutex held and what is found after a restart (C88_poisoned, C88_flushed), and what a panic while a table is written loses (C88_table).  BTreeMap is taken to be unchanged when a comparison panics in it."
  },
  {
   "property": "C89",
   "status": "partial",
   "theorems": [
    "Verif.Bp.C89_partial",
    "Verif.Bp.C89_exact",
    "Verif.Bp.C89_calls",
    "Verif.Bp.C89_violated"
   ],
   "note": "The code does not have the property (C89_violated). Proved: a panic before the call has written anything does no harm, in any history (C89_partial); a call is safe from all panics exactly if it compares and clones nothing after a write (C89_exact); which calls those are (C89_calls). Excluded, as in C28: histories with harmful overwriting, leaf degree 0 and internal degrees below 3."
  },
  {
   "property": "C90",
   "status": "proved",
   "theorems": [
    "Verif.Skip.Map.Torn.C90_calls",
    "Verif.Skip.Map.Torn.C90_drop",
    "Verif.Skip.Map.Torn.C90_entries",
    "Verif.Skip.Map.Torn.C90_small_keys",
    "Verif.Skip.Map.Torn.C90_into_iter"
   ],
   "note": "All histories, with any comparisons panicking, including inserts that stop halfway (the case C74 leaves out). C90_into_iter: the consuming iterator of such a map hands out what iteration shows and leaves allocated what dropping the map would leave; dropping it early drops entries twice as in C16."
  },
  {
   "property": "C91",
   "status": "partial",
   "theorems": [
    "Verif.Skip.Map.Torn.C91_shows",
    "Verif.Skip.Map.Torn.C91_union",
    "Verif.Skip.Map.Torn.C91_recover",
    "Verif.Skip.Map.Torn.C91_difference_partial",
    "Verif.Skip.Map.Torn.C91_symmetric_difference_partial",
    "Verif.Skip.Map.Torn.C91_difference_crash"
   ],
   "note": "Union: everything. Differences: exactly when no key shown in the left map exceeds all those shown in the right one; otherwise they dereference null (C91_difference_crash). Comparisons that panic inside the set operation itself are C78, intersection is C15."
  },
  {
   "property": "C92",
   "status": "partial",
   "theorems": [
    "Verif.Lsm.SizeTiered.C92_bucket_partial",
    "Verif.Lsm.SizeTiered.C92_count",
    "Verif.Lsm.C92_store",
    "Verif.Lsm.SizeTiered.C92_similar",
    "Verif.Lsm.SizeTiered.C92_violated",
    "Verif.Lsm.C92_held",
    "Verif.Lsm.C92_rounds"
   ],
   "note": "The bound on the number of tables is proved in full, for the selection and for the map. The selected tables without the largest are a bucket; the largest may be an outsider, and a full bucket after a smaller table may be skipped (C92_violated). Numbers are rounded by any function with relative error at most \u03b5, and the factors are exact up to slack \u03b5 (less than 1 + 2^-50 for f64); overflow and underflow are excluded. C92_held: while an iterator is alive no compaction is started and the number of tables has no bound, with either strategy. C92_rounds: the bound over any number of insertions with flush, for histories of calls."
  },
  {
   "property": "C93",
   "status": "partial",
   "theorems": [
    "Verif.Lsm.C93_leveled_partial",
    "Verif.Lsm.C93_leveled_removed_partial",
    "Verif.Lsm.C93_sizeTiered_partial",
    "Verif.Lsm.C93_violated",
    "Verif.Lsm.C93_sizeTiered_removed_partial",
    "Verif.Lsm.C93_leveled_calls_partial",
    "Verif.Lsm.C93_sizeTiered_calls_partial"
   ],
   "note": "Proved for insertions. False of the code for removals: remove and flush in turn leave one table for each removal, with either strategy, though the map is empty and no iterator is alive, and every lookup in the leveled strategy asks all of them (C93_violated, for any number of removals, all sizes and parameters; size-tiered: if tables with one removal are at most min_sstable_size). C93_leveled_removed_partial: after any write and flush, tables in excess hold no version of a key that is in the map. C93_sizeTiered_removed_partial: if a merge after any write and flush did not make the tables fewer, there is a table whose newest entry is one of a key not in the map. The _calls theorems are about histories without a kept iterator that end with flush, an insertion and flush, with no hypothesis on the state."
  }
 ]
}