{"id": "C01", "title": "AvlMap behaves as an ordered map on every history", "statement": "Starting from an empty AvlMap, every finite sequence of API calls (insert, remove, get, contains_key, get_mut, floor, ceil, min, max, len, is_empty, iter, clear) runs without panicking and returns exactly what an abstract finite map would return: insert and remove give back the previous key/value pair of that key (or None), get gives the current value, a write through get_mut changes only that key, floor/ceil/min/max give the extreme keys satisfying the bound, len counts the keys, iter lists every pair once in strictly ascending key order, clear empties the map.", "quantifier": "all totally ordered key types, all value types, all finite call histories", "why_tests_cant": "The number of histories and tree shapes is unbounded; a unit test exercises a handful of shapes while restructuring bugs only show for specific shapes.", "anchors": ["src/avl_tree/map.rs AvlMap", "src/avl_tree/tree.rs insert, remove, get, get_mut, floor, ceil, min, max, balance, remove_min, combine_subtrees", "src/avl_tree/node.rs rotate_left, rotate_right, update, balance"]}
{"id": "C02", "title": "RedBlackMap behaves as an ordered map on every history", "statement": "Starting from an empty RedBlackMap, every finite sequence of API calls (insert, remove, get, contains_key, get_mut, floor, ceil, min, max, len, is_empty, iter, clear) runs without panicking and returns exactly what an abstract finite map would return: insert and remove give back the previous key/value pair of that key (or None), get gives the current value, a write through get_mut changes only that key, floor/ceil/min/max give the extreme keys satisfying the bound, len counts the keys, iter lists every pair once in strictly ascending key order, clear empties the map.", "quantifier": "all totally ordered key types, all value types, all finite call histories", "why_tests_cant": "The number of histories and tree shapes is unbounded; a unit test exercises a handful of shapes while restructuring bugs only show for specific shapes.", "anchors": ["src/red_black_tree/map.rs RedBlackMap", "src/red_black_tree/tree.rs insert, remove, balance, shift_left, shift_right, fix_root", "src/red_black_tree/node.rs rotate_left, rotate_right, flip_colors"]}
{"id": "C03", "title": "SplayMap behaves as an ordered map on every history", "statement": "Starting from an empty SplayMap, every finite sequence of API calls (insert, remove, get, contains_key, get_mut, floor, ceil, min, max, len, is_empty, iter, clear) runs without panicking and returns exactly what an abstract finite map would return: insert and remove give back the previous key/value pair of that key (or None), get gives the current value, a write through get_mut changes only that key, floor/ceil/min/max give the extreme keys satisfying the bound, len counts the keys, iter lists every pair once in strictly ascending key order, clear empties the map.", "quantifier": "all totally ordered key types, all value types, all finite call histories", "why_tests_cant": "The number of histories and tree shapes is unbounded; a unit test exercises a handful of shapes while restructuring bugs only show for specific shapes.", "anchors": ["src/splay_tree/map.rs SplayMap", "src/splay_tree/tree.rs splay, insert, remove", "src/splay_tree/node.rs"]}
{"id": "C04", "title": "TreapMap behaves as an ordered map on every history", "statement": "Starting from an empty TreapMap, every finite sequence of API calls (insert, remove, get, contains_key, get_mut, floor, ceil, min, max, len, is_empty, iter, clear) runs without panicking and returns exactly what an abstract finite map would return: insert and remove give back the previous key/value pair of that key (or None), get gives the current value, a write through get_mut changes only that key, floor/ceil/min/max give the extreme keys satisfying the bound, len counts the keys, iter lists every pair once in strictly ascending key order, clear empties the map. This holds whatever random priorities the generator hands out.", "quantifier": "all totally ordered key types, all value types, all finite call histories, all priority sequences", "why_tests_cant": "The number of histories and tree shapes is unbounded; a unit test exercises a handful of shapes while restructuring bugs only show for specific shapes.", "anchors": ["src/treap/map.rs TreapMap", "src/treap/tree.rs insert, remove, split, merge", "src/treap/node.rs"]}
{"id": "C05", "title": "SkipMap behaves as an ordered map on every history", "statement": "Starting from an empty SkipMap, every finite sequence of API calls (insert, remove, get, contains_key, get_mut, floor, ceil, min, max, len, is_empty, iter, clear) runs without panicking and returns exactly what an abstract finite map would return: insert and remove give back the previous key/value pair of that key (or None), get gives the current value, a write through get_mut changes only that key, floor/ceil/min/max give the extreme keys satisfying the bound, len counts the keys, iter lists every pair once in strictly ascending key order, clear empties the map. This holds whatever random tower heights the generator hands out.", "quantifier": "all totally ordered key types, all value types, all finite call histories, all tower height sequences in 0..=32", "why_tests_cant": "The number of histories and tree shapes is unbounded; a unit test exercises a handful of shapes while restructuring bugs only show for specific shapes.", "anchors": ["src/skiplist/map.rs SkipMap", "src/skiplist/map.rs Node, gen_random_height"]}
{"id": "C06", "title": "AVL height balance under insertion", "statement": "After any sequence of insert calls into an AvlMap the two subtrees of every node differ in height by at most one, the recorded heights are the true heights, and so the number of key comparisons made by get is at most 1.4405*log2(len+2) (stated through the Fibonacci bound: a tree of height h holds at least fib(h+2)-1 keys).", "quantifier": "all insert sequences, all key types", "why_tests_cant": "Balance must hold for every insertion order; tests only probe random ones and never inspect the shape.", "anchors": ["src/avl_tree/tree.rs balance, insert", "src/avl_tree/node.rs update, balance, rotate_left, rotate_right"]}
{"id": "C07", "title": "AVL height balance under removal", "statement": "The module documentation promises a self-balancing tree in which the heights of the two subtrees of any node differ by at most one. That promise must survive remove calls.", "quantifier": "all histories of insert and remove", "why_tests_cant": "A specific removal shape (node with two children whose in-order successor is deep) is needed; tests check contents only.", "anchors": ["src/avl_tree/tree.rs remove_min, combine_subtrees, remove", "src/avl_tree/map.rs AvlMap (doc comment)"]}
{"id": "C08", "title": "Red-black height bound", "statement": "After any history of insert and remove calls a RedBlackMap with n keys has depth at most 2*log2(n+1), because no two red links are adjacent, red links lean left and every root-to-leaf path has the same number of black links.", "quantifier": "all histories, all key types", "why_tests_cant": "The colour invariants are global and must hold for every history, including removals of absent keys which also restructure the tree.", "anchors": ["src/red_black_tree/tree.rs insert, remove, remove_min, balance, shift_left, shift_right, fix_root", "src/red_black_tree/node.rs"]}
{"id": "C09", "title": "Treap heap order for every history", "statement": "In a TreapMap every node's priority is at least the priority of its children after any history of insert, remove, union, intersection, difference and split_off, so when priorities are distinct the shape depends only on the set of (key, priority) pairs and not on the order of operations.", "quantifier": "all histories, all priority sequences", "why_tests_cant": "The expected logarithmic depth relies on this invariant for every random draw; tests fix one seed.", "anchors": ["src/treap/tree.rs merge, split, insert, remove, union, intersection, difference"]}
{"id": "C10", "title": "Treap set algebra is left-biased and exact", "statement": "For TreapMaps a and b: union holds exactly the keys of either with a's value on common keys; intersection holds exactly the common keys with a's values; difference holds a's entries whose keys are not in b; symmetric_difference holds the entries whose keys are in exactly one; results are ordered maps with exact len. The same for the + and - operators and for TreapSet.", "quantifier": "all pairs of maps reachable by any history, all priorities", "why_tests_cant": "The recursion swaps operands depending on priorities, so value provenance depends on random draws.", "anchors": ["src/treap/tree.rs union, intersection, difference", "src/treap/map.rs union, intersection, difference, symmetric_difference, Add, Sub", "src/treap/set.rs"]}
{"id": "C11", "title": "Treap split_off partitions the map", "statement": "split_off(key, inclusive) leaves exactly the keys below key (and, depending on inclusive, key itself on the documented side) in the receiver and returns exactly the rest; nothing is lost or duplicated and both lens are exact.", "quantifier": "all maps, keys, flags and priorities", "why_tests_cant": "Needs all tree shapes and all split keys.", "anchors": ["src/treap/tree.rs split, split_off", "src/treap/map.rs split_off"]}
{"id": "C12", "title": "TreapList behaves as a sequence", "statement": "From an empty TreapList every history of insert(i,v), remove(i), push_front, push_back, pop_front, pop_back, get, get_mut, len, clear, iter and list concatenation (+) returns exactly what the corresponding operation on a plain sequence returns, for every draw of priorities; a call panics exactly when its index is out of range (or a pop hits an empty list).", "quantifier": "all histories, all element types, all priority draws", "why_tests_cant": "Positions are encoded by subtree sizes at every node; an off-by-one shows only for some shapes.", "anchors": ["src/treap/list.rs TreapList", "src/treap/implicit_tree.rs split, merge, insert, remove, get, get_mut"]}
{"id": "C13", "title": "SkipList behaves as a sequence", "statement": "From an empty SkipList every history of insert, remove, push_front, push_back, pop_front, pop_back, get, get_mut, len, clear and iter returns exactly what the operation on a plain sequence returns, for every draw of tower heights, and panics exactly when the index is out of range.", "quantifier": "all histories without concatenation, all height draws", "why_tests_cant": "Each link stores a distance that must be right at all 33 levels; errors need particular height patterns.", "anchors": ["src/skiplist/list.rs SkipList insert, remove, get, get_mut"]}
{"id": "C14", "title": "SkipList concatenation", "statement": "a + b is the sequence a followed by b for every pair of SkipLists, and later indexing into the result is right.", "quantifier": "all pairs of lists reachable by any history, all height draws", "why_tests_cant": "Depends on stored distances of links that point past the end, which no accessor shows.", "anchors": ["src/skiplist/list.rs Add, remove"]}
{"id": "C15", "title": "SkipMap set algebra", "statement": "For SkipMaps a and b: union, intersection, difference and symmetric_difference return the left-biased map algebra, without touching memory outside allocated nodes, for every draw of tower heights.", "quantifier": "all pairs of reachable maps, all height draws", "why_tests_cant": "Out-of-bounds link accesses need particular heights and may go unnoticed in a test.", "anchors": ["src/skiplist/map.rs map_union, map_intersection, map_difference", "src/skiplist/set.rs"]}
{"id": "C16", "title": "Consuming iterators drop each element exactly once", "statement": "If into_iter of a SkipMap, SkipSet or SkipList is advanced any number of steps and then dropped, every element is either handed out once or dropped once, never both and never twice.", "quantifier": "all lists, all numbers of steps taken", "why_tests_cant": "Double drops are silent for types without drop glue, which is what tests use.", "anchors": ["src/skiplist/map.rs SkipMapIntoIter::drop", "src/skiplist/list.rs SkipListIntoIter::drop"]}
{"id": "C17", "title": "In-order iterators enumerate lazily and exactly", "statement": "For the AVL, red-black, splay and treap maps, calling next() on iter, iter_mut or into_iter n times yields the n smallest entries in ascending order, and None for ever after the last; iter_mut gives each value exactly once and writing through it changes exactly that entry.", "quantifier": "all trees, all numbers of next calls, all update functions", "why_tests_cant": "The explicit-stack state machine must be right in every intermediate state.", "anchors": ["src/avl_tree/map.rs AvlMapIter, AvlMapIterMut, AvlMapIntoIter", "src/red_black_tree/map.rs", "src/splay_tree/map.rs", "src/treap/map.rs"]}
{"id": "C18", "title": "TypedArena: a live handle reads back its own value", "statement": "For every history of allocate and free calls on live handles: no call panics; allocate returns a handle different from every live handle; get(h) gives exactly the value stored for live h (as last written through get_mut) and None for every handle that is not live; free(h) returns that value.", "quantifier": "all histories, all chunk sizes, all value types", "why_tests_cant": "The free list threads through arbitrary alloc/free interleavings.", "anchors": ["src/arena.rs TypedArena::allocate, free, get, get_mut"]}
{"id": "C19", "title": "TypedArena never moves a live object", "statement": "With a positive chunk size no chunk ever holds more than chunk_size blocks, so no chunk is reallocated and a live object keeps its position for its whole life; a new chunk is created only when every block of every earlier chunk is live.", "quantifier": "all histories, all positive chunk sizes", "why_tests_cant": "Must hold for every history; growth happens silently.", "anchors": ["src/arena.rs TypedArena::allocate, free"]}
{"id": "C20", "title": "TypedArena: a freed handle stays dead", "statement": "Once a handle has been freed, using it again (get, free) never reaches another object.", "quantifier": "all histories containing a use after free", "why_tests_cant": "Needs a free, a later allocation and a stale use in one history.", "anchors": ["src/arena.rs TypedArena::get, free, Entry"]}
{"id": "C21", "title": "Concurrent Stack is a linearizable LIFO stack", "statement": "For every number of threads and every interleaving of push and try_pop on a sync::Stack, the results are those of executing each completed operation atomically at some instant between its call and return, on a sequential LIFO stack; try_pop returns None only if the stack was empty at that instant. No value is lost or handed out twice.", "quantifier": "all thread counts, all programs, all schedules", "why_tests_cant": "The schedule space is unbounded.", "anchors": ["src/sync/stack.rs Stack::push, try_pop"]}
{"id": "C22", "title": "Concurrent Stack: len", "statement": "Whenever no operation is in progress, len equals the number of values in the stack; at any instant it differs from that number by at most the number of operations in progress (and never wraps below zero).", "quantifier": "all schedules, all instants", "why_tests_cant": "Wrap-around needs one specific preemption point.", "anchors": ["src/sync/stack.rs Stack::len, push, try_pop"]}
{"id": "C23", "title": "Concurrent Stack: values are dropped exactly once", "statement": "Each pushed value is dropped exactly once overall: by the caller that popped it, or when the stack itself is dropped.", "quantifier": "all histories and schedules, all value types", "why_tests_cant": "The second drop happens in a deferred closure run by the epoch collector at an arbitrary later time.", "anchors": ["src/sync/stack.rs Stack::try_pop (guard.defer), absence of impl Drop for Stack"]}
{"id": "C24", "title": "Concurrent Stack: no use after free and no ABA", "statement": "A thread inside push or try_pop never dereferences a reclaimed node, and its compare-and-swap never succeeds on a node that was popped, reclaimed and reused since it was read, provided the epoch scheme defers reclamation until every thread pinned at retirement has unpinned.", "quantifier": "all schedules including all legal reclamation times", "why_tests_cant": "Needs reclamation racing with a stalled thread.", "anchors": ["src/sync/stack.rs Stack::try_pop, push"]}
{"id": "C25", "title": "RadixMap behaves as a map from byte strings", "statement": "From an empty RadixMap every history of insert, remove, get, get_mut, contains_key, len, is_empty and clear returns what an abstract map from byte strings returns, without panicking.", "quantifier": "all histories, all byte-string keys including the empty one", "why_tests_cant": "Edge splitting and merging depends on every pair of common prefixes.", "anchors": ["src/radix/tree.rs insert, remove, get, get_mut", "src/radix/node.rs", "src/radix/map.rs RadixMap"]}
{"id": "C26", "title": "RadixMap iterates lexicographically; min and max", "statement": "iter yields every entry exactly once in lexicographic byte order; min and max return the first and last of that order.", "quantifier": "all reachable maps", "why_tests_cant": "Order depends on the sibling lists at every node.", "anchors": ["src/radix/map.rs RadixMapIter, min, max", "src/radix/tree.rs min, max"]}
{"id": "C27", "title": "RadixMap longest-prefix query", "statement": "get_longest_prefix(key) returns exactly the stored keys that share the longest common prefix with key, as documented, and the answer depends only on the set of stored keys.", "quantifier": "all reachable maps, all query keys", "why_tests_cant": "Depends on where edges happen to be split.", "anchors": ["src/radix/tree.rs get_longest_prefix", "src/radix/map.rs get_longest_prefix"]}
{"id": "C28", "title": "BpMap behaves as an ordered map on every history", "statement": "For a freshly created BpMap every history of insert, remove, get, contains_key, len, is_empty, min, max, iteration and clear returns what an abstract ordered map returns and never panics.", "quantifier": "all histories, all degrees accepted by with_degrees, all key and value types within the declared sizes", "why_tests_cant": "Splits, merges and borrows at arbitrary depth; overwriting at every position of a full leaf.", "anchors": ["src/bp_tree/map.rs BpMap insert, remove, get, min, max, iter_mut", "src/bp_tree/node.rs LeafNode, InternalNode"]}
{"id": "C29", "title": "BpMap stays balanced", "statement": "After every history all leaves of a BpMap are at the same depth, every non-root node is at least half full and no node exceeds its degree, so lookups read O(log len) pages.", "quantifier": "all histories, leaf degree >= 1, internal degree >= 3", "why_tests_cant": "Global structural invariant over all histories.", "anchors": ["src/bp_tree/map.rs insert, remove", "src/bp_tree/node.rs"]}
{"id": "C30", "title": "BpMap leaf chain visits the leaves in order", "statement": "Following next-leaf links from the leftmost leaf visits every leaf once in key order, so iteration is complete and ascending and ends.", "quantifier": "all histories", "why_tests_cant": "Chain is rewired on each split and merge.", "anchors": ["src/bp_tree/map.rs BpMapIterMut", "src/bp_tree/node.rs LeafNode::merge, insert"]}
{"id": "C31", "title": "BpMap page accounting", "statement": "Every page of the file is either reachable from the root or on the free list, never both, and the free list has no cycle; allocating returns a page that is not in use.", "quantifier": "all histories", "why_tests_cant": "A page referenced twice only corrupts data many operations later.", "anchors": ["src/bp_tree/pager.rs allocate_node, deallocate_node, clear", "src/bp_tree/map.rs insert, remove"]}
{"id": "C32", "title": "BpMap survives reopening", "statement": "Closing the file between any two operations and reopening it with open gives a map with the same contents, len and future behaviour.", "quantifier": "all histories with reopen at any operation boundary", "why_tests_cant": "Any forgotten metadata write shows only if the reopen happens right after it.", "anchors": ["src/bp_tree/pager.rs open, new, set_len, set_root_page"]}
{"id": "C33", "title": "BpMap nodes fit their pages", "statement": "The serialized form of every node that can occur is no longer than the page size computed from the declared key and value sizes and the degrees, so writing a page never overwrites the next one.", "quantifier": "all key/value types and sizes, all degrees accepted by new/with_degrees, all node contents", "why_tests_cant": "Only a completely full node with maximum-size keys of particular types overflows.", "anchors": ["src/bp_tree/node.rs get_max_size, get_payload_size, get_constant_size", "src/bp_tree/pager.rs calculate_page_offset, write_node"]}
{"id": "C34", "title": "BpMap is crash consistent", "statement": "If the process stops between any two file writes of an insert or remove, reopening the file gives either the contents before or the contents after the operation.", "quantifier": "all states, all operations, all crash points", "why_tests_cant": "Tests never stop between two writes.", "anchors": ["src/bp_tree/map.rs insert, remove", "src/bp_tree/pager.rs"]}
{"id": "C35", "title": "LsmMap get reflects the latest write (size-tiered)", "statement": "With SizeTieredStrategy, for every history of insert, remove, get, flush, len and iter, and every timing of the background compaction, get(k) returns the value most recently inserted for k, or None if k was never inserted or was removed after its last insertion.", "quantifier": "all histories, all flush thresholds, all compaction choices and completion times", "why_tests_cant": "Compaction runs on another thread and picks tables by size; resurrecting a deleted key needs particular table ages.", "anchors": ["src/lsm_tree/map.rs LsmMap", "src/lsm_tree/compaction/size_tiered.rs compact, try_replace_metadata, get, try_compact"]}
{"id": "C36", "title": "LsmMap get reflects the latest write (leveled)", "statement": "The same with LeveledStrategy.", "quantifier": "all histories, all thresholds, all compaction completion times", "why_tests_cant": "As above, over arbitrarily many levels.", "anchors": ["src/lsm_tree/map.rs LsmMap", "src/lsm_tree/compaction/leveled.rs compact, try_replace_metadata, get, try_compact"]}
{"id": "C37", "title": "LsmMap iteration and len", "statement": "iter yields exactly the live pairs in strictly ascending key order with their latest values, and len counts them.", "quantifier": "all histories and compaction timings", "why_tests_cant": "Merging of arbitrarily many overlapping runs.", "anchors": ["src/lsm_tree/map.rs iter, len", "src/lsm_tree/compaction/size_tiered.rs SizeTieredIter", "src/lsm_tree/compaction/leveled.rs LeveledIter"]}
{"id": "C38", "title": "LsmMap min and max", "statement": "min and max return the smallest and largest live key.", "quantifier": "all histories", "why_tests_cant": "Needs a tombstone in memory shadowing the extreme key on disk.", "anchors": ["src/lsm_tree/map.rs min, max"]}
{"id": "C39", "title": "LsmMap len_hint never undercounts", "statement": "len_hint() is at least the number of live keys.", "quantifier": "all histories and compaction timings", "why_tests_cant": "Depends on tombstone counters of all tables.", "anchors": ["src/lsm_tree/map.rs len_hint", "src/lsm_tree/compaction/size_tiered.rs len_hint", "src/lsm_tree/compaction/leveled.rs len_hint"]}
{"id": "C40", "title": "LsmMap survives flush and reopen", "statement": "After flush returns, dropping the map and opening the directory again gives the same contents, and later writes still win over earlier ones. A directory created with new can always be opened.", "quantifier": "all histories with flush+reopen at any point", "why_tests_cant": "Logical time must stay monotone across restarts; the never-written directory is a boundary case.", "anchors": ["src/lsm_tree/compaction/size_tiered.rs new, open, flush", "src/lsm_tree/compaction/leveled.rs new, open, flush"]}
{"id": "C41", "title": "LsmMap crash safety of table replacement", "statement": "At every crash point the metadata file on disk only names table directories that exist with complete contents, so the database can be opened again with all flushed data.", "quantifier": "all histories, all crash points", "why_tests_cant": "Needs a stop between deleting old tables and writing the metadata.", "anchors": ["src/lsm_tree/compaction/size_tiered.rs try_replace_metadata, try_compact", "src/lsm_tree/compaction/leveled.rs try_replace_metadata, try_compact"]}
{"id": "C42", "title": "SSTable lookup agrees with SSTable contents", "statement": "For a table built by appending any strictly ascending sequence of entries, get(k) returns the entry for k if it was appended and None otherwise; scanning returns exactly the appended entries; key range, time range and counts in the summary are exact.", "quantifier": "all entry sequences, all block sizes, every filter without false negatives", "why_tests_cant": "Boundaries between index blocks for every length.", "anchors": ["src/lsm_tree/sstable.rs SSTableBuilder::append, flush, SSTable::get, floor_offset, SSTableDataIter"]}
{"id": "C43", "title": "Merging sorted runs keeps the newest version of each key", "statement": "The compaction/iteration merge of any number of sorted runs yields each key once, ascending, with the version of the highest logical time.", "quantifier": "all lists of runs", "why_tests_cant": "Interleavings of runs are unbounded.", "anchors": ["src/lsm_tree/compaction/size_tiered.rs SizeTieredIter::next", "src/lsm_tree/compaction/leveled.rs LeveledIter::next"]}
{"id": "C44", "title": "LSM memory budget", "statement": "After every insert or remove the in-memory tree's serialized size is at most max_in_memory_size, and the size bookkeeping equals the true total.", "quantifier": "all histories", "why_tests_cant": "Accounting drift accumulates over histories.", "anchors": ["src/lsm_tree/map.rs insert, remove, try_compact, clear"]}
{"id": "C45", "title": "Leveled compaction keeps levels sorted and disjoint", "statement": "After every compaction the tables of each level have pairwise disjoint key ranges, so probing one table per level finds the key if the level has it; and the compaction loop ends.", "quantifier": "all histories, all configuration parameters", "why_tests_cant": "Depends on range intersections of arbitrary tables; termination depends on configuration values.", "anchors": ["src/lsm_tree/compaction/leveled.rs compact, get, insert_sstable"]}
{"id": "C46", "title": "Size-tiered selection picks a valid, large enough range", "statement": "get_compaction_range returns None or a range inside the table list with more than max_sstable_count tables.", "quantifier": "all table size multisets, all parameters", "why_tests_cant": "All size distributions.", "anchors": ["src/lsm_tree/compaction/size_tiered.rs get_compaction_range"]}
{"id": "C47", "title": "Splay brings the accessed key to the root", "statement": "After insert(k) or a successful get_mut(k) on a SplayMap the key is at the root, so repeating the access costs one comparison; a failed access brings a neighbour (predecessor or successor) of k to the root.", "quantifier": "all trees, all keys", "why_tests_cant": "All access paths.", "anchors": ["src/splay_tree/tree.rs splay, get_mut, insert"]}
{"id": "C48", "title": "Range tests and merges of key intervals", "statement": "Two closed key ranges are reported as intersecting exactly when they have a common key bound (max of starts <= min of ends), and merging ranges gives the smallest range covering both.", "quantifier": "all pairs of ranges", "why_tests_cant": "All orderings of the four endpoints.", "anchors": ["src/lsm_tree/sstable.rs is_intersecting, merge_ranges"]}
{"id": "C51", "title": "Dropping a SkipMap frees every node exactly once", "statement": "After any history of calls and set operations, dropping a SkipMap deallocates every node that is still allocated for it, each exactly once: no operation leaks a node or leaves a dangling one behind.", "quantifier": "all reachable maps, including results of union, difference and symmetric_difference, all height draws", "why_tests_cant": "A leak or a double free is invisible to assertions on results; it depends on which nodes each history and each merge allocates and unlinks.", "anchors": ["src/skiplist/map.rs SkipMap Drop, remove, insert, clear, union, map_difference"]}
{"id": "C52", "title": "Dropping a SkipList frees every node exactly once", "statement": "After any history of calls, including concatenations whose left operand never lost an element, dropping a SkipList deallocates every node it owns, each exactly once: no call leaks a node or leaves a dangling one behind.", "quantifier": "all reachable lists, all height draws", "why_tests_cant": "A leak or a double free is invisible to assertions on results.", "anchors": ["src/skiplist/list.rs SkipList Drop, remove, clear, Add"]}
{"id": "C49", "title": "The set types behave as ordered sets", "statement": "AvlSet, RedBlackSet, SplaySet, TreapSet, SkipSet and RadixSet behave as mathematical ordered sets: insert and remove return the element that was there, contains, floor, ceil, min, max, len, is_empty, iter and clear answer as for the set of elements inserted and not removed since; union, intersection, difference, symmetric_difference and split_off of TreapSet and SkipSet yield the mathematical result. No call panics.", "quantifier": "all histories of calls on a new set, all element types with a total order, all random draws, all pairs of reachable sets for the binary operations", "why_tests_cant": "the answers must be right after every history of calls, and the binary operations for every pair of sets; a test sees a few", "anchors": ["src/avl_tree/set.rs: AvlSet", "src/red_black_tree/set.rs: RedBlackSet", "src/splay_tree/set.rs: SplaySet", "src/treap/set.rs: TreapSet", "src/skiplist/set.rs: SkipSet", "src/radix/set.rs: RadixSet"]}
{"id": "C50", "title": "Concurrent Stack is correct under the memory orderings it uses", "statement": "With the orderings in the code (relaxed and acquire loads, release compare-and-swaps, release additions), on a machine where a load may return any write not older than what the thread has seen: no thread uses a node that has been freed or whose creation does not happen before the use; in every execution the operations can be put into one order that explains all results as those of a LIFO stack and does not contradict the happens-before order established by the client; a value returned by try_pop was pushed by a call that, with everything its thread did before, happens before the return; and when no call is in progress and all returns happen before a call of len, it returns the number of elements.", "quantifier": "all numbers of threads, all schedules, all choices of the write a load sees, all addresses reused by the allocator, all legal reclamation times, all messages between the client's threads", "why_tests_cant": "tests run on one machine with strong ordering and see few interleavings; a missing acquire or release shows only on other hardware or after compiler reordering", "anchors": ["src/sync/stack.rs Stack::push, try_pop, len"]}
{"id": "C53", "title": "SplayMap operations cost amortized logarithmic time", "statement": "Over every history of calls on a new SplayMap, the total number of key comparisons made by insert, remove and get_mut is at most the sum over these calls of 10 log2(len+2)+19, where len is the size of the map before the call; so m such calls on any keys make O(m log m) comparisons. (get and contains_key do not restructure the tree and have no such bound: each may cost len comparisons.)", "quantifier": "all histories of calls, all key types with a total order, all keys and values", "why_tests_cant": "single calls may be linear; the bound is about every sequence of calls, including adversarial ones, and needs a potential argument", "anchors": ["src/splay_tree/map.rs: SplayMap (doc: self-adjusting tree)", "src/splay_tree/tree.rs: Tree::splay, insert, remove, get_mut, get"]}
{"id": "C54", "title": "Random priorities keep a TreapMap or TreapList logarithmically high on average", "statement": "For every history of calls on a new TreapMap or TreapList, over all equally likely orders of the drawn priorities, the expected height of the tree (and the expected number of keys a lookup compares with) is at most proportional to the logarithm of the number of keys or elements, and the probability of exceeding the bound by t falls like 2^-t.", "quantifier": "all histories of calls, all key types with a total order, all sets of distinct priorities, all orders in which they can be drawn", "why_tests_cant": "the claim averages over all orders of the draws, for every history; a test sees the one sequence of the fixed seed", "anchors": ["src/treap/map.rs: TreapMap (doc comment: expected height), insert", "src/treap/tree.rs: insert, split, merge, remove", "src/treap/list.rs: TreapList (doc comment)", "src/treap/implicit_tree.rs"]}
{"id": "C55", "title": "Concurrent Stack is lock-free", "statement": "However the threads are scheduled, even if some are stopped for ever in the middle of a call, the calls of push and try_pop together make at most a fixed number of memory accesses (depending only on the number of threads) for each call that returns, so that some call always returns; no call ever blocks; and a thread that runs alone returns after a bounded number of its own accesses. This also holds when loads may return old writes as allowed by the orderings in the code.", "quantifier": "all numbers of threads, all schedules without any fairness assumption, all reachable states, all choices of the write a load sees", "why_tests_cant": "a livelock or a lost wake-up needs a particular, possibly endless, schedule; tests see a few fair ones", "anchors": ["src/sync/stack.rs Stack (doc: lock-free), push, try_pop"]}
{"id": "C56", "title": "Random heights keep the searches of a SkipMap logarithmic on average", "statement": "For every history of calls on a new SkipMap that is fixed before the random words are drawn, averaged over all words the generator can deliver, every further call (insert, remove, get, get_mut, contains_key, floor, ceil, max) compares a number of keys that is at most proportional to the logarithm of the number of entries.", "quantifier": "all histories of calls, all key types with a total order, all further calls, all sequences of 32-bit words, all placements of nodes by the allocator (which may depend on the words)", "why_tests_cant": "the claim averages over all sequences of random words, for every history; a test sees the one sequence of the fixed seed and small sizes", "anchors": ["src/skiplist/map.rs: SkipMap (doc comment), get_starting_height, gen_random_height, insert, remove, get, get_mut, contains_key, floor, ceil, max"]}
{"id": "C57", "title": "Random heights keep index access in a SkipList logarithmic on average", "statement": "For every history of calls on a new SkipList that is fixed before the random words are drawn and in which no call panics, averaged over all words the generator can deliver, every further call by index or at an end (insert, remove, push_front, push_back, pop_front, pop_back, get, get_mut, indexing) reads a number of links to find its place that is at most proportional to the logarithm of the length.", "quantifier": "all histories of calls, all element types, all further calls, all sequences of 32-bit words, all placements of nodes by the allocator (which may depend on the words)", "why_tests_cant": "the claim averages over all sequences of random words, for every history; a test sees the one sequence of the fixed seed and small lengths", "anchors": ["src/skiplist/list.rs: SkipList (doc comment), MAX_HEIGHT, gen_random_height, insert, remove, push_front, push_back, pop_front, pop_back, get, get_mut, Index"]}
{"id": "C58", "title": "An LsmMap iterator yields the contents at its creation, whatever is done with the map meanwhile", "statement": "An iterator returned by LsmMap::iter yields, one pair per call of next, exactly the live pairs of the map at the time it was created, in ascending order of the keys, and then None, and never an error, whatever calls are made on the map and on other iterators between two calls of next; creating it succeeds; the calls of the map stay correct while iterators are alive; and no compaction runs while an iterator of the map is alive, as the documentation promises.", "quantifier": "all programs that create, read and drop any number of iterators between any calls of the map (including clear, and closing and opening the map), both strategies, all configurations, all times at which the compaction thread runs", "why_tests_cant": "the iterator reads its files lazily, so whether it is right depends on every interleaving of next with calls that write, compact and delete files; tests read an iterator to its end at once", "anchors": ["src/lsm_tree/map.rs: iter", "src/lsm_tree/sstable.rs: SSTableDataIter", "src/lsm_tree/compaction/size_tiered.rs: SizeTieredIter, iter, try_compact", "src/lsm_tree/compaction/leveled.rs: LeveledIter, get_next_level_entry, iter, try_compact"]}
{"id": "C59", "title": "The calls of an LsmMap and its compaction thread may interleave in any way", "statement": "Whatever the order in which the single steps of the background compaction (each table directory it creates, publishing its result, clearing its flag) fall between the single steps of the calls on the map (each directory created or removed, each look at the flag or the result, joining the thread), the calls that read answer according to the calls that returned before them, no call finds a table directory missing, the compaction finds every table it reads until it ends, and no call waits forever.", "quantifier": "all sequences of calls, all interleavings of the steps of the two threads, both strategies, all configurations (for the last claim with the leveled strategy: positive counts)", "why_tests_cant": "tests see the few interleavings that the scheduler happens to choose, and compactions that delete or create directories take microseconds", "anchors": ["src/lsm_tree/map.rs: insert, remove, get, len_hint, len, iter, flush, clear, compact", "src/lsm_tree/compaction/size_tiered.rs: try_replace_metadata, try_compact, spawn_compaction_thread, flush, clear", "src/lsm_tree/compaction/leveled.rs: try_replace_metadata, try_compact, spawn_compaction_thread, flush, clear"]}
{"id": "C60", "title": "Opening an LsmMap reads the state written last", "statement": "However often the map wrote its list of tables and its logical time, opening the directory reads exactly what was written last, although the files are overwritten in place and never truncated. Every table on the list is read from its directory and returns exactly the entries stored in it; if the directory of a listed table is missing, opening fails.", "quantifier": "all sequences of writes of any length to the two files, all previous contents, both strategies, all tables, all key and value types that can be read back", "why_tests_cant": "Whether leftovers of an older, longer list are ever read depends on the lengths of all earlier writes.", "anchors": ["src/lsm_tree/compaction/size_tiered.rs: SizeTieredMetadata, SizeTieredStrategy::open, get_and_increment_logical_time", "src/lsm_tree/compaction/leveled.rs: LeveledMetadata, LeveledStrategy::open", "src/lsm_tree/sstable.rs: Serialize and Deserialize for SSTable"]}
{"id": "C61", "title": "The directory of a closed LsmMap can be moved", "statement": "After the directory of a closed map was moved, the map can be opened in the new place with the same contents.", "quantifier": "all maps, all old and new places", "why_tests_cant": "Tests open a map where it was made.", "anchors": ["src/lsm_tree/sstable.rs: Serialize and Deserialize for SSTable", "src/lsm_tree/compaction/size_tiered.rs: SizeTieredStrategy::open", "src/lsm_tree/compaction/leveled.rs: LeveledStrategy::open"]}
{"id": "C62", "title": "An LsmMap survives a write to its small files that is cut off", "statement": "If the process stops in the middle of writing the list of tables or the logical time, opening the directory finds the state before or after that write.", "quantifier": "all contents, all cut-off points (byte by byte)", "why_tests_cant": "Tests do not stop in the middle of a write.", "anchors": ["src/lsm_tree/compaction/size_tiered.rs: try_compact, get_and_increment_logical_time", "src/lsm_tree/compaction/leveled.rs: try_compact, get_and_increment_logical_time"]}
{"id": "C63", "title": "iter_mut of RadixMap lends every value once and loses no write", "statement": "Successive calls of next on iter_mut give out the entries that iter would give, in the same order, each with a reference to its own value, then None; no two references are to the same value. Writing through the references changes exactly the values visited; the map keeps its keys and behaves afterwards as if the writes had been made with get_mut.", "quantifier": "all reachable maps, all numbers of calls of next, all updates written through the references", "why_tests_cant": "The iterator keeps references to several sibling lists at once; whether two of them meet depends on the shape of the tree.", "anchors": ["src/radix/map.rs RadixMapIterMut, iter_mut, get_mut"]}
{"id": "C64", "title": "TypedArena keeps its contents when panics are caught", "statement": "If the panics of free and of indexing are caught and the arena is used further, a panicking call changes what no handle reads; all later calls behave as if it had not been made: allocate does not panic and returns a handle that is not live, live handles read their own values, free returns them.", "quantifier": "all histories of calls with any number of caught panics, all chunk sizes", "why_tests_cant": "free changes the free list before it notices that the block is vacant; the effect shows only in later calls.", "anchors": ["src/arena.rs TypedArena::free, allocate, Index"]}
{"id": "C65", "title": "TypedArena reuses freed memory also after caught panics", "statement": "With caught panics too, freed blocks are handed out again, no chunk outgrows its size, and the memory stays bounded by the largest number of objects live at a time.", "quantifier": "all histories of calls with caught panics, all positive chunk sizes", "why_tests_cant": "The loss is silent and only shows as growth over a long history.", "anchors": ["src/arena.rs TypedArena::free"]}
{"id": "C66", "title": "RadixMap stays compact and its calls cost by the key, not by the map", "statement": "The map never holds more than two nodes per entry (one node when empty) and never more key bytes than the stored keys have, also after removals. get, contains_key, get_mut and remove make at most 257 byte comparisons per byte of the key, insert at most 513 per byte and 512 more, whatever the map holds.", "quantifier": "all histories of calls on a new map, all keys, values and stored keys", "why_tests_cant": "A test measures particular maps; the bound must hold for every history, however many entries with common prefixes it leaves or removes.", "anchors": ["src/radix/map.rs RadixMap", "src/radix/tree.rs insert, remove, get, get_mut", "src/radix/node.rs Node::get, get_mut, contains, insert_child, merge"]}
{"id": "C67", "title": "LsmMap leaves no garbage on the disk", "statement": "After every call, each directory in the directory of the map belongs to a table that the map reads, or to a finished compaction whose result it will take over. Directories of replaced tables are deleted, and a compaction leaves nothing behind but the tables of its result. So the space on the disk is bounded by what the map uses, not by how long it has been in use.", "quantifier": "all histories of calls with either compaction strategy, all parameters, every pace of the compaction thread", "why_tests_cant": "Leftover directories are never read again, so no answer of the map shows them; they accumulate over a long history.", "anchors": ["src/lsm_tree/compaction/size_tiered.rs try_replace_metadata, compact, clear", "src/lsm_tree/compaction/leveled.rs try_replace_metadata, compact, clear", "src/lsm_tree/sstable.rs SSTableBuilder::new"]}
{"id": "C68", "title": "The file of a BpMap stays small and its calls write little", "statement": "Freed pages are used again: if a map never held more than N entries, its file never has more than 2*floor(N / ceil(leaf_degree/2)) - 1 pages (one if that is less), however many entries were inserted and removed. At every moment the tree of a map with n entries uses at most that many pages for n. An insert writes to the file at most 4h+9 times and a remove at most 3h+4 times, where h is the height of the tree, which is logarithmic in the number of entries.", "quantifier": "all histories of calls (with reopening), all degrees, keys and values", "why_tests_cant": "A leak of pages or a write amplification shows only on particular shapes of the tree and grows over long histories.", "anchors": ["src/bp_tree/pager.rs allocate_node, deallocate_node", "src/bp_tree/map.rs insert, remove, clear"]}
{"id": "C69", "title": "Destroying a tree container, clearing it and looking a key up do not exhaust the stack", "statement": "Dropping or clearing a container frees every entry exactly once, and the calls made for this nest at most c * log(n) deep for n entries; so do the calls of get, ceil and floor. Hence the stack a thread needs does not grow with the number of entries beyond a logarithm (for RadixMap: beyond the length of the keys).", "quantifier": "all histories of calls on AvlMap, RedBlackMap, SplayMap, TreapMap and RadixMap, all keys, all sizes", "why_tests_cant": "A stack overflow aborts the process only for containers much larger than those in tests, built in particular orders.", "anchors": ["src/avl_tree/node.rs Node", "src/red_black_tree/node.rs Node", "src/splay_tree/node.rs Node", "src/treap/node.rs Node", "src/radix/node.rs Node", "src/splay_tree/tree.rs get, ceil, floor", "src/radix/tree.rs get"]}
{"id": "C70", "title": "An I/O error in an LSM map call is contained", "statement": "If a call of LsmMap returns an error because an operation on its files fails, no earlier acknowledged write is lost, no later call panics, and the map goes on as if the call had either taken effect or not. What an earlier successful flush has written stays readable, compactions continue, and after the next successful flush the directory can be opened with the same contents.", "quantifier": "all histories of calls on LsmMap with both strategies, all subsets of calls that fail, all places inside a call at which an operation on the files fails, all times at which the compaction thread fails", "why_tests_cant": "Each file operation of each call can fail after any history; tests do not inject I/O errors.", "anchors": ["src/lsm_tree/map.rs LsmMap::try_compact, insert, remove, flush, iter", "src/lsm_tree/compaction/size_tiered.rs try_compact, try_replace_metadata, flush, clear, iter", "src/lsm_tree/compaction/leveled.rs try_compact, try_replace_metadata, flush, clear, iter"]}
{"id": "C71", "title": "A read error during an LSM scan is reported and does not distort the rest", "statement": "If reading a table fails in the middle of a scan, the scanning call reports it: len, is_empty, min and max return an error, not a wrong answer, and an iterator yields the error, and every pair it yields before or after the error is a current pair of the map, in ascending order.", "quantifier": "all histories of calls on LsmMap with both strategies, all subsets of tables, all positions inside them at which a read fails", "why_tests_cant": "Which reads fail is up to the operating system; the wrong answers appear only for particular combinations of tables and failing positions.", "anchors": ["src/lsm_tree/map.rs LsmMap::len, is_empty, min, max, iter", "src/lsm_tree/compaction/size_tiered.rs SizeTieredIter::next, len, max", "src/lsm_tree/compaction/leveled.rs LeveledIter::next, len, max", "src/lsm_tree/sstable.rs SSTableDataIter::next"]}
{"id": "C72", "title": "A table file that was cut short is not mistaken for a whole one", "statement": "If files of an SSTable end before their end, for instance because the last bytes had not reached the disk at a power failure, then opening the table or reading from it returns an error or the right answer: get never answers wrongly, and a scan that meets no error returns all entries.", "quantifier": "all tables (all ascending lists of entries, key and value types, block sizes), all beginnings of each of the four files, all keys", "why_tests_cant": "Every byte position of every file of every table is a possible end; only cuts at or just after the end of an entry go unnoticed.", "anchors": ["src/lsm_tree/sstable.rs SSTable::new, get, data_iter", "src/lsm_tree/sstable.rs SSTableDataIter::next"]}
{"id": "C73", "title": "An I/O error in a BpMap call is contained", "statement": "If a read or a write of the page file fails during a call on a BpMap and the process goes on with the map, then the failed call has had no effect or all of its effect: all later calls answer as an ordered map with the contents from before or from after the failed call, and none of them panics.", "quantifier": "all histories of calls on BpMap with any number of failing calls, all places in a call at which an operation on the file can fail, all keys, values and node degrees", "why_tests_cant": "Each call can fail at several places, and what a failure leaves behind shows only in later calls on particular trees.", "anchors": ["src/bp_tree/map.rs BpMap::insert, remove, clear, get, iter", "src/bp_tree/pager.rs Pager::allocate_node, deallocate_node, clear, set_len, set_root_page"]}
{"id": "C74", "title": "A panicking comparison leaves a map as before or after the call", "statement": "If the user-supplied comparison of keys panics during a call on an AvlMap, RedBlackMap, SplayMap, TreapMap or SkipMap and the client catches the panic and goes on using the map, then the call has had no effect or all of its effect, and all later calls answer as an ordered map.", "quantifier": "all histories of calls with any number of panicking calls, all positions of the panicking comparison in a call, all keys and values, all random priorities and heights", "why_tests_cant": "The comparison can panic at any position of any call in any history, and what it leaves behind depends on the shape of the tree.", "anchors": ["src/avl_tree/map.rs AvlMap::insert, remove", "src/avl_tree/tree.rs insert, remove", "src/red_black_tree/tree.rs insert, remove", "src/splay_tree/map.rs SplayMap::insert, remove, get_mut", "src/splay_tree/tree.rs splay", "src/treap/tree.rs insert, split", "src/treap/map.rs TreapMap::split_off", "src/skiplist/map.rs SkipMap::insert, remove"]}
{"id": "C75", "title": "Wrong comparisons cannot corrupt a SkipMap", "statement": "SkipMap is safe Rust for its users although it is built on raw pointers, so an implementation of Ord, Eq or Borrow for the key that obeys no law must not lead to undefined behaviour: whatever the comparisons answer, every call only touches live memory, every entry put in is handed out at most once and stays in the map until then, len and iter agree with the entries that are there, and dropping the map frees all of them.", "quantifier": "all histories of calls, all answers of <, == and <= to every comparison, all random heights", "why_tests_cant": "There is no bound on the ways in which a comparison can be wrong; whether a wrong answer corrupts memory depends on the heights drawn and on the answers at all other levels.", "anchors": ["src/skiplist/map.rs SkipMap::insert, remove, get, get_mut, floor, ceil, min, max, iter, clear, drop"]}
{"id": "C76", "title": "A panicking destructor does no further harm", "statement": "If the destructor of a stored key or value panics while a container is cleared or dropped, and the panic is caught, no destructor is run a second time and no freed memory is used afterwards; a container that was being cleared is left as if it had been cleared, and can be used and dropped.", "quantifier": "all maps and lists that can be built, all sets of elements whose destructors panic, all later calls", "why_tests_cant": "The panic can come from any element; the damage shows only in a later call or in the implicit drop at the end of a scope, and as undefined behaviour, which a test need not notice.", "anchors": ["src/skiplist/map.rs SkipMap::clear, Drop, Node::free", "src/skiplist/list.rs SkipList::clear, Drop, Node::free", "src/avl_tree/map.rs AvlMap::clear", "src/red_black_tree/map.rs RedBlackMap::clear", "src/splay_tree/map.rs SplayMap::clear", "src/treap/map.rs TreapMap::clear", "src/radix/map.rs RadixMap::clear"]}
{"id": "C77", "title": "Skip list nodes have room for their fields and are aligned", "statement": "For all key and value types, the memory allocated for a node of a SkipMap or SkipList contains the length, the element and all links of the node, these do not overlap, each begins at an address its type allows, and the block is handed back with the size with which it was allocated.", "quantifier": "all sizes and alignments of the element type, all numbers of links, all addresses the allocator may return", "why_tests_cant": "Tests use a few element types, and misalignment or an overflow by a few bytes is silent on most machines.", "anchors": ["src/skiplist/map.rs Node::get_size_in_u64s, allocate, deallocate, get_pointer", "src/skiplist/list.rs Node::get_size_in_u64s, allocate, deallocate, get_pointer"]}
{"id": "C78", "title": "Set operations of a SkipMap survive wrong and panicking comparisons", "statement": "Whatever the comparisons answer during a union or difference of two SkipMaps, and even if one of them panics, no memory is misused; each entry of the two maps ends up in the result or is dropped, exactly once, and when the call has unwound all memory has been freed. A map that is returned can be used and dropped as any other.", "quantifier": "all pairs of maps that can be built (with comparisons that obey no law), all sequences of answers, all places at which a comparison may panic, all later calls", "why_tests_cant": "The number of answer sequences is exponential, and leaked or doubly freed nodes are not observable by assertions.", "anchors": ["src/skiplist/map.rs SkipMap::union, map_difference, difference, symmetric_difference, Drop"]}
{"id": "C79", "title": "Wrong comparisons do not make a search-tree map lose, double or panic", "statement": "If the comparisons of the keys answer anything, even differently each time, then in AvlMap, RedBlackMap, SplayMap and TreapMap no call panics, every entry that was put in is in the map until it is handed out, once, and len() counts the entries.", "quantifier": "all histories of calls, all answers of all comparisons, all random priorities", "why_tests_cant": "Each comparison can answer in three ways, so the number of behaviours is exponential in the length of a history.", "anchors": ["src/avl_tree/tree.rs insert, remove, get, get_mut, ceil, floor", "src/red_black_tree/tree.rs insert, remove, combine_subtrees", "src/splay_tree/tree.rs splay, insert, remove, get_mut", "src/treap/tree.rs split, insert, remove"]}
{"id": "C80", "title": "Wrong comparisons do not make set operations of a TreapMap lose or invent entries", "statement": "If the comparisons of the keys answer anything, even differently each time, then union, intersection, difference and symmetric_difference of two TreapMaps still return. Each entry of one map is paired with at most one of the other, only if a comparison called them equal. The result lists, in the order of both maps, what the operation keeps of the paired and unpaired entries, and len() counts it. split_off cuts the list of entries in two.", "quantifier": "all TreapMaps that can come about by calls, set operations and split_off with any answers; all answers of all comparisons; all priorities", "why_tests_cant": "Each of the comparisons can answer in three ways, so the number of behaviours is exponential in the sizes of the maps.", "anchors": ["src/treap/tree.rs union, intersection, difference, split, merge", "src/treap/map.rs union, intersection, difference, symmetric_difference, split_off"]}
{"id": "C81", "title": "Panicking destructors inside set operations of a SkipMap are contained", "statement": "If the destructors of some entries panic while union, difference or symmetric_difference of two SkipMaps drops entries, the call unwinds without undefined behaviour, every destructor runs at most once, and everything is freed except the entry whose destructor panicked. If a second destructor panics while the call unwinds, the process is aborted.", "quantifier": "all maps, all sets of entries whose destructors panic, all answers of the comparisons", "why_tests_cant": "Any subset of the entries can have destructors that panic, at any point of the operation; and undefined behaviour may show no effect in a test.", "anchors": ["src/skiplist/map.rs union, map_difference, Drop, Node::free"]}
{"id": "C82", "title": "Keys that compare equal but can be told apart are treated consistently", "statement": "If keys are compared by a rank, so that different keys may compare equal, then the five ordered maps hold at most one entry per rank: insert replaces both the key and the value of an entry of the same rank and returns the old pair; remove, floor, ceil, min, max and iter return the key that is stored, not the one asked for; get_mut leaves the stored key; and in the set operations of TreapMap and SkipMap the entries of the left map are kept with their own keys.", "quantifier": "all key types, ranks, histories of calls, priorities and heights", "why_tests_cant": "Which of two equal keys is kept depends on the shape of the tree and the path of the call; a test with keys like integers cannot see it at all.", "anchors": ["src/avl_tree/map.rs", "src/red_black_tree/map.rs", "src/splay_tree/map.rs", "src/treap/map.rs", "src/skiplist/map.rs", "src/entry.rs"]}
{"id": "C83", "title": "Inserting, removing, splitting and joining do not exhaust the stack", "statement": "The calls of insert and remove (and of split_off and union of TreapMap) nest at most c * log(n) deep for a container of n entries, so the stack a thread needs does not grow with the number of entries beyond a logarithm; for RadixMap the nesting is bounded by the length of the key plus a constant.", "quantifier": "all histories of calls on AvlMap, RedBlackMap, TreapMap, TreapList and RadixMap, all keys, positions and sizes, all random draws (for the treaps: all but a small share)", "why_tests_cant": "A stack overflow aborts the process only for containers much larger than those in tests, with a history that unbalances the tree, or with unlucky priorities.", "anchors": ["src/avl_tree/tree.rs insert, remove, combine_subtrees, remove_min", "src/red_black_tree/tree.rs insert, remove, combine_subtrees, remove_min", "src/treap/tree.rs insert, remove, merge, split, union", "src/treap/implicit_tree.rs insert, remove, get, split, merge", "src/radix/tree.rs insert, remove, insert_child"]}
{"id": "C84", "title": "Mutable access to the values of a SkipMap is exclusive and loses no write", "statement": "A mutable iterator over a SkipMap lends every value once, in ascending order of the keys, and what is written through the references it lends, at any time while they are alive, is what the map contains afterwards. While a mutable reference to a value is alive no other reference to the same value can be obtained, and a program that holds only a shared reference to the map cannot change a value.", "quantifier": "all reachable maps, all programs that look keys up, make iterators, move them on and read and write through the references they got, in any order", "why_tests_cant": "Tests use one iterator at a time and do not keep references; aliasing of a mutable reference is undefined behaviour that a passing test cannot show.", "anchors": ["src/skiplist/map.rs iter_mut, SkipMapIterMut::next, get"]}
{"id": "C85", "title": "Lookups in a leveled map ask few tables", "statement": "With LeveledStrategy, max_initial_level_count at least 1 and growth_factor at least 2, a map has at most 2 + log(k) levels (to the base growth_factor), where k is the number of different keys ever written, however often they were overwritten or removed. A lookup asks each table that is not yet in a level once and in every level at most one table, the one whose key range can hold the key; so it asks at most t + 2 + log(k) tables if t tables are not in a level.", "quantifier": "all histories of calls, all keys, all speeds of the compaction thread, all such parameters", "why_tests_cant": "The number of levels depends on the whole history of flushes and compactions; a level too many or a second table per level makes no answer wrong.", "anchors": ["src/lsm_tree/compaction/leveled.rs compact, get"]}
{"id": "C86", "title": "Calls on a file map read few pages", "statement": "A call of get, contains_key, min or max reads one page per level of the tree, insert at most 2h + 3 pages and remove at most 2h + 1, where h is the height of the tree, which is logarithmic in the number of entries. A loop over all entries reads no page twice, and at most h + 1 pages plus one for every half-full leaf. The answers and the changes of the file depend on no other pages: whatever those hold, the call does the same.", "quantifier": "all histories of calls on a BpMap with reopening, all keys and values, all degrees the code supports, all contents of the pages not read", "why_tests_cant": "An extra page read makes no answer wrong, and the worst case needs a particular shape of the tree together with free pages.", "anchors": ["src/bp_tree/map.rs search_node, insert, remove, get, min, max, iter_mut", "src/bp_tree/pager.rs get_page, allocate_node"]}
{"id": "C87", "title": "An LsmMap outlives a panic of its compaction thread", "statement": "If the compaction thread panics (a comparison, hash or deserialization of the user's types panics, or a computed limit overflows), no data is affected: all later calls answer as if the compaction had not been started, whatever tables the thread had written, also after the map has been opened again. All later calls return. And a later call starts compactions again, so that the number of tables stays bounded.", "quantifier": "all histories of calls with panics of the compaction thread at any time while it runs, any number of them, all tables left behind, both strategies, all parameters and any arithmetic for the level limits", "why_tests_cant": "The panic can come at any moment of any compaction in any history, and what it leaves behind shows only in later calls and compactions.", "anchors": ["src/lsm_tree/compaction/leveled.rs spawn_compaction_thread, try_compact, flush, clear", "src/lsm_tree/compaction/size_tiered.rs spawn_compaction_thread, try_compact, flush, clear"]}
{"id": "C88", "title": "An LsmMap outlives a panic of a comparison or hash function in a call", "statement": "If a comparison or the hash function of the key type panics during a call on an LsmMap, and the client catches the panic and goes on using the map, then the call has had no effect or all of its effect, no entry whose insert returned is lost, and all later calls return and answer as an ordered map.", "quantifier": "all histories of calls with panics at any place of any call, both strategies, all parameters, all keys and values, all schedules of the compaction thread", "why_tests_cant": "The panic can come at any comparison of any call; what is lost depends on what was in memory at that moment and shows only in later calls or after opening the map again.", "anchors": ["src/lsm_tree/map.rs LsmMap::insert, remove, get, contains_key, min, max, len, is_empty, iter, flush, clear, try_compact", "src/lsm_tree/compaction/leveled.rs try_compact, get, iter, flush, clear", "src/lsm_tree/compaction/size_tiered.rs try_compact, get, iter, flush, clear", "src/lsm_tree/sstable.rs SSTableBuilder::append, SSTable::get"]}
{"id": "C89", "title": "A panicking comparison leaves a BpMap as before or after the call", "statement": "If a comparison or a clone of keys panics during a call on a BpMap, and the client catches the panic and goes on using the map, then the call has had no effect or all of its effect: all later calls answer as an ordered map with the contents from before or from after that call, and none of them panics.", "quantifier": "all histories of calls with any number of panicking calls, all positions of the panicking comparison or clone in a call, all keys, values and node degrees", "why_tests_cant": "The panic can come at any comparison of any call in any history; what it leaves in the file depends on the tree and shows only in later calls on other keys.", "anchors": ["src/bp_tree/map.rs BpMap::insert, remove, get", "src/bp_tree/node.rs InternalNode::insert, LeafNode::insert, remove"]}
{"id": "C90", "title": "A panicking comparison never corrupts a SkipMap", "statement": "Let key comparisons panic at any moment, in any calls, the panics being caught, including inside an insert that has linked its new node at some levels only. Then every later call returns (or panics in a comparison again) with defined behaviour: no freed or foreign memory is touched, no loop runs forever, the length does not underflow, and the map can be dropped without freeing anything twice. Iteration is always in strictly ascending key order and shows only entries that were inserted and not handed back, each once; len() is the number of entries inserted and not handed back. A key smaller than every key whose insertion panicked keeps exactly the value that the calls that returned gave it.", "quantifier": "all histories of calls, all random heights, all numbers of comparisons after which each call panics, all keys and values, any linear order", "why_tests_cant": "The state left by an insert that stopped halfway has nodes on some levels only; what later calls do to it depends on the heights, the keys and the place of every further panic, and undefined behaviour may not show in a test.", "anchors": ["src/skiplist/map.rs: SkipMap::insert, SkipMap::remove, SkipMap::get, SkipMap::get_mut, SkipMap::floor, SkipMap::ceil, SkipMap::max, SkipMap::clear, Drop for SkipMap"]}
{"id": "C91", "title": "Set operations repair a SkipMap after panics", "statement": "Take any two SkipMaps, whatever comparisons panicked (and were caught) in the calls that made them. Their union always succeeds: it has the entries that iteration shows in either map, with the left values on common keys. From then on it behaves as a map that no panic has ever touched: len() agrees with iteration again, every entry shown is found, and without further panics it is an ordered map. Difference and symmetric difference do the same. Dropping the result frees all nodes except those that dropping the two operands would have leaked.", "quantifier": "all maps reached by calls with any comparisons panicking and by earlier set operations, all random heights, all keys and values, any linear order, all later histories", "why_tests_cant": "The operands contain nodes linked at some levels only, in shapes that depend on the heights and on the place of every panic; the merge rewires all levels from the bottom list.", "anchors": ["src/skiplist/map.rs: SkipMap::union, SkipMap::difference, SkipMap::symmetric_difference, Add, Sub, Drop for SkipMap"]}
{"id": "C92", "title": "Size-tiered compactions merge one full bucket", "statement": "A size-tiered compaction merges the tables of one bucket as documented (all at most min_sstable_size, or all between bucket_low and bucket_high times their average), the bucket has more than max_sstable_count tables, and a bucket that is too full is compacted. Hence after any insertion or removal that writes the in-memory tree out while no iterator is alive and that leaves no compaction running, the number of tables grows only with the logarithm of the largest size: at most max_sstable_count * (k + 1) tables when all sizes are at most min_sstable_size * r^k, for every 1 < r <= bucket_high with r * bucket_low <= 1. Both bounds are up to the rounding of floating-point numbers.", "quantifier": "all sets of tables and sizes, all parameters, all states of the map, all keys and values", "why_tests_cant": "The selection depends on all sizes together, through a running average over the sorted tables; the bound on the number of tables holds for every set of sizes only by an argument over the whole loop.", "anchors": ["src/lsm_tree/compaction/size_tiered.rs: SizeTieredStrategy, SizeTieredMetadata::get_compaction_range, try_compact"]}
{"id": "C93", "title": "A finished compaction drops the tables it merged", "statement": "When no iterator is alive and the compaction thread does not run, a write followed by flush leaves few tables: with LeveledStrategy at most max_sstable_count tables outside the levels; with SizeTieredStrategy no compaction is due afterwards or the tables have become fewer by max_sstable_count, not counting the one just written. In particular a map from which everything was removed does not keep a growing number of tables that every lookup and every compaction reads again.", "quantifier": "all histories of calls, all keys and values, all parameters, all speeds of the compaction thread", "why_tests_cant": "Which tables are dropped depends on the logical times of the entries that survive the merge, so on the whole history; keeping a merged table makes no answer wrong.", "anchors": ["src/lsm_tree/compaction/leveled.rs: try_replace_metadata, try_compact, flush", "src/lsm_tree/compaction/size_tiered.rs: try_replace_metadata, SizeTieredMetadata::compact, try_compact, flush"]}
