# Formal model of extended-collections-rs in Lean 4

## 1. Approach

The Rust code is modelled function by function as small total Lean functions.
Mutation (`&mut`) becomes returning the new value; a panic (`expect`, `assert!`,
index out of range, `unwrap`) becomes `none`/an explicit error; random draws
(treap priorities, skip-list heights) become universally quantified parameters
of the operations; loops become structural or well-founded recursion; raw
pointers and files become explicit heaps / page stores / directories.

Layout of `/verif/lean/Verif`:

* `Spec/*`      - small specifications that do not mention any model (abstract
                  ordered map, sequence, stack, arena, ...).
* `<Structure>/Model.lean`  - the model, each definition citing file and lines.
* `<Structure>/*.lean`      - helper lemmas.
* `<Structure>/Props.lean`  - the property theorems (and non-vacuity examples),
                  the only file a reader needs besides Spec and Model.

All map-like structures are compared with one specification
(`Spec/OrdMap.lean`): an abstract state `K -> Option V` and, for each API call,
a relation between old state, result and new state.  "Behaves as an ordered
map on every history" is then one theorem per structure: for every list of API
calls the model run exists (no panic) and is a run of the specification.

## 2. Plan per property

| id | what is modelled | how it is proved |
|----|------------------|------------------|
| C01 AvlMap | `avl_tree/{node,tree,map}.rs` as a binary tree with stored heights, `len` counter | BST invariant + lookup laws by induction on trees, refinement by induction on the history; rotations only need "stored height of an empty tree is 0", so stale heights are harmless for contents |
| C02 RedBlackMap | `red_black_tree/*` with colours, panics explicit | LLRB invariant by induction (needed for panic freedom of remove), then as C01 |
| C03 SplayMap | top-down splay loop with the two accumulator trees | loop invariant: in-order listing preserved, then as C01 |
| C04 TreapMap | `treap/{node,tree,map}.rs`, priorities quantified | as C01 |
| C05 SkipMap | node heap with link vectors, heights quantified | representation invariant: at each level the chain of links is the sublist of towers reaching that level |
| C06 AVL insert balance | same model | AVL invariant by induction; Fibonacci bound |
| C07 AVL remove balance | same model | the code violates it (`remove_min` neither updates heights nor rebalances): concrete counterexample history |
| C08 RB height | same model | black-height argument |
| C09 treap heap order | same model | invariant, uniqueness of treap shape |
| C10 treap algebra | union/intersection/difference with the `swapped` flag | lookup characterisation by well-founded induction |
| C11 split_off | same | same |
| C12 TreapList | `implicit_tree.rs`, `list.rs` | in-order listing = sequence, sizes exact |
| C13 SkipList | node heap with (next, distance) links | each distance = difference of positions |
| C14 SkipList + | same | code violates it after a remove: counterexample; partial theorem for never-removed lists |
| C15 SkipMap algebra | same heap as C05, out-of-bounds access explicit | union proved; intersection and difference have counterexamples (out-of-bounds write; null dereference); both are characterised exactly |
| C16 drop once | drop-event traces of the into_iter types | counterexample; partial: fully drained iterators |
| C17 iterators | explicit-stack iterator state machines | stack denotes remaining in-order listing |
| C18-C20 arena | chunks, blocks, free list | free list = vacant blocks invariant; stale handle counterexample |
| C21-C24 Stack | step system: one atomic memory action per step, any number of threads, reclamation steps | invariants on reachable states; history variable for linearization; counterexamples for len wrap and double drop |
| C25-C27 Radix | child/sibling tree of byte strings | lookup laws; counterexamples for remove-to-empty and longest prefix |
| C28-C31 BpMap | arrays with `Option` slots, page store, metadata, free list | tree-shaped abstraction of the page store; counterexample for overwriting in a full leaf; exactly the histories without such an overwrite behave as an ordered map (C28_exact: the harmful call loses an entry that `get` then misses) |
| C32 reopen | page store with persisted copy of metadata | in-memory metadata = persisted metadata invariant |
| C33 page size | byte counts of the bincode encoding | arithmetic; counterexamples |
| C34 crash | list of page writes of an operation, any prefix | counterexample; partial for single-write operations; exact conditions for `insert`, `remove` and `clear`, with and without the stored length |
| C35-C41 LSM | tables as sorted lists of (key, time, optional value), background compaction as an event that may finish at any point | invariant "newest version of each key is present"; counterexamples for tombstone purge, min/max, fresh open, crash order; for the tombstone purge also the exact set of removed keys that come back (`C35_exact`) |
| C42 SSTable | blocks, two-level index, file offsets | list lemmas |
| C43 merge | k-way merge by smallest (key, newest) head | induction on total length |
| C44 memory | usage counter | invariant (inequality after clear) |
| C45 levels | level = list of disjoint tables | invariant; termination: a measure for positive parameters, and for the others an invariant (no second level) that gives the exact condition; 64-bit limits: the levels that exist bound the limits by the number of keys, and a map with another compaction function has the same results if the compactions agree |
| C46 range | loop over sorted sizes | loop invariant |
| C47 splay root | same as C03 | splay loop |
| C48 ranges | two functions | order reasoning |
| C49 sets | every `set.rs`: one wrapper around a map implementation (the six files are the same code) | transfer of the map theorems to sets |
| C50 Stack orderings | `sync/stack.rs` on a view machine: histories of writes per atomic location, views per thread, release/acquire/relaxed accesses, messages between client threads | invariant relating each write of `head` to a stack; operations ordered by write and time; runs that go wrong when acquire or release is dropped |
| C51-C52 | drop of SkipMap and SkipList | every owned node is freed once |
| C53 splay cost | `SplayMap` with a comparison counter | potential function (sum of log2 of subtree sizes), top-down splay analysed step by step |
| C54 treap height | `TreapMap` and `TreapList` histories, all orders of the draws | the height depends only on the order of the live draws; sum of 2^height over all orders by the first element, then averages and tail |
| C55 Stack lock-free | the machines of C21-C24 and C50, counting accesses | potential: remaining accesses if the next compare-and-swap succeeds, plus 3 per write of `head` a thread has not seen, plus 3n while it may still hide one from the others; every access lowers it, only calls raise it |
| C56 skip map searches | `SkipMap` with a counter of key comparisons in every search loop, proved to change nothing else; all histories, all random words | on each level the search passes the nodes of exactly that height behind which nothing higher stands; their mean is at most 1, by exchanging the words with `i` leading zeros and those with more; above the starting level few nodes are left. Fails at multiples of 2^32 entries, where `len as u32` is 0 |
| C57 skip list searches | `SkipList` with a counter of the links its search loops read, proved to change nothing else; all histories without panics, all random words | as C56: the nodes passed on a level are the last ones of exactly that height, at most 1 on average; there are 33 levels. The mean grows like `n / 2^32` once the length exceeds `2^32`, because no node has more than 33 levels |
| C58 live LSM iterators | iterators as state machines that open the table files one by one and are read between any calls of the map; an open file can be read after its directory is deleted (POSIX) | size-tiered: all files are open from the start, so nothing can disturb the iterator; leveled: the lock count is the number of live iterators, so no directory is deleted; counterexamples for `clear` and for closing the map |
| C59 LSM interleavings | calls as programs whose steps are the single accesses to what the threads share; the thread as a machine that creates one directory per step; both fail on a missing directory | a predicate on programs that is stable under steps of the other thread, proved for every program from the invariant of C35-C37; answers, directories and progress follow from it in every state of every interleaving |
| C60 metadata files | bytes of `metadata.dat` and `logical_time.dat`, overwritten in place; tables stored as paths | codecs read their own prefix; composed with C42 |
| C61 moving | file system as a map from paths to table files, renaming | counterexample for every map with a table; exact |
| C62 torn small files | the first `j` bytes of a write | counterexamples; exact for adding a table; logical time never goes back (big-endian) |
| C63 radix iter_mut | references are ways from the root (`Radix/IterMut.lean`), the iterator keeps them as the code does; a round calls `next` and writes through the reference | what is still to be given out depends on the shape of the tree only, which writes keep; writing through the `i`-th reference is `get_mut` of the `i`-th key, so the result is a reachable map |
| C64 arena, caught panics | `Arena/Panic.lean`: a panicking call returns the state it leaves behind (`free` of a vacant block has already taken the free list) | invariant with a free list and a list of lost blocks; every call refines the abstract heap |
| C65 arena reuse after caught panics | as C64 | counterexample for every chunk size and every bound; exact damage: the blocks vacant at the panic are never used again; partial: without a `free` of a vacant block C19 holds |
| C66 radix space and comparisons | the calls again with a counter of byte comparisons, shown to return what the model returns | induction on the tree: siblings ascend, so at most 256; a node without value has two children |
| C67 no garbage on the disk | the compactions that end in each call, the tables each writes and does not keep, the builders that get no entry | step lemmas for the unused tables over the invariant of C36; the leak by induction on the number of rounds |
| C68 size of the B+ tree file, writes per call | the model of C28, whose record of file states has one element per write | half-full nodes bound the pages of the tree; insert only allocates and remove only frees, so the file grows only when all pages are in use; writes by recursion on the search path |
| C69 nesting of drop, clear and lookups | the calls the compiler generates to destroy a node, as a trace of nested calls and freed entries (Drop/Nesting.lean), and the calls of the recursive lookups | the nesting is the depth of the tree: C06, C08, C54 bound it; ascending inserts into a splay tree and removals from an AVL tree refute it; radix: first bytes of siblings ascend, each child takes a byte |
| C70 I/O errors in LSM calls | for every call all places at which an operation on the files can fail and the state it leaves behind (Lsm/Faults.lean); a failing compaction thread; which writes are kept is an inductive relation on histories (Spec/KvFault.lean) | the invariant of the LSM map holds after every failing call, for the state with the lost times and sizes corrected; refuted by losing memory, a lost table list, a leaked count, an underflow |
| C71 read errors in LSM scans | a run as the entries that can be read and whether the next read fails; the heap merge with an error per failing run, as in `next` (Lsm/ReadErr.lean) | simulation: until the first error the pops are those of the merge of C43; over the whole scan they are those of a merge of shortened runs |
| C72 table files cut short | the files of C42, replaced by arbitrary beginnings of themselves; the iterator over `data.dat` with its errors (Lsm/Cut.lean) | decoding is local (what is read does not depend on later bytes), so whatever can be read from a beginning is what is read from the whole; induction over the entries for scans; refuted by cuts between entries |
| C73 I/O errors in BpMap calls | for every call all places at which an operation on the file can fail and the state it leaves in memory and in the file (Bp/Faults.lean); a history is a list of calls that return or fail | the invariant of C28 for a file in which pages may be lost, the header may be stale and the length may be too small; histories are explained by an inductive relation (`Explains`) over an abstract map and the shortfall of the length; `C73_exact` says for which calls on which trees no failure does harm; reopening: the header in the file never falls behind in the root and the degrees (`Noted`, carried along with C68), and calls that change the length write all of it |
| C74 panicking comparisons | every function that compares keys once more with a number of comparisons that return, the next one panicking; what the function has changed by then stays (`*/Panic.lean`, Skip/MapPanic.lean) | a history is explained by a relation for calls that return and one for calls that panic (Spec/Panic.lean), by simulation; for the search trees an equation says what a call leaves for every position of the panic; `SkipMap` is compared with a second map that lacks the leaked nodes and half unlinked links |
| C75 lawless comparisons in SkipMap | the functions of Skip/MapModel with arbitrary answers (depending on level and key) in place of the comparisons (Skip/MapLawless.lean), with proofs that the answers of a linear order give back the functions of Skip/MapModel | the level lists are any lists that are sublists of each other from the top down; each loop keeps this because the answers do not change between levels; the specification (Spec/Lawless.lean) says what each call does to the list of entries; two runs show that the condition is needed |
| C76 panicking destructors | the freeing loops of `SkipMap` and `SkipList` with destructors of which any may panic (Skip/DropPanic.lean); a dropped element of an allocated node is like the unwritten one of a head node; a loop that runs out of its step bound is told apart from undefined behaviour; for the trees the compiler-generated destruction of Drop/Nesting.lean, which goes on while unwinding (Panic/Destructors.lean) | induction over the bottom chain: exactly the nodes before the panic are freed, the head still leads to the first of them; for the trees the state left is one of those C74 talks about |
| C77 layout of the nodes | the layout rules of `#[repr(C)]` for any list of fields, the size computation of `get_size_in_u64s`, the places of the links (Skip/Layout.lean) | arithmetic of rounding up; powers of two divide each other |
| C78 set operations with any answers | the loops of `union` and `map_difference` with a list of answers in place of the order, after which a comparison panics, a record of the entries dropped, and the unwinding of the three maps from where their head pointers are (Skip/MapSetOps.lean); `MergeOp.run` on lists of entries (Spec/SetOps.lean) says what comes out | the loop invariant of C15 needs no order; induction over the iterations against `MergeOp.run` |
| C79 search trees with any answers | the functions of the four trees with a function that answers the n-th comparison in place of the order ({Avl,RedBlack,Splay,Treap}/Lawless.lean, Bst/Lawless.lean); `TCall.Keeps` on the list of entries (Spec/LawlessTree.lean) | induction over the tree for one call, over the history for all; the shape invariant of red-black trees is carried along, which needs answers that fit the order |
| C80 treap set operations with any answers | `union`, `intersection`, `difference` and `split_off` with an answer for each place of the recursion and each comparison there (Treap/LawlessSets.lean); the specification is an interleaving of the two lists with paired entries (`Aligned`, Spec/Align.lean) | induction over the recursion depth, interleavings are concatenated; `Made` collects all maps of all histories |
| C81 panicking destructors in set operations | the loops of C78 with destructors of which any may panic, and the drops of the three maps while the panic unwinds, with the model of `Drop` of C76 (Skip/MapSetOpsDrop.lean); `MergeOp.runD` and `unwinding` on lists of entries (Spec/SetOpsDrop.lean) | the loop invariant of C15, with the node in hand whose destructor has panicked left over; then the three drops one after the other |
| C82 keys that compare equal | the models of C75, C79 and C80, in which the answers of the comparisons are an argument, with the answers of a comparison by rank (`*/Ranked.lean`, Treap/RankedSets.lean, Skip/MapRanked.lean, Skip/MapRankedSets.lean); a map with one entry per rank (Spec/Ranked.lean) | a map of ranks whose values are the pairs of key and value takes the same steps; its correctness is C01-C05, C11, C15 |
| C83 nesting of insert, remove, split and union | the recursive functions once more with a trace of calls begun and ended (Drop/Calls.lean); that they compute what the model computes is proved (`*_val`) | induction bounds the nesting by the depth (red-black removal: by the black height and the colour, since the moves lower it at each step); set operations of treaps (Drop/SetCalls.lean): merging goes down one level of its result per call and brings no node closer to the root, so the depth of the result bounds all merges on the way; C06, C08, C54 bound the depth; the decayed AVL tree of C07 gives the lower bound |
| C84 references lent by SkipMap | a program that borrows a map: its iterators are cells of the node heap, its references nodes (Skip/MapBorrow.lean); a specification in which a reference is a key (Spec/Borrow.lean) | simulation; a write keeps the bottom chain, so every iterator still sees the keys it would have seen |
| C85 tables a lookup asks | `get` with the list of the tables asked (Lsm/LeveledCost.lean, with C93 in Lsm/LookupBound.lean) | a level is created only if the one above it has more tables than its limit, and the tables of a level have different greatest keys (the invariant of C45 in 64 bits) |
| C86 pages read | for every call the list of the pages passed to `get_page`, computed along the modelled call (Bp/Reads.lean) | that the lists are complete: two files that agree on them undergo the same call (frame theorems, by following the call in both); their lengths: the height of C29, the free list is read once per allocation; a loop reads the left spine and the leaves, a sublist of the pages of the tree in preorder |
| C87 panic in the compaction thread | an event that removes the job, leaves arbitrary tables under unused names, and blocks `start` until the map is reopened (Lsm/Panic.lean); `is_compacting` left set is noted as one more lock; strategies with an arbitrary function for the level limits (Lsm/LeveledLimits.lean) | the invariant of C36 survives the event; a blocked map starts nothing, so its calls return without any assumption on compactions; each `insert` and `flush` adds a table |
| C88 panic of the user's code in a call | calls that stop at a place where a comparison or a hash is computed: in the in-memory tree, while a table is written, with the mutex held, while an iterator is read; a flag for the poisoned mutex and all calls on a map in that state; dropping the map without `flush` and opening it (Lsm/UserPanic.lean) | the invariant of C36 survives the harmless places; with the mutex poisoned the metadata does not change, so that opening gives what it gave at the first panic |
| C89 panic of the user's code in a `BpMap` call | for every call the states of the map at which keys are compared or cloned (Bp/UserPanic.lean); a history is a list of calls that return or are left by a panic | calls left before a write change nothing, so that C28 applies to the others; a search is followed in a file in which only leaves differ, which with C34 and C73 gives a key that is answered wrongly after every first write |
| C90 panics cannot corrupt a `SkipMap` | `SkipMap` under panicking comparisons (`stepP` of C74, without its restriction). `Skip/Web.lean` states what remains true of the links when an `insert` stops halfway: chains of their own below a node that is linked at upper levels only. | every call preserves it (`Skip/WebLevels.lean`, `WebOuter.lean`, `WebWrite.lean`, `WebRead.lean`, `WebSim.lean`). Specification in `Spec/Scattered.lean`: entries that iteration shows and entries that it does not show. |
| C91 set operations repair a `SkipMap` | union and differences (`mergeWith`, as in C15) on the maps of C90: all maps that panicking calls and earlier set operations reach (`Reached`). | the nodes that iteration shows form a sound map by themselves (`WebSets.lean`), the merge does not touch the other nodes (`WebFrame.lean`), and its result is whole (`WebClean.lean`). A state without lost entries is an ordered map (`ret_clean`). |
| C92 buckets of size-tiered compaction | `get_compaction_range` as in C46 with the test on the averages over rationals, with integers, quotient and products rounded by any function with a relative error of at most `ε` (`Rounds`, for f64 `ε = 2^-53`; overflow and underflow are excluded) (`Lsm/Buckets.lean`), and the store of C35 (`Lsm/TableCount.lean`, `Lsm/TableRounds.lean`). Specification: `Bucket`, from the documentation of `SizeTieredStrategy`. | invariant of the loop: the tables since `start` are one bucket. Each time the loop starts a new bucket the size has grown by the factor `r`. The full statement fails (`C92_violated`). |
| C93 merged tables are dropped | the store of C35, C36 with both strategies (`Lsm/Removals.lean`, `Lsm/RemovalsTiered.lean`, in terms of calls in `Lsm/IdleCalls.lean`). | after an insertion the newest entry survives the merge, so that its time exceeds that of every merged table. For removals the statement fails: an invariant of `remove`, `flush` in turn gives one table for each (`C93_violated`). |

## 3. Trusted base

* The kernel of Lean 4.33.0 and the definitions of the Mathlib modules imported.
* Axioms: every theorem listed in `MANIFEST.json` depends on a subset of
  `propext`, `Classical.choice`, `Quot.sound` (checked with `#print axioms` for
  every listed name).  No axioms of our own, no `sorry`, `native_decide` or
  `bv_decide`.  `decide +kernel` is used for concrete examples only.
* The reading of the Rust code by hand.  Nothing is generated from /repo; every
  model definition cites the file and the lines it was written from.

Simplifications common to all models:

* Keys form a linear order in which "compares equal" means "equal" (so it cannot
  be seen which of two equal keys is kept).  `Borrow` lookups use the key type.
  C82 removes this assumption for the five ordered maps and for the set
  operations of `TreapMap` and `SkipMap`; C75, C79 and C80 remove every
  assumption on comparisons for them.  It remains for `BpMap` and `LsmMap`.
* `usize`/`u64` arithmetic is on `Nat`, except where a property is about
  wrap-around or file sizes (Stack `len`, bincode lengths, SSTable offsets).
* Memory allocation and I/O calls succeed.  File contents are what was written.
* Random draws (treap priorities, skip list heights) are arguments of the calls
  and are quantified over.

## 4. What is modelled, what is not

| part of /repo | model | not modelled |
|---|---|---|
| `avl_tree/*`, `red_black_tree/*`, `splay_tree/*` | all of `node.rs`, `tree.rs`, `map.rs` | `Index` traits (they are `get(..).expect`) |
| `treap/*` | all of `node.rs`, `tree.rs`, `map.rs`, `implicit_tree.rs`, `list.rs`; the iterators | the random generator itself |
| `skiplist/*` | node heap with raw links; null, dangling and out-of-bounds accesses make the call fail | `rand_height` is an argument; the layout of a node in bytes is in Skip/Layout.lean and not connected to the node heap |
| `radix/*` | byte strings, child/sibling nodes, prefix operations, `iter_mut` with references as ways from the root | `into_iter` (same traversal as `iter`) |
| `arena.rs` | all | - |
| `sync/stack.rs` | one memory access per step, any number of threads | crossbeam-epoch is replaced by its contract: a closure deferred by a pinned thread does not run while a thread pinned at that time is still pinned.  C21-C24 use interleaving (sequentially consistent) semantics.  C50 uses the view-based machine for the release/acquire/relaxed fragment of the C11 model without load buffering (a load never sees a write that is made later), with the contract of the collector restated for views: a guard either delays a retirement or has seen the unlinking |
| `bp_tree/*` | nodes with `Option` slots, page store, free list, header, bytes of every page (bincode), I/O errors in any call (C73) | pages written in part, `mem::size_of` values are parameters with their alignment laws |
| `lsm_tree/*` | map, both compaction strategies with a background result that may arrive at any later call, SSTable files byte by byte, crash points between any two directory or metadata writes, iterators read step by step between other calls, calls and the compaction thread interleaved step by step (C59), I/O errors in any call and in the compaction thread (C70) | what a failing operation leaves in files that no metadata names; the Bloom filter is any filter without false negatives; `binary_search_by_key` is any function with the documented contract; torn writes of table files; overflow of `growth_factor.pow`; wall-clock duration |

Panics raised by user code are modelled for comparisons of keys in the five ordered maps (C74), for destructors (C76) and
for both inside the set operations of `SkipMap` (C78, C81).  Panics inside the set operations of `TreapMap` are not.

`clone`, `Debug`, `Default`, `Serialize` derives are not modelled.

## 5. What the proofs found

Where a property is false of the code, the file states the violation as a theorem
about a concrete run (`..._violated` or a descriptive name), and proves what
does hold (`..._partial`, often an exact characterisation).

* AVL: `remove` of an inner node goes through `remove_min`, which neither updates
  heights nor rebalances; balance is lost (C07), and the height can reach the square
  root of twice the number of keys, so searches are not logarithmic.
* Treap: inserting a present key keeps the larger of its old and new priority, so
  keys written often rise; the documented expected height holds per insert call, not
  per key (C54).  Every map starts its generator from the same constant seed
  (`XorShiftRng::new_unseeded`), so the order of the draws is one fixed order: C54
  says how few orders are bad, not that this one is good.
* Splay: `get` and `contains_key` do not splay and can cost `len` comparisons each
  time (C53).
* Arena: handles have no generation, a stale handle reaches the next object (C20).  A caught panic of
  `free` on a vacant block loses the whole free list (C65); no live object is harmed (C64).
* SkipMap: `intersection` writes out of bounds, or `remove` on its result reads out of
  bounds, unless all kept nodes have the full 33 links; `difference` dereferences null
  when a left key exceeds all right keys (C15).  Unfinished consuming iterators
  of all three skip list types drop the rest twice (C16).  SkipList `+` uses stale
  distances after a `remove` (C14).
* Stack: `len` can wrap below zero (C22), every popped value is dropped again by
  the deferred closure, values left in the stack leak (C23).
  On weak memory a `try_pop` called after a `push` returned may find nothing unless the
  client synchronises (C50); the release of `try_pop`'s compare-and-swap is not needed.
* Radix: once a `remove` leaves the map empty the next insert panics (C25); longest
  prefix queries miss keys and depend on the history (C27).
* B+ tree: overwriting a key in one of the last slots of a full leaf of degree >= 5 loses entries, small
  degrees panic (C28), page size is too small for some types (C33), structural
  operations are not crash safe (C34).
* LSM: size-tiered compaction purges tombstones while older versions live in other
  tables (C35); `min`/`max` ignore tombstones in memory (C38); a directory that was
  never written cannot be opened again (C40); table directories are deleted before
  the metadata that stops naming them is written, so a crash in between leaves a
  directory that does not open, though one that opens is never wrong (C41); `clear` does not reset the
  memory counter (C44); `max_initial_level_count = 0` makes leveled compaction loop
  for ever (C45); an iterator of a leveled map that is cleared or closed meanwhile
  fails in the middle and leaves out pairs (C58); a moved directory does not open (C61), nor does one whose list of
  tables was being written when the process stopped (C62); tables that a leveled compaction writes and merges again
  before it ends are never deleted, and unused builders of both strategies leave directories behind (C67).  Also seen
  while modelling, without being a property: the size of an SSTable omits the last
  index block; the size-tiered candidate range includes the first table that does
  not fit.
* C69: no tree container implements `Drop`, so destroying or clearing one nests a call per level of the tree.  For
  `SplayMap` these are as many as entries after inserting ascending keys (`C69_splay_violated`), and `get` nests as deep;
  for `AvlMap` the square root of the number of entries after removals (`C69_avl_violated`); for `RadixMap` as many as the
  longest key has bytes, up to 256 times that (`C69_radix_violated`, `C69_radix_partial`).  A large `SplayMap` built in
  ascending order overflows the stack when it is dropped.
* C70: an I/O error in an LSM call is not contained.  If the new table cannot be filled, everything that was in memory
  is gone (`C70_violated`); if the metadata cannot be written after it, a later `flush` returns `Ok` without writing it, and
  the data is gone when the directory is opened again (`C70_flush_violated`); if an old table cannot be deleted, the
  directory does not open any more (`C70_open_violated`); if the table cannot be created, the next write of a key in memory
  underflows (`C70_panic_violated`); if an iteration fails at its start, no compaction runs any more
  (`C70_leak_violated`).  Everything else is as it should be (`C70_exact_partial`): the process that goes on answers
  according to the acknowledged writes.
* C71: when a read fails in a scan, the entry popped last is dropped with the rest of its table.  `len` counts the error
  as an entry and returns `Ok` (`C71_len_violated`: any number from 1 on), `max` looks at the last item only
  (`C71_max_violated`), and an iterator goes on after the error with outdated values and removed keys
  (`C71_stale_violated`).  Up to the first error everything is right, and so is `min`.
* C72: `SSTableDataIter` takes any end of `data.dat` inside the 8 bytes of a size, in particular between two entries, for
  the end of the table; the entry count in the summary is not consulted.  A scan of such a table ends without an error, and
  a compaction then writes a table without the missing keys, after which `get` (which until then returned errors for
  them) says that they do not exist.
* C73: a failing call on a `BpMap` can damage the map that the process goes on with (`C73_violated`).  If the parent of a
  leaf that was split cannot be written, keys are not found although iterating lists them; a `remove` that borrows or
  merges makes other keys disappear; a plain `remove` writes the length before the leaf, so each failing attempt makes the
  length smaller by one, until removing the last keys underflows; a failing `clear` leaves a map that says that it is empty
  but lists its entries.  The calls without such failures are exactly (`C73_exact`): those that only look, an `insert`
  that overwrites or finds room in its leaf, a `remove` of a missing key, and a `clear` of an empty map whose tree is the
  first page.
* C74: no map has the property.  `AvlMap` and `RedBlackMap` take the tree out of the map before they compare keys in
  `remove`, so a panic there loses all entries while `len()` still counts them; their `insert` counts the new entry before
  it compares.  `SplayMap` loses the parts it has cut off when the third or a later comparison of `insert`, `remove` or
  `get_mut` panics.  `TreapMap::insert` loses the subtree at the place of the new node, `split_off` loses everything.
  `SkipMap::insert` links the new node at its upper levels before it compares keys at the lower ones; a panic in between
  leaves a node that hides later keys from `get`.  Everything else is harmless except that the length may be too large.
* C75: answers that change during one `insert` or `remove` make `SkipMap` free a node that is still linked on an upper
  level, after which safe code reads freed memory (`C75_violated`; `C75_violated_lt` shows that a change of `<` alone is
  enough).  Nothing else goes wrong: with any answers that are kept during the call, however absurd, all memory accesses
  are valid and no entry is lost (`C75_lawless_comparisons_partial`).
* C76: `SkipMap::clear` and `SkipList::clear` unlink the nodes only after all destructors have run.  If one panics, the
  map is linked to freed memory, and already the implicit drop at the end of the scope is undefined; this happens for
  every map and list and every element (`C76_skip_map_clear_exact`, `C76_skip_list_clear_exact`).  The clearing of the
  AVL, red-black, splay and radix maps leaves the old length behind.  Dropping, and clearing a treap, are fine.
* C77: nodes are allocated as `Vec<u64>`, so elements with an alignment above 8 (`u128`, SIMD types) are misaligned in
  half of all blocks or more (`C77_aligned_exact`).
* C78: while a set operation of `SkipMap` runs, the head pointers of its two arguments are at entry nodes.  If a comparison
  panics, unwinding takes these two nodes for heads: their entries are never dropped, and the two real heads are leaked
  (`C78_union_partial`, `C78_violated`).  Nothing worse happens.
* C79: `AvlMap` and `TreapMap` keep all entries and never panic, whatever the comparisons answer.  `SplayMap::remove` splays
  the left subtree a second time and then overwrites the right child of its root.  With answers that are not transitive
  that child is not empty: its entries are destroyed, and `len()` goes on counting them (`C79_splay_violated`).
  `RedBlackMap::remove` relies on the order to keep its balance: after a removal with such answers the tree is unbalanced,
  and a later removal panics in `assert!(node.left.is_none())` (`C79_red_black_violated`).
* C81: `union` and `difference` of `SkipMap` move the head pointer of the right map on before they free the node it was at.
  If the destructor of the last entry of the right map panics there, the head pointer is null and unwinding dereferences
  it: `{1, 3, 5} + {3}` has undefined behaviour if the destructor of the right entry 3 panics (`C81_violated`).  When it
  does not crash, unwinding leaks two entries, two head nodes and the node whose destructor panicked
  (`C81_union_partial`).  A difference with an empty left map is undefined or aborts whenever a destructor panics
  (`C81_difference_tail`).
* C82: unlike the maps of the standard library, which keep the old key when an equal one is inserted, all five ordered maps
  replace the key and hand the old pair out.
* C73: a failed `remove` of the only entry leaves the entry there with a reported length of 0; trying again subtracts 1 from
  that 0 (`C73_retry_violated`).
* C83: inserting into and removing from an `AvlMap` nests as deep as the square root of the number of entries after removals
  (`C83_avl_violated`), since taking the least entry of a subtree neither updates heights nor rebalances (C07).
* C84: `SkipMap::iter_mut` takes `&self`.  Safe code can hold a reference from `get`, or a mutable reference from another
  iterator, and change the value behind it through a second mutable reference (`C84_violated`,
  `C84_two_iterators_violated`); in Rust this is undefined behaviour.
* C73, reopening: a failure that the process survives can show only after the file has been closed and reopened.  If an
  `insert` takes a free page and the header cannot be written, the header in the file still calls the page free
  although a leaf is in it.  The next `insert` that splits panics after reopening, while the process that saw the error
  goes on without harm (`C73_reopen_violated`).  The contents survive (`C73_reopen_partial`), the length may not.  Any call
  that changes the number of entries repairs the header (`C73_reopen_synced_partial`).
* The limit of a level is computed in 64 bits without regard to overflow (leveled.rs:357-362).  With
  `max_initial_level_count` 2 and `growth_factor` 2^63 every limit below the first level wraps around to 0, and a
  compaction of more than two tables never ends; with overflow checks its thread panics (C45).  Limits that wrap around to
  positive numbers do no harm (`C45_wrap_partial`).
* C87: a panic in the compaction thread leaves `is_compacting` set (leveled.rs:451-457, size_tiered.rs:339-345 reset it
  only after an error), so no compaction starts until the map is reopened, not even after `clear`, and the number of
  tables grows without bound (`C87_violated`).  The data is not affected (`C87_leveled`, `C87_sizeTiered_partial`) and
  every call returns (`C87_stuck`).
* C88: lookups and the creation of iterators run the user's comparisons and hash function while `curr_metadata` is locked
  (leveled.rs:530-558, 643-666, size_tiered.rs:457-469, 539-552).  A panic poisons the mutex, and from then on every call
  that looks at the tables panics; `flush` panics after it has taken the entries out of memory, so that everything
  written since the last table is lost, also after a restart (`C88_violated`, `C88_poisoned`).  A panic of the hash
  function while the in-memory tree is written as a table (map.rs:96-98) loses all entries in it, and nothing reports
  this later (`C88_table`).  A panic in `in_memory_tree.insert` (map.rs:143, 191) leaves `in_memory_usage` changed, so
  that a later call can underflow.  Tables are not affected (`C88_flushed`).

* C89: an `insert` that splits a leaf compares the keys of the parent only after both halves have been written
  (map.rs:213-241), and a `remove` that merges leaves clones and compares keys of the inner nodes after the leaves have
  been written (376-447).  If that panics, entries are not found any more or a later `get` panics (`C89_violated`,
  `C89_exact`, `C89_calls`).  All other panics do no harm (`C89_partial`).
* C90: an `insert` of a `SkipMap` that panics halfway leaves a node that `get` finds but iteration does not show. Such a node traps later entries: an entry inserted behind it is found by `get` only, an entry shown by iteration may not be found by `get`, and a `remove` of the node returns nothing but cuts off what is behind it. All this is without undefined behaviour: `C90_calls`, `C90_drop`, `C90_entries`, and keys below the node are not affected (`C90_small_keys`). What is cut off is never freed.
* C91: `union` rebuilds all levels and the length from the bottom list. So `map + SkipMap::new()` turns a map in which a panic has hidden entries back into a sound one (`C91_recover`). The hidden nodes are leaked. The differences still dereference null when a key shown in the left map exceeds all those shown in the right one (`C91_difference_crash`), as in C15.
* C92: a full bucket is detected only at the first table that does not belong to it, and that table is merged too: four
  tables of 60 kB and one of a terabyte are rewritten together although the bucket of four is not full
  (`max_sstable_count` 4). If the bucket is not yet full, the table that does not fit is skipped with it: five equal
  tables next to a smaller one are left alone.  While an iterator is alive no compaction is started at all, so that an
  iterator that is kept lets the number of tables grow without bound, with either strategy (`C92_held`).
* C93: taking over a compaction drops the old tables that are not newer than the newest entry in the result. If the merged
  tables end with removals and these are purged, that entry is older than they are, and the merged tables stay: a map in
  which only removals happen keeps one table for each write to the disk, merges all of them again and again, and (leveled) asks all
  of them in every lookup (`C93_violated`, both strategies). The first insertion that reaches a table ends this
  (`C93_leveled_partial`, `C93_sizeTiered_partial`).

## 6. Testing the theorems

`seeded/LOG.jsonl` records edits of the model in a scratch copy (wrong bounds,
dropped updates, swapped arguments...), with the theorems that stopped compiling
and the theorems that were tightened where an edit was not noticed.
`failed` lists the declarations at which the build stopped, often lemmas on which
the theorem of the claim depends. Theorems in `not_built_because_of_them` were not
reached, so an entry is no evidence by itself that each of them notices the edit.
