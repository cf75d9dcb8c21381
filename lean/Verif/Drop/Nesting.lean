/- Property C69: how deep the calls nest when a tree container is destroyed or cleared, and in a recursive lookup.

The nodes of the tree containers own their subtrees (`Option<Box<Node>>`) and none of these types implements `Drop`, so a
container is destroyed by the code the compiler generates: destroying a node destroys its fields in the order of their
declaration, each subtree by a nested call.  Every level of nesting takes a frame of the thread's stack, whose size is
fixed.  Simplifications: the nested calls for the `Option`, the `Box` and the node itself are counted as one; destroying
keys and values counts as one event; an optimising compiler may turn some of the calls into jumps. -/
import Verif.RedBlack.Props
import Verif.Avl.Decay
import Verif.Avl.Props
import Verif.Splay.Cost
import Verif.Treap.Height
import Verif.Radix.Cost
import Mathlib.Tactic.Ring

namespace Verif.Drop

open Verif.Bst Verif.Spec

/-! ### Specification vocabulary -/

/-- What happens while a call runs: a nested call begins, a value is freed, a nested call returns. -/
inductive Event (α : Type) where
  | enter
  | free (a : α)
  | leave

/-- The largest number of calls running at the same time, if `d` are running at the start. -/
def deepest {α : Type} : Nat → List (Event α) → Nat
  | d, [] => d
  | d, .enter :: es => deepest (d + 1) es
  | d, .free _ :: es => deepest d es
  | d, .leave :: es => max d (deepest (d - 1) es)

/-- The largest number of calls running at the same time. -/
def nesting {α : Type} (es : List (Event α)) : Nat := deepest 0 es

/-- The values freed, in order. -/
def freed {α : Type} : List (Event α) → List α
  | [] => []
  | .free a :: es => a :: freed es
  | _ :: es => freed es

theorem le_deepest {α : Type} (es : List (Event α)) (d : Nat) : d ≤ deepest d es := by
  induction es generalizing d with
  | nil => exact le_refl d
  | cons e es ih =>
    cases e with
    | enter => have := ih (d + 1); simp only [deepest]; omega
    | free a => exact ih d
    | leave => simp only [deepest]; omega

theorem freed_append {α : Type} (a b : List (Event α)) : freed (a ++ b) = freed a ++ freed b := by
  induction a with
  | nil => rfl
  | cons e a ih => cases e <;> simp [freed, ih]

/-! ### Search trees -/

section bst

variable {A K V : Type}

/-- Destroying a tree: avl_tree/node.rs:7-12, red_black_tree/node.rs:22-27, splay_tree/node.rs:5-9, treap/node.rs:5-11,
whose fields are in this order the entry, numbers, the left and the right subtree.  `clear` (avl_tree/map.rs:216,
red_black_tree/map.rs:232, splay_tree/map.rs:219, treap/map.rs:221) destroys the old tree too. -/
def dropTree : Tree A K V → List (Event (K × V))
  | .nil => []
  | .node _ l k v r => .enter :: .free (k, v) :: (dropTree l ++ (dropTree r ++ [.leave]))

/-- The calls of `get` (and `ceil` and `floor`, which go down the same way): avl_tree/tree.rs:123-134, 149-179,
red_black_tree/tree.rs:174-185, 200-230, splay_tree/tree.rs:134-145, 161-191, treap/tree.rs:128-139, 154-184. -/
def lookupCalls [LinearOrder K] : Tree A K V → K → List (Event Unit)
  | .nil, _ => [.enter, .leave]
  | .node _ l x _ r, k =>
    .enter :: ((if k < x then lookupCalls l k else if x < k then lookupCalls r k else []) ++ [.leave])

theorem deepest_dropTree (t : Tree A K V) (d : Nat) (es : List (Event (K × V))) :
    deepest d (dropTree t ++ es) = max (d + depth t) (deepest d es) := by
  induction t generalizing d es with
  | nil => have := le_deepest es d; simp only [dropTree, depth, List.nil_append]; omega
  | node a l k v r ihl ihr =>
    have := le_deepest es d
    simp only [dropTree, List.cons_append, List.append_assoc, deepest, ihl, ihr, depth, List.nil_append,
      Nat.add_sub_cancel]
    omega

theorem nesting_dropTree (t : Tree A K V) : nesting (dropTree t) = depth t := by
  have := deepest_dropTree t 0 []
  rw [List.append_nil] at this
  rw [nesting, this]; simp [deepest]

theorem freed_dropTree (t : Tree A K V) : (freed (dropTree t)).Perm (Iter.start t).collect := by
  rw [Iter.collect_start]
  induction t with
  | nil => exact List.Perm.refl _
  | node a l k v r ihl ihr =>
    simp only [dropTree, freed, freed_append, List.append_nil, Tree.toList]
    exact (List.Perm.cons _ (ihl.append ihr)).trans List.perm_middle.symm

theorem deepest_lookupCalls [LinearOrder K] (t : Tree A K V) (k : K) (d : Nat) (es : List (Event Unit)) :
    ∃ n, deepest d (lookupCalls t k ++ es) = max (d + n) (deepest d es) ∧ searchCost t k ≤ n ∧ n ≤ searchCost t k + 1 := by
  induction t generalizing d es with
  | nil =>
    have := le_deepest es d
    refine ⟨1, ?_, by simp [searchCost], by simp [searchCost]⟩
    simp only [lookupCalls, List.cons_append, List.nil_append, deepest, Nat.add_sub_cancel]
  | node a l x v r ihl ihr =>
    have := le_deepest es d
    simp only [lookupCalls, searchCost, List.cons_append, List.append_assoc, deepest, List.nil_append]
    split
    · obtain ⟨n, h1, h2, h3⟩ := ihl (d + 1) (.leave :: es)
      refine ⟨n + 1, ?_, by omega, by omega⟩
      rw [h1]; simp only [deepest, Nat.add_sub_cancel]; omega
    · split
      · obtain ⟨n, h1, h2, h3⟩ := ihr (d + 1) (.leave :: es)
        refine ⟨n + 1, ?_, by omega, by omega⟩
        rw [h1]; simp only [deepest, Nat.add_sub_cancel]; omega
      · refine ⟨1, ?_, by omega, by omega⟩
        simp only [List.nil_append, deepest, Nat.add_sub_cancel]

theorem nesting_lookupCalls [LinearOrder K] (t : Tree A K V) (k : K) :
    searchCost t k ≤ nesting (lookupCalls t k) ∧ nesting (lookupCalls t k) ≤ searchCost t k + 1 := by
  obtain ⟨n, h1, h2, h3⟩ := deepest_lookupCalls t k 0 []
  rw [List.append_nil] at h1
  rw [nesting, h1]
  simp only [deepest]; omega

theorem nesting_lookupCalls_le [LinearOrder K] (t : Tree A K V) (k : K) : nesting (lookupCalls t k) ≤ depth t + 1 := by
  have := nesting_lookupCalls t k
  have := searchCost_le_depth t k
  omega

end bst

/-- **C69, red-black.**  After every history, destroying (or clearing) a `RedBlackMap` of `n` entries frees each entry once
in calls nested at most `2 log2 (n + 1)` deep, and a lookup nests at most one deeper. -/
theorem C69_red_black_partial {K V : Type} [LinearOrder K] (ops : List (MapOp K V × Unit)) :
    ∃ s h, (RedBlack.impl K V).run RedBlack.RedBlackMap.new ops = some (s, h) ∧
      (freed (dropTree s.tree)).Perm (Iter.start s.tree).collect ∧
      2 ^ nesting (dropTree s.tree) ≤ (s.len + 1) ^ 2 ∧
      ∀ k, 2 ^ nesting (lookupCalls s.tree k) ≤ 2 * (s.len + 1) ^ 2 := by
  obtain ⟨s, h, h1, -, -, -, h2, -⟩ := RedBlack.C08_rb_height ops
  refine ⟨s, h, h1, freed_dropTree _, by rwa [nesting_dropTree], fun k => ?_⟩
  calc 2 ^ nesting (lookupCalls s.tree k) ≤ 2 ^ (depth s.tree + 1) :=
        Nat.pow_le_pow_right (by omega) (nesting_lookupCalls_le _ _)
    _ = 2 * 2 ^ depth s.tree := by rw [Nat.pow_succ]; ring
    _ ≤ 2 * (s.len + 1) ^ 2 := Nat.mul_le_mul_left _ h2

/-- **C69, AVL without removals.**  After every history without `remove`, destroying an `AvlMap` of `n` entries frees each
entry once in calls nested at most `d` deep where `fib (d + 2) ≤ n + 1`; a lookup nests at most one deeper. -/
theorem C69_avl_partial {K V : Type} [LinearOrder K] (ops : List (MapOp K V × Unit))
    (hops : ∀ p ∈ ops, ∀ k, p.1 ≠ .remove k) :
    ∃ s h, (Avl.impl K V).run Avl.AvlMap.new ops = some (s, h) ∧
      (freed (dropTree s.tree)).Perm (Iter.start s.tree).collect ∧
      fib (nesting (dropTree s.tree) + 2) ≤ s.len + 1 ∧
      ∀ k, fib (nesting (lookupCalls s.tree k) + 1) ≤ s.len + 1 := by
  obtain ⟨s, h, h1, h2, -, -⟩ := Avl.C06_avl_insert_balance ops hops
  obtain ⟨s', h', l, g1, -, -, -, g2⟩ := (Avl.sim K V).run ops Avl.AvlMap.new [] (by simp [SL.Sorted]) (Avl.sim K V).empty
  obtain ⟨rfl, rfl⟩ : s = s' ∧ h = h' := by have := h1.symm.trans g1; simpa using this
  have hd : fib (depth s.tree + 2) ≤ s.len + 1 := by
    have hd := Avl.fib_depth_le h2
    have e1 : s.len = l.length := g2.2
    have e2 : s.tree.toList = l := g2.1
    rw [Tree.size_eq_length, e2] at hd
    rwa [e1]
  refine ⟨s, h, h1, freed_dropTree _, by rwa [nesting_dropTree], fun k => le_trans (Avl.fib_mono ?_) hd⟩
  have := nesting_lookupCalls_le s.tree k
  omega

/-- **C69 fails for `AvlMap` with removals**: for every `d` there is a history that leaves `d (d + 1) / 2` entries and makes
destroying the map and a lookup nest at least `d` calls, which no multiple of the logarithm bounds. -/
theorem C69_avl_violated (d : Nat) : ∃ (is rs : List Nat) (s : Avl.AvlMap Nat Nat) (h : _),
    (Avl.impl Nat Nat).run Avl.AvlMap.new ((is.map (fun k => MapOp.insert k 0) ++ rs.map fun k => MapOp.remove k).map fun op => (op, ()))
      = some (s, h) ∧ 2 * s.len = d * (d + 1) ∧ d ≤ nesting (dropTree s.tree) ∧ d ≤ nesting (lookupCalls s.tree 0) := by
  obtain ⟨is, rs, s, ⟨h, h1⟩, h2, -, h3⟩ := Avl.C07_avl_decay d
  refine ⟨is, rs, s, h, h1, h2, ?_, ?_⟩
  · rw [nesting_dropTree, ← h3]; exact searchCost_le_depth _ _
  · rw [← h3]; exact (nesting_lookupCalls _ _).1

/-- **C69, treap.**  Over all orders in which the distinct priorities can be drawn, the share of those where destroying
the `TreapMap` nests `t` calls or more above three times the binary logarithm is at most `1 / 2 ^ t`; whatever is drawn,
each entry is freed once. -/
theorem C69_treap_partial {K V : Type} [LinearOrder K] (ops : List (MapOp K V)) (ps : List Nat) (hp : ps.Nodup)
    (hl : ps.length = (Treap.inserted ops).length) (t : Nat) : ∃ nest : List Nat → Nat,
    (∀ qs, ∃ s h, (Treap.impl K V).run Treap.TreapMap.new (Treap.withDraws qs ops) = some (s, h) ∧
      nest qs = nesting (dropTree s.tree) ∧ (freed (dropTree s.tree)).Perm (Iter.start s.tree).collect) ∧
    (ps.permutations.countP fun qs => decide (3 * Nat.clog 2 (Treap.liveInserts ops + 2) + t ≤ nest qs)) * 2 ^ t ≤
      ps.permutations.length := by
  refine ⟨Treap.heightAfter ops, fun qs => ?_, Treap.C54_treap_height_tail ops ps hp hl t⟩
  obtain ⟨s, h, h1, -, h2⟩ := Treap.C54_total ops qs
  exact ⟨s, h, h1, by rw [nesting_dropTree, h2], freed_dropTree _⟩

/-- **C69, splay.**  Destroying a `SplayMap` of `n` entries frees each once, in calls nested at most `n` deep. -/
theorem C69_splay_partial {K V : Type} [LinearOrder K] (ops : List (MapOp K V × Unit)) :
    ∃ s h, (Splay.impl K V).run Splay.SplayMap.new ops = some (s, h) ∧
      (freed (dropTree s.tree)).Perm (Iter.start s.tree).collect ∧ nesting (dropTree s.tree) ≤ s.len := by
  obtain ⟨s, h, l, h1, -, -, -, h2⟩ :=
    (Splay.sim K V).run ops Splay.SplayMap.new [] (by simp [SL.Sorted]) (Splay.sim K V).empty
  refine ⟨s, h, h1, freed_dropTree _, ?_⟩
  have : ∀ t : Splay.STree K V, depth t ≤ t.size := by
    intro t
    induction t with
    | nil => exact le_refl _
    | node a l k v r ihl ihr => simp only [depth, Tree.size]; omega
  rw [nesting_dropTree]
  have := this s.tree
  rw [Tree.size_eq_length] at this
  have h3 := h2.1
  have h4 := h2.2
  simp_all

/-- **C69 fails for `SplayMap`**: after inserting `0, ..., n - 1` in this order, destroying or clearing the map nests
exactly `n` calls, and so does `get(&0)`.  With enough entries the thread's stack overflows, which aborts the process. -/
theorem C69_splay_violated (n : Nat) : ∃ s h,
    (Splay.impl Nat Unit).run Splay.SplayMap.new ((List.range n).map fun i => (.insert i (), ())) = some (s, h) ∧
      s.len = n ∧ nesting (dropTree s.tree) = n ∧ n ≤ nesting (lookupCalls s.tree 0) := by
  obtain ⟨h, h1⟩ := Splay.run_spine n
  obtain ⟨s, h', g1, g2, -⟩ := Splay.C53_get_linear n
  obtain ⟨rfl, rfl⟩ : (⟨Splay.spine n, n⟩ : Splay.SplayMap Nat Unit) = s ∧ h = h' := by have := Prod.mk.inj (Option.some.inj (h1.symm.trans g1)); exact this
  have h2 : ∀ n, depth (Splay.spine n) = n := by
    intro n
    induction n with
    | zero => rfl
    | succ n ih => simp only [Splay.spine, Splay.nd, depth, ih]; omega
  refine ⟨_, h, h1, rfl, by rw [nesting_dropTree]; exact h2 n, ?_⟩
  have := (nesting_lookupCalls (Splay.spine n) 0).1
  rwa [show searchCost (Splay.spine n) 0 = n from g2] at this

/-! ### Radix trees -/

namespace Radix

open Verif.Radix

variable {V : Type}

/-- Destroying a radix tree: radix/node.rs:4-9, whose fields are in this order the key, the value, the next sibling and the
first child.  `clear` (radix/map.rs:205) destroys the old tree too. -/
def dropTree : Radix.Tree V → List (Event V)
  | .nil => []
  | .node _ v next child =>
    .enter :: ((v.toList.map .free) ++ (dropTree next ++ (dropTree child ++ [.leave])))

/-- The calls of `get` (and `get_mut`) below the root, on the tree that `Node::get(byte)` finds by a loop:
radix/tree.rs:85-106 (108-129), radix/node.rs:25-33 (35-51). -/
def lookupIn (key : Key) : Radix.Tree V → List (Event Unit)
  | .nil => [.enter, .leave]
  | .node k _ next child =>
    if k.head? ≠ key.head? then lookupIn key next
    else .enter :: ((match cmpKey k key with
      | .less => lookupIn (key.drop k.length) child
      | _ => []) ++ [.leave])

/-- The calls of `get` (and `get_mut`) at the root: radix/tree.rs:85-106 (108-129). -/
def lookupCalls (key : Key) : Radix.Tree V → List (Event Unit)
  | .nil => [.enter, .leave]
  | .node k _ _ child => .enter :: ((match cmpKey k key with
      | .less => lookupIn (key.drop k.length) child
      | _ => []) ++ [.leave])

/-- Number of nodes on the longest chain of nodes each of which is the next sibling or first child of the one before. -/
def chain : Radix.Tree V → Nat
  | .nil => 0
  | .node _ _ next child => max (chain next) (chain child) + 1

theorem deepest_values (v : Option V) (d : Nat) (es : List (Event V)) :
    deepest d (v.toList.map .free ++ es) = deepest d es := by
  cases v <;> simp [deepest]

theorem deepest_dropTree (t : Radix.Tree V) (d : Nat) (es : List (Event V)) :
    deepest d (dropTree t ++ es) = max (d + chain t) (deepest d es) := by
  induction t generalizing d es with
  | nil => have := le_deepest es d; simp only [dropTree, chain, List.nil_append]; omega
  | node k v next child ih1 ih2 =>
    have := le_deepest es d
    simp only [dropTree, List.cons_append, List.append_assoc, deepest, deepest_values, ih1, ih2, chain, List.nil_append,
      Nat.add_sub_cancel]
    omega

theorem nesting_dropTree (t : Radix.Tree V) : nesting (dropTree t) = chain t := by
  have := deepest_dropTree t 0 []
  rw [List.append_nil] at this
  rw [nesting, this]; simp [deepest]

theorem freed_dropTree (t : Radix.Tree V) (p : Key) : (freed (dropTree t)).Perm ((entries p t).map (·.2)) := by
  induction t generalizing p with
  | nil => exact List.Perm.refl _
  | node k v next child ih1 ih2 =>
    have e : freed (v.toList.map .free) = v.toList := by cases v <;> rfl
    simp only [dropTree, freed, freed_append, List.append_nil, entries, List.map_append, List.map_map, e,
      List.append_assoc]
    have e2 : v.toList.map ((fun x : Key × V => x.2) ∘ fun v => (p ++ k, v)) = v.toList := by
      cases v <;> rfl
    rw [e2]
    exact List.Perm.append_left _ ((List.perm_append_comm).trans ((ih2 (p ++ k)).append (ih1 p)))

/-- In a sibling list each step to a sibling raises the first byte and each step to a child takes a byte of a key. -/
theorem chain_le {t : Radix.Tree V} (h : Wf t) (p : Key) {n : Nat} (hn : ∀ e ∈ entries p t, e.1.length ≤ p.length + n) :
    chain t ≤ room t + 256 * (n - 1) := by
  induction t generalizing p n with
  | nil => simp [chain]
  | node k v next child ih1 ih2 =>
    cases k with
    | nil => exact absurd h id
    | cons b k =>
      have hr := room_next (k := k) (v := v) (child := child) h.1
      have h1 := ih1 h.2.2.1 p (n := n) (fun e he => hn e (by simp [entries, he]))
      have hn1 : 1 ≤ n ∧ (child = .nil ∨ 2 ≤ n) := by
        constructor
        · obtain ⟨e, he⟩ := List.exists_mem_of_ne_nil _ (entries_ne_nil h rfl p)
          obtain ⟨c, r, hr⟩ := entries_prefix h p e he
          have := hn e he
          rw [hr] at this
          simp only [List.length_append, List.length_cons] at this; omega
        · cases child with
          | nil => exact .inl rfl
          | node k' v' next' child' =>
            right
            obtain ⟨e, he⟩ := List.exists_mem_of_ne_nil _ (entries_ne_nil h.2.2.2 rfl (p ++ b :: k))
            obtain ⟨c, r, hr⟩ := entries_prefix h.2.2.2 (p ++ b :: k) e he
            have := hn e (by rw [entries]; simp only [List.mem_append]; exact .inl (.inr he))
            rw [hr] at this
            simp only [List.length_append, List.length_cons] at this; omega
      have h2 := ih2 h.2.2.2 (p ++ b :: k) (n := n - 1) (fun e he => by
        have := hn e (by simp [entries, he])
        simp only [List.length_append, List.length_cons]; omega)
      have h3 := room_le child
      have h4 : 1 ≤ room (Radix.Tree.node (b :: k) v next child) := by
        have := b.isLt
        simp only [room]; omega
      simp only [chain]
      rcases hn1 with ⟨hn1, rfl | hn2⟩
      · simp only [chain]; omega
      · omega

theorem deepest_lookupIn (t : Radix.Tree V) {key : Key} (hk : key ≠ []) (d : Nat) (es : List (Event Unit)) :
    ∃ m, m ≤ key.length ∧ deepest d (lookupIn key t ++ es) = max (d + m) (deepest d es) := by
  have hpos : 1 ≤ key.length := List.length_pos_of_ne_nil hk
  induction t generalizing key d es with
  | nil =>
    have := le_deepest es d
    exact ⟨1, hpos, by simp only [lookupIn, List.cons_append, List.nil_append, deepest, Nat.add_sub_cancel]⟩
  | node k v next child ih1 ih2 =>
    have := le_deepest es d
    rw [lookupIn]
    split
    · exact ih1 hk d es hpos
    · rename_i hh
      have hk' : 1 ≤ k.length := by
        cases k with
        | nil =>
          cases key with
          | nil => exact absurd rfl hk
          | cons => simp at hh
        | cons => simp
      simp only [List.cons_append, List.append_assoc, deepest, List.nil_append]
      split
      · rename_i hc
        have hl : k.length < key.length := by
          unfold cmpKey at hc
          split at hc
          · cases hc
          · split at hc
            · assumption
            · split at hc <;> cases hc
        have hd : (key.drop k.length).length = key.length - k.length := List.length_drop
        obtain ⟨m, h1, h2⟩ := ih2 (key := key.drop k.length) (fun e => by rw [e] at hd; simp at hd; omega) (d + 1)
          (.leave :: es) (by omega)
        refine ⟨m + 1, by omega, ?_⟩
        rw [h2]; simp only [deepest, Nat.add_sub_cancel]; omega
      · exact ⟨1, hpos, by simp only [List.nil_append, deepest, Nat.add_sub_cancel]⟩

theorem nesting_lookupCalls (t : Radix.Tree V) (key : Key) : nesting (lookupCalls key t) ≤ key.length + 1 := by
  cases t with
  | nil => simp [lookupCalls, nesting, deepest]
  | node k v next child =>
    simp only [lookupCalls, nesting, deepest]
    split
    · rename_i hc
      have hl : k.length < key.length := by
        unfold cmpKey at hc
        split at hc
        · cases hc
        · split at hc
          · assumption
          · split at hc <;> cases hc
      have hd : (key.drop k.length).length = key.length - k.length := List.length_drop
      obtain ⟨m, h1, h2⟩ := deepest_lookupIn child (key := key.drop k.length) (fun e => by rw [e] at hd; simp at hd; omega) 1
        [.leave]
      rw [Nat.zero_add, h2]
      simp only [deepest]; omega
    · simp [deepest]

end Radix

/-- **C69, radix.**  In every reachable `RadixMap` whose keys have at most `n` bytes, destroying or clearing the map frees
each value once in calls nested at most `256 n + 1` deep, however many entries there are; a lookup nests at most one call
more than its key has bytes. -/
theorem C69_radix_partial {V : Type} {s : Radix.RadixMap V} (h : Radix.Reached s) : ∃ l, s.iter = some l ∧
    (freed (Radix.dropTree s.root)).Perm (l.map (·.2)) ∧
    (∀ n, (∀ e ∈ l, e.1.length ≤ n) → nesting (Radix.dropTree s.root) ≤ 256 * n + 1) ∧
    ∀ key, nesting (Radix.lookupCalls key s.root) ≤ key.length + 1 := by
  obtain ⟨hr, -⟩ := Radix.reached_inv h
  refine ⟨_, Radix.iter_eq h, Radix.freed_dropTree _ _, fun n hn => ?_, fun key => Radix.nesting_lookupCalls _ key⟩
  rw [Radix.nesting_dropTree]
  cases hs : s.root with
  | nil => simp [Radix.chain]
  | node k v next child =>
    rw [hs] at hr hn
    obtain ⟨rfl, hc, -⟩ := hr
    simp only [Radix.chain, Nat.zero_le, max_eq_right]
    cases child with
    | nil => simp [Radix.chain]
    | node k' v' next' child' =>
      obtain ⟨e, he⟩ := List.exists_mem_of_ne_nil _ (Radix.entries_ne_nil hc rfl k)
      have hm : ∀ e ∈ Radix.entries k (.node k' v' next' child'), e.1.length ≤ n := fun e he =>
        hn e (by rw [Radix.entries]; simp only [List.mem_append]; exact .inl (.inr he))
      obtain ⟨c, r, hr⟩ := Radix.entries_prefix hc k e he
      have h1 := hm e he
      rw [hr] at h1
      simp only [List.length_append, List.length_cons] at h1
      have h2 := Radix.chain_le hc k (n := n - k.length) (fun e he => by have := hm e he; omega)
      have h3 := Radix.room_le (Radix.Tree.node k' v' next' child')
      omega

/-- The map with the keys `0`, `00`, ..., of `1` to `n` zero bytes, below the root. -/
def zeros : Nat → Radix.Tree Unit
  | 0 => .nil
  | n + 1 => .node [0] (some ()) .nil (zeros n)

theorem insertIn_zeros (n : Nat) : Verif.Radix.insertIn (List.replicate (n + 2) 0) () (zeros (n + 1)) = some (zeros (n + 2), none) := by
  induction n with
  | zero => rfl
  | succ n ih =>
    have hc : Verif.Radix.cmpKey [0] (List.replicate (n + 3) 0) = .less := by
      simp [Verif.Radix.cmpKey, List.replicate_succ, Verif.Radix.mismatch]
    rw [zeros]
    simp only [List.replicate_succ (n := n + 2), Verif.Radix.insertIn, ne_eq, not_true_eq_false, if_false, Verif.Radix.insertNode]
    rw [← List.replicate_succ, hc]
    simp only [List.replicate_succ (n := n + 2), List.length_singleton, List.drop_one, List.tail_cons]
    rw [show List.replicate (n + 2) (0 : Verif.Radix.Byte) = 0 :: List.replicate (n + 1) 0 from List.replicate_succ] at *
    dsimp only
    rw [show Verif.Radix.getChild 0 (zeros (n + 1)) = some (zeros (n + 1)) from by simp [zeros, Verif.Radix.getChild]]
    simp only [zeros] at ih ⊢
    rw [ih]
    rfl

theorem run_zeros (n : Nat) : ∃ h, Verif.Radix.runNew ((List.range n).map fun i => MapOp.insert (List.replicate (i + 1) 0) ())
    = some ((⟨.node [] none .nil (zeros n), n⟩ : Verif.Radix.RadixMap Unit), h) := by
  induction n with
  | zero => exact ⟨[], rfl⟩
  | succ n ih =>
    obtain ⟨h, e⟩ := ih
    have hs : Verif.Radix.step (⟨.node [] none .nil (zeros n), n⟩ : Verif.Radix.RadixMap Unit) (.insert (List.replicate (n + 1) 0) ())
        = some (⟨.node [] none .nil (zeros (n + 1)), n + 1⟩, .pair none) := by
      cases n with
      | zero => rfl
      | succ n =>
        have hi : Verif.Radix.insert (List.replicate (n + 2) 0) () (.node [] none .nil (zeros (n + 1))) =
            some (.node [] none .nil (zeros (n + 2)), none) := by
          have hc : Verif.Radix.cmpKey [] (List.replicate (n + 2) 0) = .less := by
            simp [Verif.Radix.cmpKey, Verif.Radix.mismatch]
          simp only [Verif.Radix.insert, Verif.Radix.insertNode, hc, List.length_nil, List.drop_zero, insertIn_zeros n]
          rw [List.replicate_succ]
          rfl
        simp only [Verif.Radix.step, Verif.Radix.RadixMap.insert, hi]
        rfl
    rw [List.range_succ, List.map_append, Verif.Radix.runNew, List.map_append]
    exact Splay.run_snoc (Verif.Radix.radix Unit) _ _ () _ _ e hs

theorem deepest_zeros (n d : Nat) (es : List (Event Unit)) :
    deepest d (Radix.lookupIn (List.replicate (n + 1) 0) (zeros (n + 1)) ++ es) = max (d + (n + 1)) (deepest d es) := by
  have := le_deepest es d
  induction n generalizing d es with
  | zero =>
    rw [zeros, Radix.lookupIn, if_neg (by simp), show Verif.Radix.cmpKey [0] (List.replicate (0 + 1) 0) = .equal from rfl]
    simp [deepest]
  | succ n ih =>
    have hc : Verif.Radix.cmpKey [0] (List.replicate (n + 1 + 1) 0) = .less := by
      simp [Verif.Radix.cmpKey, List.replicate_succ, Verif.Radix.mismatch]
    rw [zeros, Radix.lookupIn, if_neg (by simp [List.replicate_succ]), hc]
    simp only [List.replicate_succ (n := n + 1), List.length_singleton, List.drop_one, List.tail_cons, List.cons_append,
      List.append_assoc, List.nil_append, deepest]
    rw [ih _ _ (le_deepest _ _)]
    simp only [deepest, Nat.add_sub_cancel]; omega

/-- **C69 fails for `RadixMap` with long keys**: with the `n` keys of one to `n` zero bytes, destroying the map nests
`n + 1` calls and looking up the longest nests `n + 1` too. -/
theorem C69_radix_violated (n : Nat) : ∃ s h,
    Verif.Radix.runNew ((List.range n).map fun i => MapOp.insert (List.replicate (i + 1) 0) ()) = some (s, h) ∧
      s.len = n ∧ nesting (Radix.dropTree s.root) = n + 1 ∧
      nesting (Radix.lookupCalls (List.replicate n 0) s.root) = n + 1 := by
  obtain ⟨h, e⟩ := run_zeros n
  have hz : ∀ n, Radix.chain (zeros n) = n := by
    intro n
    induction n with
    | zero => rfl
    | succ n ih => simp [zeros, Radix.chain, ih]
  refine ⟨_, h, e, rfl, by rw [Radix.nesting_dropTree]; simp [Radix.chain, hz], ?_⟩
  cases n with
  | zero => rfl
  | succ n =>
    have hc : Verif.Radix.cmpKey [] (List.replicate (n + 1) 0) = .less := by
      simp [Verif.Radix.cmpKey, Verif.Radix.mismatch]
    simp only [nesting, Radix.lookupCalls, hc, List.length_nil, List.drop_zero, deepest, deepest_zeros]
    omega

/-! ### Concrete cases -/

/-- Seven ascending keys: three levels in an `AvlMap` and a `RedBlackMap`, seven in a `SplayMap`; the freed entries come in
the order of the nodes, the root first. -/
example : (∃ s h, (Avl.impl Nat Nat).run Avl.AvlMap.new ((List.range 7).map fun i => (MapOp.insert i i, ())) = some (s, h) ∧
      nesting (dropTree s.tree) = 3 ∧ nesting (lookupCalls s.tree 0) = 3 ∧ nesting (lookupCalls s.tree 9) = 4 ∧
      (freed (dropTree s.tree)).map (·.1) = [3, 1, 0, 2, 5, 4, 6]) ∧
    (∃ s h, (RedBlack.impl Nat Nat).run RedBlack.RedBlackMap.new ((List.range 7).map fun i => (MapOp.insert i i, ())) = some (s, h) ∧
      nesting (dropTree s.tree) = 3) ∧
    (∃ s h, (Splay.impl Nat Nat).run Splay.SplayMap.new ((List.range 7).map fun i => (MapOp.insert i i, ())) = some (s, h) ∧
      nesting (dropTree s.tree) = 7) ∧
    ∀ p ∈ (List.range 7).map fun i => ((MapOp.insert i i : MapOp Nat Nat), ()), ∀ k, p.1 ≠ .remove k := by
  refine ⟨⟨_, _, rfl, by decide, by decide, by decide, by decide⟩, ⟨_, _, rfl, by decide⟩, ⟨_, _, rfl, by decide⟩, ?_⟩
  simp

/-- The bound for `RadixMap` is met by the 256 keys of one byte. -/
example : (Verif.Radix.runNew ((List.finRange 256).map fun b => MapOp.insert [b] ())).map
      (fun p => nesting (Radix.dropTree p.1.root)) = some (256 * 1 + 1) ∧
    ∀ op ∈ (List.finRange 256).map fun b => MapOp.insert [b] (), Verif.Radix.Supported op :=
  ⟨by decide +kernel, by simp [Verif.Radix.Supported]⟩

end Verif.Drop
