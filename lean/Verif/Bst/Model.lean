/-
Binary search trees: the functions that are textually identical in the four
tree modules of the crate (`avl_tree`, `red_black_tree`, `splay_tree`,
`treap`), modelled once over a tree type with a per-node annotation `A`
(height / colour / nothing / priority and size).
-/
import Verif.Spec.OrdMap

namespace Verif.Bst

/-- `pub type Tree<T, U> = Option<Box<Node<T, U>>>` with `struct Node { entry: Entry { key, value },
<annotation>, left, right }`: avl_tree/tree.rs:7 + avl_tree/node.rs:7-12,
red_black_tree/tree.rs:7 + node.rs:22-27, splay_tree/tree.rs:7 + node.rs:5-9,
treap/tree.rs:7 + node.rs:5-11.  `None` is `nil`. -/
inductive Tree (A K V : Type) where
  | nil
  | node (a : A) (l : Tree A K V) (k : K) (v : V) (r : Tree A K V)
  deriving DecidableEq, Repr

namespace Tree

variable {A K V : Type} [LinearOrder K]

/-- Number of nodes (ghost, used for termination and statements). -/
def size : Tree A K V → Nat
  | nil => 0
  | node _ l _ _ r => l.size + 1 + r.size

/-- `tree::get`: avl_tree/tree.rs:123-134, red_black_tree/tree.rs:174-185,
splay_tree/tree.rs:134-145, treap/tree.rs:128-139. -/
def get : Tree A K V → K → Option (K × V)
  | nil, _ => none
  | node _ l x v r, k =>
    if k < x then l.get k
    else if x < k then r.get k
    else some (x, v)

/-- `tree::get_mut` (non-splaying version): avl_tree/tree.rs:136-147, red_black_tree/tree.rs:187-198,
treap/tree.rs:141-152.  The returned `&mut` is modelled by the entry found
together with the tree after the caller replaced the value `x` by `f x`. -/
def getMut : Tree A K V → K → (V → V) → Option (K × V) × Tree A K V
  | nil, _, _ => (none, nil)
  | node a l x v r, k, f =>
    if k < x then
      let (e, l') := l.getMut k f
      (e, node a l' x v r)
    else if x < k then
      let (e, r') := r.getMut k f
      (e, node a l x v r')
    else (some (x, v), node a l x (f v) r)

/-- `tree::ceil`: avl_tree/tree.rs:149-163, red_black_tree/tree.rs:200-214,
splay_tree/tree.rs:161-175, treap/tree.rs:154-168. -/
def ceil : Tree A K V → K → Option (K × V)
  | nil, _ => none
  | node _ l x v r, k =>
    if x < k then r.ceil k
    else if k < x then
      match l.ceil k with
      | none => some (x, v)
      | res => res
    else some (x, v)

/-- `tree::floor`: avl_tree/tree.rs:165-179, red_black_tree/tree.rs:216-230,
splay_tree/tree.rs:177-191, treap/tree.rs:170-184. -/
def floor : Tree A K V → K → Option (K × V)
  | nil, _ => none
  | node _ l x v r, k =>
    if k < x then l.floor k
    else if x < k then
      match r.floor k with
      | none => some (x, v)
      | res => res
    else some (x, v)

/-- `tree::min` (a `while let Some(left) = curr.left` loop): avl_tree/tree.rs:181-192,
red_black_tree/tree.rs:232-243, splay_tree/tree.rs:193-204, treap/tree.rs:186-197. -/
def min : Tree A K V → Option (K × V)
  | nil => none
  | node _ nil x v _ => some (x, v)
  | node _ (node a' l' x' v' r') _ _ _ => min (node a' l' x' v' r')

/-- `tree::max`: avl_tree/tree.rs:194-205, red_black_tree/tree.rs:245-256,
splay_tree/tree.rs:206-217, treap/tree.rs:199-210. -/
def max : Tree A K V → Option (K × V)
  | nil => none
  | node _ _ x v nil => some (x, v)
  | node _ _ _ _ (node a' l' x' v' r') => max (node a' l' x' v' r')

end Tree

/-- `AvlMapIter`/`AvlMapIntoIter` and the red-black, splay and treap copies
(avl_tree/map.rs:394-449, red_black_tree/map.rs:410-465, splay_tree/map.rs:401-456,
treap/map.rs:591-646):
`current` is the subtree still to descend into; the explicit `stack` holds the
nodes whose left part is done.  Of a stacked node only `entry` and `right`
are ever used, so only those are kept. -/
structure Iter (A K V : Type) where
  current : Tree A K V
  stack : List ((K × V) × Tree A K V)

namespace Iter

variable {A K V : Type}

/-- The loop `while let Some(node) = current { current = node.left; stack.push(node) }`
(avl_tree/map.rs:403-406, 435-438; red_black_tree/map.rs:419-422, 451-454; splay_tree/map.rs:410-413,
442-445; treap/map.rs:600-603, 632-635). -/
def descend : Tree A K V → List ((K × V) × Tree A K V) → List ((K × V) × Tree A K V)
  | .nil, st => st
  | .node _ l k v r, st => descend l (((k, v), r) :: st)

/-- `Iterator::next` (avl_tree/map.rs:402-416, 434-448; red_black_tree/map.rs:418-432, 450-464;
splay_tree/map.rs:409-423, 441-455; treap/map.rs:599-613, 631-645). -/
def next (it : Iter A K V) : Option (K × V) × Iter A K V :=
  match descend it.current it.stack with
  | [] => (none, ⟨.nil, []⟩)
  | (e, right) :: st => (some e, ⟨right, st⟩)

/-- `iter()` / `into_iter()` (avl_tree/map.rs:317-322, 357-362; red_black_tree/map.rs:333-338, 373-378;
splay_tree/map.rs:324-329, 364-369; treap/map.rs:514-519, 554-559). -/
def start (t : Tree A K V) : Iter A K V := ⟨t, []⟩

/-- The sequence of the first `n` results of `next()`. -/
def take : Nat → Iter A K V → List (Option (K × V))
  | 0, _ => []
  | n + 1, it => (it.next).1 :: take n (it.next).2

/-- Number of entries still to come (termination measure of `collect`). -/
def todo (it : Iter A K V) : Nat :=
  it.current.size + (it.stack.map fun p => 1 + p.2.size).sum

theorem sum_descend (t : Tree A K V) (st : List ((K × V) × Tree A K V)) :
    ((descend t st).map fun p => 1 + p.2.size).sum = t.size + (st.map fun p => 1 + p.2.size).sum := by
  induction t generalizing st with
  | nil => simp [descend, Tree.size]
  | node a l k v r ihl ihr => simp [descend, ihl, Tree.size]; omega

theorem todo_next (it : Iter A K V) {e : K × V} (h : (it.next).1 = some e) :
    (it.next).2.todo < it.todo := by
  have hs := sum_descend it.current it.stack
  unfold next at h ⊢
  cases hd : descend it.current it.stack with
  | nil => rw [hd] at h; simp at h
  | cons p st =>
    rw [hd] at hs
    simp [todo] at hs ⊢
    omega

/-- `collect()`: call `next` until it returns `None`. -/
def collect (it : Iter A K V) : List (K × V) :=
  match _h : (it.next).1 with
  | none => []
  | some e => e :: collect (it.next).2
termination_by it.todo
decreasing_by exact todo_next it ‹_›

end Iter

end Verif.Bst
