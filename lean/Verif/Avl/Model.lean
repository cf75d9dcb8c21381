/- Model of `avl_tree/node.rs`, `avl_tree/tree.rs` and `avl_tree/map.rs`.
Simplifications: `usize`/`i32` are unbounded; `Box`/`Option::take` moves are value passing;
a panic (`expect`, integer underflow) is `none`. -/
import Verif.Bst.Model

namespace Verif.Avl

open Verif.Bst Verif.Spec

/-- avl_tree/tree.rs:7, node.rs:7-12: the annotation is the `height` field. -/
abbrev ATree (K V : Type) := Tree Nat K V

variable {K V : Type} [LinearOrder K]

/-- avl_tree/tree.rs:9-14 `height`. -/
def height : ATree K V → Nat
  | .nil => 0
  | .node h _ _ _ _ => h

/-- avl_tree/node.rs:15-22 `Node::new`. -/
def newNode (k : K) (v : V) : ATree K V := .node 1 .nil k v .nil

/-- avl_tree/node.rs:24-32 `update` (a node, given by its fields, with a fresh height). -/
def update (l : ATree K V) (k : K) (v : V) (r : ATree K V) : ATree K V :=
  .node (max (height l) (height r) + 1) l k v r

/-- avl_tree/node.rs:34-36 `balance`. -/
def nodeBalance (l r : ATree K V) : Int := (height l : Int) - (height r : Int)

/-- avl_tree/node.rs:38-48 `rotate_left` on the node with fields `l k v r`
(`expect` on the right child). -/
def rotateLeft (l : ATree K V) (k : K) (v : V) : ATree K V → Option (ATree K V)
  | .nil => none
  | .node _ cl ck cv cr => some (update (update l k v cl) ck cv cr)

/-- avl_tree/node.rs:50-60 `rotate_right` (`expect` on the left child). -/
def rotateRight : ATree K V → K → V → ATree K V → Option (ATree K V)
  | .nil, _, _, _ => none
  | .node _ cl ck cv cr, k, v, r => some (update cl ck cv (update cr k v r))

/-- avl_tree/tree.rs:25-29: the left child is rotated left if it leans right. -/
def fixLeft : ATree K V → Option (ATree K V)
  | .nil => some .nil
  | .node ch cl ck cv cr =>
    if nodeBalance cl cr < 0 then rotateLeft cl ck cv cr else some (.node ch cl ck cv cr)

/-- avl_tree/tree.rs:32-36: the right child is rotated right if it leans left. -/
def fixRight : ATree K V → Option (ATree K V)
  | .nil => some .nil
  | .node ch cl ck cv cr =>
    if nodeBalance cl cr > 0 then rotateRight cl ck cv cr else some (.node ch cl ck cv cr)

/-- avl_tree/tree.rs:16-41 `balance`. -/
def balance : ATree K V → Option (ATree K V)
  | .nil => some .nil
  | .node _ l k v r =>
    if nodeBalance l r > 1 then do
      let l' ← fixLeft l
      rotateRight l' k v r
    else if nodeBalance l r < -1 then do
      let r' ← fixRight r
      rotateLeft l k v r'
    else some (update l k v r)

/-- avl_tree/tree.rs:44-54 `remove_min`: the detached node (height and entry; its children are
overwritten by the only caller) and the rest.  The heights of the nodes passed
on the way down are *not* updated. -/
def removeMin : ATree K V → Option ((Nat × K × V) × ATree K V)
  | .nil => none
  | .node h .nil k v r => some ((h, k, v), r)
  | .node h (.node h' l' k' v' r') k v r => do
    let (n, l'') ← removeMin (.node h' l' k' v' r')
    return (n, .node h l'' k v r)

/-- avl_tree/tree.rs:56-61 `combine_subtrees`. -/
def combineSubtrees (l r : ATree K V) : Option (ATree K V) := do
  let ((h, k, v), r') ← removeMin r
  return .node h l k v r'

/-- avl_tree/tree.rs:63-84 `insert` with `new_node = Node::new(k, v)`. -/
def insert : ATree K V → K → V → Option (ATree K V × Option (K × V))
  | .nil, k, v => some (newNode k v, none)
  | .node h l x w r, k, v =>
    if k < x then do
      let (l', ret) ← insert l k v
      let t ← balance (.node h l' x w r)
      return (t, ret)
    else if x < k then do
      let (r', ret) ← insert r k v
      let t ← balance (.node h l x w r')
      return (t, ret)
    else some (.node h l k v r, some (x, w))

/-- avl_tree/tree.rs:110-114: what replaces a removed node. -/
def joinChildren : ATree K V → ATree K V → Option (ATree K V)
  | .nil, r => some r
  | l, .nil => some l
  | l, r => combineSubtrees l r

/-- avl_tree/tree.rs:86-121 `remove`. -/
def remove : ATree K V → K → Option (ATree K V × Option (K × V))
  | .nil, _ => some (.nil, none)
  | .node h l x w r, k =>
    if k < x then do
      let (l', ret) ← remove l k
      let t ← balance (.node h l' x w r)
      return (t, ret)
    else if x < k then do
      let (r', ret) ← remove r k
      let t ← balance (.node h l x w r')
      return (t, ret)
    else do
      let t ← joinChildren l r
      let t ← balance t
      return (t, some (x, w))

/-- avl_tree/map.rs:32-35 `AvlMap { tree, len }`. -/
structure AvlMap (K V : Type) where
  tree : ATree K V
  len : Nat

/-- `*len -= 1` on a `usize`: panics at zero. -/
def decr : Nat → Option Nat
  | 0 => none
  | n + 1 => some n

/-- avl_tree/map.rs:47-49 `new`. -/
def AvlMap.new : AvlMap K V := ⟨.nil, 0⟩

/-- avl_tree/map.rs:65-80 `insert`. -/
def AvlMap.insert (m : AvlMap K V) (k : K) (v : V) : Option (AvlMap K V × Option (K × V)) := do
  let len := m.len + 1
  let (t, ret) ← Avl.insert m.tree k v
  match ret with
  | none => return (⟨t, len⟩, none)
  | some e => return (⟨t, ← decr len⟩, some e)

/-- avl_tree/map.rs:95-109 `remove`. -/
def AvlMap.remove (m : AvlMap K V) (k : K) : Option (AvlMap K V × Option (K × V)) := do
  let (t, ret) ← Avl.remove m.tree k
  match ret with
  | none => return (⟨t, m.len⟩, none)
  | some e => return (⟨t, ← decr m.len⟩, some e)

/-- avl_tree/map.rs: `contains_key` 123-129, `get` 144-150, `get_mut` 165-171, `len` 184-186,
`is_empty` 198-200, `clear` 215-218, `floor` 233-239, `ceil` 254-260, `min` 274-279, `max` 293-298,
`iter` 317-322. -/
def step (m : AvlMap K V) : MapOp K V → Unit → Option (AvlMap K V × MapRes K V)
  | .insert k v, _ => do let (m', r) ← m.insert k v; return (m', .pair r)
  | .remove k, _ => do let (m', r) ← m.remove k; return (m', .pair r)
  | .get k, _ => some (m, .val ((m.tree.get k).map (·.2)))
  | .containsKey k, _ => some (m, .bool (m.tree.get k).isSome)
  | .getMut k f, _ =>
    let (e, t) := m.tree.getMut k f
    some (⟨t, m.len⟩, .val (e.map (·.2)))
  | .floor k, _ => some (m, .key ((m.tree.floor k).map (·.1)))
  | .ceil k, _ => some (m, .key ((m.tree.ceil k).map (·.1)))
  | .min, _ => some (m, .key (m.tree.min.map (·.1)))
  | .max, _ => some (m, .key (m.tree.max.map (·.1)))
  | .len, _ => some (m, .num m.len)
  | .isEmpty, _ => some (m, .bool (m.len == 0))
  | .iter, _ => some (m, .list (Iter.start m.tree).collect)
  | .clear, _ => some (⟨.nil, 0⟩, .unit)

/-- The `AvlMap` API as a state machine. -/
def impl (K V : Type) [LinearOrder K] : MapImpl K V where
  State := AvlMap K V
  Draw := Unit
  empty := AvlMap.new
  step := step

end Verif.Avl
