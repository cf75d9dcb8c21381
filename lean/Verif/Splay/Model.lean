/- Model of `splay_tree/node.rs`, `splay_tree/tree.rs`, `splay_tree/map.rs`.
Simplifications: `usize` is unbounded; `Box`/`mem::swap` moves are value passing; the two moving
`&mut` holes of `splay` are modelled by the frames hung up so far (most recent first) and filled at the
end; the `expect`s of `splay` sit behind the pattern match that makes them unreachable. -/
import Verif.Bst.Model

namespace Verif.Splay

open Verif.Bst Verif.Spec

/-- splay_tree/tree.rs:7, node.rs:5-9 (no annotation). -/
abbrev STree (K V : Type) := Tree Unit K V

variable {K V : Type} [LinearOrder K]

/-- A node without annotation. -/
@[match_pattern] abbrev nd (l : STree K V) (k : K) (v : V) (r : STree K V) : STree K V :=
  Tree.node () l k v r

/-- Frames hung into the tree of smaller keys (each new frame goes to the right hole). -/
abbrev FramesL (K V : Type) := List (STree K V × K × V)
/-- Frames hung into the tree of larger keys (each new frame goes to the left hole). -/
abbrev FramesR (K V : Type) := List (K × V × STree K V)

/-- The tree of smaller keys, its hole filled with `t`: splay_tree/tree.rs:52-57, 65. -/
def fillL (t : STree K V) : FramesL K V → STree K V
  | [] => t
  | (l, k, v) :: fs => fillL (nd l k v t) fs

/-- The tree of larger keys, its hole filled with `t`: splay_tree/tree.rs:32-36, 66. -/
def fillR (t : STree K V) : FramesR K V → STree K V
  | [] => t
  | (k, v, r) :: fs => fillR (nd t k v r) fs

/-- End of `splay`, splay_tree/tree.rs:65-70. -/
def finish (l : STree K V) (k : K) (v : V) (r : STree K V) (ls : FramesL K V) (rs : FramesR K V) :
    STree K V :=
  nd (fillL l ls) k v (fillR r rs)

/-- The loop of `splay`, splay_tree/tree.rs:19-63 with `rotate_right`/`rotate_left` (node.rs:20-38)
inlined. -/
def splayLoop (k : K) : STree K V → FramesL K V → FramesR K V → STree K V
  | .nil, _, _ => .nil
  | .node _ l x v r, ls, rs =>
    if k < x then
      match l with
      | .nil => finish .nil x v r ls rs
      | .node _ ll lk lv lr =>
        if k < lk then
          -- rotate_right, then step to the (new) left child
          match ll with
          | .nil => finish .nil lk lv (nd lr x v r) ls rs
          | .node _ l' k' v' r' => splayLoop k (.node () l' k' v' r') ls ((lk, lv, nd lr x v r) :: rs)
        else splayLoop k (.node () ll lk lv lr) ls ((x, v, r) :: rs)
    else if x < k then
      match r with
      | .nil => finish l x v .nil ls rs
      | .node _ rl rk rv rr =>
        if rk < k then
          -- rotate_left, then step to the (new) right child
          match rr with
          | .nil => finish (nd l x v rl) rk rv .nil ls rs
          | .node _ l' k' v' r' => splayLoop k (.node () l' k' v' r') ((nd l x v rl, rk, rv) :: ls) rs
        else splayLoop k (.node () rl rk rv rr) ((l, x, v) :: ls) rs
    else finish l x v r ls rs

/-- splay_tree/tree.rs:9-71 `splay` (only called on non-empty trees). -/
def splay (k : K) (t : STree K V) : STree K V := splayLoop k t [] []

/-- splay_tree/tree.rs:73-104 `insert` with `new_node = Node::new(k, v)`. -/
def insert (t : STree K V) (k : K) (v : V) : STree K V × Option (K × V) :=
  match splay k t with
  | .nil => (nd .nil k v .nil, none)
  | .node _ l x w r =>
    if k < x then (nd l k v (nd .nil x w r), none)
    else if x < k then (nd (nd l x w .nil) k v r, none)
    else (nd l k v r, some (x, w))

/-- splay_tree/tree.rs:106-132 `remove`. -/
def remove (t : STree K V) (k : K) : STree K V × Option (K × V) :=
  match splay k t with
  | .nil => (.nil, none)
  | .node _ l x w r =>
    if k ≠ x then (nd l x w r, none)
    else
      match l with
      | .nil => (r, some (x, w))
      | .node _ ll lk lv lr =>
        match splay k (nd ll lk lv lr) with
        | .nil => (.nil, some (x, w))
        | .node _ l' k' v' _ => (nd l' k' v' r, some (x, w))

/-- splay_tree/tree.rs:147-159 `get_mut`; the returned `&mut` is modelled by applying `f`. -/
def getMut (t : STree K V) (k : K) (f : V → V) : Option (K × V) × STree K V :=
  match splay k t with
  | .nil => (none, .nil)
  | .node _ l x w r => if x = k then (some (x, w), nd l x (f w) r) else (none, nd l x w r)

/-- splay_tree/map.rs:33-36 `SplayMap { tree, len }`. -/
structure SplayMap (K V : Type) where
  tree : STree K V
  len : Nat

/-- `*len -= 1` on a `usize`: panics at zero. -/
def decr : Nat → Option Nat
  | 0 => none
  | n + 1 => some n

/-- splay_tree/map.rs:48-50 `new`. -/
def SplayMap.new : SplayMap K V := ⟨.nil, 0⟩

/-- splay_tree/map.rs:66-81 `insert`. -/
def SplayMap.insert (m : SplayMap K V) (k : K) (v : V) : Option (SplayMap K V × Option (K × V)) := do
  let len := m.len + 1
  let (t, ret) := Splay.insert m.tree k v
  match ret with
  | none => return (⟨t, len⟩, none)
  | some e => return (⟨t, ← decr len⟩, some e)

/-- splay_tree/map.rs:96-110 `remove`. -/
def SplayMap.remove (m : SplayMap K V) (k : K) : Option (SplayMap K V × Option (K × V)) := do
  let (t, ret) := Splay.remove m.tree k
  match ret with
  | none => return (⟨t, m.len⟩, none)
  | some e => return (⟨t, ← decr m.len⟩, some e)

/-- splay_tree/map.rs: `contains_key` 125-131, `get` 147-153, `get_mut` 168-174, `len` 187-189,
`is_empty` 201-203, `clear` 218-221, `floor` 237-243, `ceil` 259-265, `min` 280-285, `max` 300-305,
`iter` 324-329. -/
def step (m : SplayMap K V) : MapOp K V → Unit → Option (SplayMap K V × MapRes K V)
  | .insert k v, _ => do let (m', r) ← m.insert k v; return (m', .pair r)
  | .remove k, _ => do let (m', r) ← m.remove k; return (m', .pair r)
  | .get k, _ => some (m, .val ((m.tree.get k).map (·.2)))
  | .containsKey k, _ => some (m, .bool (m.tree.get k).isSome)
  | .getMut k f, _ =>
    let (e, t) := getMut m.tree k f
    some (⟨t, m.len⟩, .val (e.map (·.2)))
  | .floor k, _ => some (m, .key ((m.tree.floor k).map (·.1)))
  | .ceil k, _ => some (m, .key ((m.tree.ceil k).map (·.1)))
  | .min, _ => some (m, .key (m.tree.min.map (·.1)))
  | .max, _ => some (m, .key (m.tree.max.map (·.1)))
  | .len, _ => some (m, .num m.len)
  | .isEmpty, _ => some (m, .bool (m.len == 0))
  | .iter, _ => some (m, .list (Iter.start m.tree).collect)
  | .clear, _ => some (⟨.nil, 0⟩, .unit)

/-- The `SplayMap` API as a state machine. -/
def impl (K V : Type) [LinearOrder K] : MapImpl K V where
  State := SplayMap K V
  Draw := Unit
  empty := SplayMap.new
  step := step

end Verif.Splay
