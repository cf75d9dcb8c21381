/- Model of `red_black_tree/node.rs`, `red_black_tree/tree.rs`, `red_black_tree/map.rs`.
Simplifications: `usize` is unbounded; `Box`/`Option::take` moves are value passing; a panic
(`expect`, `assert!`, underflow) is `none`; recursion on a rebuilt subtree uses fuel, and running out
of fuel is also `none` (the theorems show it never happens). -/
import Verif.Bst.Model

namespace Verif.RedBlack

open Verif.Bst Verif.Spec

/-- red_black_tree/node.rs:6-10 `Color`. -/
inductive Color where
  | red
  | black
  deriving DecidableEq, Repr

/-- red_black_tree/node.rs:13-18 `flip`. -/
def Color.flip : Color → Color
  | .red => .black
  | .black => .red

/-- red_black_tree/tree.rs:7, node.rs:22-27. -/
abbrev RTree (K V : Type) := Tree Color K V

variable {K V : Type} [LinearOrder K]

/-- red_black_tree/tree.rs:9-14 `is_red`. -/
def isRed : RTree K V → Bool
  | .nil => false
  | .node c _ _ _ _ => c == .red

/-- red_black_tree/node.rs:30-37 `Node::new`. -/
def newNode (k : K) (v : V) : RTree K V := .node .red .nil k v .nil

/-- `child.color = child.color.flip()` on an optional child (red_black_tree/node.rs:41-46). -/
def flipChild : RTree K V → RTree K V
  | .nil => .nil
  | .node c l k v r => .node c.flip l k v r

/-- red_black_tree/node.rs:39-47 `flip_colors`. -/
def flipColors : RTree K V → RTree K V
  | .nil => .nil
  | .node c l k v r => .node c.flip (flipChild l) k v (flipChild r)

/-- red_black_tree/node.rs:49-59 `rotate_left`. -/
def rotateLeft : RTree K V → Option (RTree K V)
  | .node c l k v (.node _ rl rk rv rr) => some (.node c (.node .red l k v rl) rk rv rr)
  | _ => none

/-- red_black_tree/node.rs:61-71 `rotate_right`. -/
def rotateRight : RTree K V → Option (RTree K V)
  | .node c (.node _ ll lk lv lr) k v r => some (.node c ll lk lv (.node .red lr k v r))
  | _ => none

/-- The left child of a node (`none` child if the tree is empty). -/
def left : RTree K V → RTree K V
  | .nil => .nil
  | .node _ l _ _ _ => l

/-- The right child of a node. -/
def right : RTree K V → RTree K V
  | .nil => .nil
  | .node _ _ _ _ r => r

/-- `should_rotate` (red_black_tree/node.rs:78-84, tree.rs:87-93): the left child is red and has a
red left child. -/
def leftLeftRed (t : RTree K V) : Bool := isRed (left t) && isRed (left (left t))

/-- red_black_tree/node.rs:74-76: first step of `balance`. -/
def leanLeft (t : RTree K V) : Option (RTree K V) :=
  if isRed (right t) then rotateLeft t else some t

/-- red_black_tree/tree.rs:83-85: first fix-up step of `insert` (only if the left child is not red). -/
def leanLeftInsert (t : RTree K V) : Option (RTree K V) :=
  if isRed (right t) && !isRed (left t) then rotateLeft t else some t

/-- red_black_tree/node.rs:78-87, tree.rs:87-96: second step. -/
def unstackLeft (t : RTree K V) : Option (RTree K V) :=
  if leftLeftRed t then rotateRight t else some t

/-- red_black_tree/node.rs:89-91, tree.rs:98-100: third step. -/
def splitFour (t : RTree K V) : RTree K V :=
  if isRed (left t) && isRed (right t) then flipColors t else t

/-- red_black_tree/node.rs:73-92 `balance`. -/
def balance (t : RTree K V) : Option (RTree K V) := do
  let t ← leanLeft t
  let t ← unstackLeft t
  return splitFour t

/-- The tail of `insert`, red_black_tree/tree.rs:81-102. -/
def fixInsert (t : RTree K V) : Option (RTree K V) := do
  let t ← leanLeftInsert t
  let t ← unstackLeft t
  return splitFour t

/-- red_black_tree/node.rs:94-106 `shift_left`. -/
def shiftLeft (t : RTree K V) : Option (RTree K V) :=
  match flipColors t with
  | .nil => none
  | .node c l k v r =>
    if isRed (left r) then do
      let r ← rotateRight r
      let t ← rotateLeft (.node c l k v r)
      return flipColors t
    else some (.node c l k v r)

/-- red_black_tree/node.rs:108-119 `shift_right`. -/
def shiftRight (t : RTree K V) : Option (RTree K V) :=
  let t := flipColors t
  if isRed (left (left t)) then do
    let t ← rotateRight t
    return flipColors t
  else some t

/-- `should_shift` for a child (red_black_tree/tree.rs:20-26, 113-119, 137-143). -/
def needShift : RTree K V → Bool
  | .nil => false
  | .node c l _ _ _ => c != .red && !isRed l

/-- red_black_tree/tree.rs:20-29, 113-122: prepare a descent to the left. -/
def moveLeft (t : RTree K V) : Option (RTree K V) :=
  if needShift (left t) then shiftLeft t else some t

/-- red_black_tree/tree.rs:128-130. -/
def moveRight₁ (t : RTree K V) : Option (RTree K V) :=
  if isRed (left t) then rotateRight t else some t

/-- red_black_tree/tree.rs:137-146. -/
def moveRight₂ (t : RTree K V) : Option (RTree K V) :=
  if needShift (right t) then shiftRight t else some t

def isNil : RTree K V → Bool
  | .nil => true
  | _ => false

/-- red_black_tree/tree.rs:17-40 `remove_min`: detached entry and rest (the first argument is fuel). -/
def removeMin : Nat → RTree K V → Option ((K × V) × RTree K V)
  | 0, _ => none
  | _ + 1, .nil => none
  | _ + 1, .node _ .nil k v r => some ((k, v), r)
  | n + 1, .node c (.node cl ll lk lv lr) k v r => do
    let t ← moveLeft (.node c (.node cl ll lk lv lr) k v r)
    match t with
    | .nil => none
    | .node c l k v r =>
      let (e, l') ← removeMin n l
      let t ← balance (.node c l' k v r)
      return (e, t)

/-- red_black_tree/tree.rs:42-52 `combine_subtrees`. -/
def combineSubtrees (l r : RTree K V) (c : Color) : Option (RTree K V) := do
  let ((k, v), r') ← removeMin (r.size + 1) r
  return .node c l k v r'

/-- red_black_tree/tree.rs:54-60 `fix_root`. -/
def fixRoot : RTree K V → RTree K V
  | .nil => .nil
  | .node c l k v r => if !isRed l && !isRed r then .node .red l k v r else .node c l k v r

/-- red_black_tree/tree.rs:62-103 `insert` with `new_node = Node::new(k, v)`. -/
def insert : RTree K V → K → V → Option (RTree K V × Option (K × V))
  | .nil, k, v => some (newNode k v, none)
  | .node c l x w r, k, v =>
    if k < x then do
      let (l', ret) ← insert l k v
      let t ← fixInsert (.node c l' x w r)
      return (t, ret)
    else if x < k then do
      let (r', ret) ← insert r k v
      let t ← fixInsert (.node c l x w r')
      return (t, ret)
    else do
      let t ← fixInsert (.node c l k v r)
      return (t, some (x, w))

/-- red_black_tree/tree.rs:105-172 `remove` (the first argument is fuel). -/
def remove : Nat → RTree K V → K → Option (RTree K V × Option (K × V))
  | 0, _, _ => none
  | _ + 1, .nil, _ => some (.nil, none)
  | n + 1, .node c l x w r, k =>
    if k < x then do
      let t ← moveLeft (.node c l x w r)
      match t with
      | .nil => none
      | .node c l x w r =>
        let (l', ret) ← remove n l k
        let t ← balance (.node c l' x w r)
        return (t, ret)
    else do
      let t ← moveRight₁ (.node c l x w r)
      match t with
      | .nil => none
      | .node c l x w r =>
        if k = x ∧ isNil r = true then
          if isNil l then some (.nil, some (x, w)) else none
        else
          let t ← moveRight₂ (.node c l x w r)
          match t with
          | .nil => none
          | .node c l x w r =>
            if k = x then
              let t ← combineSubtrees l r c
              let t ← balance t
              return (t, some (x, w))
            else
              let (r', ret) ← remove n r k
              let t ← balance (.node c l x w r')
              return (t, ret)

/-- red_black_tree/map.rs:33-36 `RedBlackMap { tree, len }`. -/
structure RedBlackMap (K V : Type) where
  tree : RTree K V
  len : Nat

/-- `*len -= 1` on a `usize`: panics at zero. -/
def decr : Nat → Option Nat
  | 0 => none
  | n + 1 => some n

/-- `node.color = Color::Black` on an optional root (red_black_tree/map.rs:82-84, 121-123). -/
def blacken : RTree K V → RTree K V
  | .nil => .nil
  | .node _ l k v r => .node .black l k v r

/-- red_black_tree/map.rs:48-50 `new`. -/
def RedBlackMap.new : RedBlackMap K V := ⟨.nil, 0⟩

/-- red_black_tree/map.rs:66-87 `insert`. -/
def RedBlackMap.insert (m : RedBlackMap K V) (k : K) (v : V) :
    Option (RedBlackMap K V × Option (K × V)) := do
  let len := m.len + 1
  let (t, ret) ← RedBlack.insert m.tree k v
  match ret with
  | none => return (⟨blacken t, len⟩, none)
  | some e => return (⟨blacken t, ← decr len⟩, some e)

/-- red_black_tree/map.rs:102-125 `remove`. -/
def RedBlackMap.remove (m : RedBlackMap K V) (k : K) :
    Option (RedBlackMap K V × Option (K × V)) := do
  let (t, ret) ← RedBlack.remove (m.tree.size + 1) (fixRoot m.tree) k
  match ret with
  | none => return (⟨blacken t, m.len⟩, none)
  | some e => return (⟨blacken t, ← decr m.len⟩, some e)

/-- red_black_tree/map.rs: `contains_key` 139-145, `get` 160-166, `get_mut` 181-187, `len` 200-202,
`is_empty` 214-216, `clear` 231-234, `floor` 249-255, `ceil` 270-276, `min` 290-295, `max` 309-314,
`iter` 333-338. -/
def step (m : RedBlackMap K V) : MapOp K V → Unit → Option (RedBlackMap K V × MapRes K V)
  | .insert k v, _ => do let (m', r) ← m.insert k v; return (m', .pair r)
  | .remove k, _ => do let (m', r) ← m.remove k; return (m', .pair r)
  | .get k, _ => some (m, .val ((m.tree.get k).map (·.2)))
  | .containsKey k, _ => some (m, .bool (m.tree.get k).isSome)
  | .getMut k f, _ =>
    let (e, t) := m.tree.getMut k f
    some (⟨t, m.len⟩, .val (e.map (·.2)))
  | .floor k, _ => some (m, .key ((m.tree.floor k).map (·.1)))
  | .ceil k, _ => some (m, .key ((m.tree.ceil k).map (·.1)))
  | .min, _ => some (m, .key (m.tree.min.map (·.1)))
  | .max, _ => some (m, .key (m.tree.max.map (·.1)))
  | .len, _ => some (m, .num m.len)
  | .isEmpty, _ => some (m, .bool (m.len == 0))
  | .iter, _ => some (m, .list (Iter.start m.tree).collect)
  | .clear, _ => some (⟨.nil, 0⟩, .unit)

/-- The `RedBlackMap` API as a state machine. -/
def impl (K V : Type) [LinearOrder K] : MapImpl K V where
  State := RedBlackMap K V
  Draw := Unit
  empty := RedBlackMap.new
  step := step

end Verif.RedBlack
