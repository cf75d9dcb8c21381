/- Model of `radix/node.rs`, `radix/tree.rs` and `radix/map.rs`.
Simplifications: `len` is an unbounded natural number (additions cannot overflow); a key slice with an index,
`key[index..]`, is passed as the remaining slice; a `&mut Tree` found by `get_mut` is modelled by rebuilding
the sibling list on the way to it.  Each recursive function is therefore split into its body on one node, its
application to the root, and its application to the node that `get`/`get_mut` finds in a sibling list. -/
import Mathlib.Order.Fin.Basic
import Mathlib.Data.List.Lex
import Verif.Spec.OrdMap

namespace Verif.Radix

open Verif.Spec

/-- `u8`. -/
abbrev Byte := Fin 256
/-- Byte strings. -/
abbrev Key := List Byte

/-- radix/tree.rs:5 and radix/node.rs:4-9: `Tree<T>` is `nil` (`None`) or a node with key, value, next sibling
and first child. -/
inductive Tree (V : Type) where
  | nil
  | node (key : Key) (value : Option V) (next child : Tree V)

variable {V : Type}

/-- `Option::is_none` on a tree. -/
def Tree.isNil : Tree V → Bool
  | .nil => true
  | .node .. => false

/-- The zip/position expression (tree.rs:9-13, 51-55, 90-94, 113-117, 143-147): the first position where two
byte strings differ, if they do within the shorter length. -/
def mismatch : Key → Key → Option Nat
  | a :: as, b :: bs => if a ≠ b then some 0 else (mismatch as bs).map (· + 1)
  | _, _ => none

/-- The outcome of comparing a node key with the remaining key. -/
inductive Cmp where
  | split (i : Nat)
  | less
  | greater
  | equal

/-- tree.rs:9-22 (and 51-58, 90-97, 113-120, 143-155): position of the first difference, else the comparison of
the lengths. -/
def cmpKey (k key : Key) : Cmp :=
  match mismatch k key with
  | some i => .split i
  | none => if k.length < key.length then .less else if k.length = key.length then .equal else .greater

/-- node.rs:25-33 `get`: the sibling starting with `byte`, searched from a first child.  `key[0]` of an empty
key panics (`none`). -/
def getChild (byte : Byte) : Tree V → Option (Tree V)
  | .nil => some .nil
  | .node [] _ _ _ => none
  | .node (b :: k) v next child => if b ≠ byte then getChild byte next else some (.node (b :: k) v next child)

/-- node.rs:61-76 `insert_child` into the sibling list of the children; the new node starts with byte `nb`. -/
def insertChild (nb : Byte) (nk : Key) (nv : Option V) (nc : Tree V) : Tree V → Option (Tree V)
  | .nil => some (.node (nb :: nk) nv .nil nc)
  | .node [] _ _ _ => none
  | .node (b :: k) v next child =>
    if b > nb then some (.node (nb :: nk) nv (.node (b :: k) v next child) nc)
    else (insertChild nb nk nv nc next).map fun next => .node (b :: k) v next child

/-- `insert_child` of a leaf with key `key` (node.rs:61-76, tree.rs:17-19, 29); an empty key would panic when it
is compared (or, in an empty list, break later calls), so it is a panic here. -/
def insertLeaf (key : Key) (value : V) (children : Tree V) : Option (Tree V) :=
  match key with
  | [] => none
  | b :: k => insertChild b k (some value) .nil children

/-- node.rs:53-59 `split`: the tail of the key becomes the only child. -/
def splitChild (key : Key) (value : Option V) (child : Tree V) : Option (Tree V) :=
  match key with
  | [] => none
  | b :: k => insertChild b k value child .nil

/-- tree.rs:9-40, the body of `insert` on a node; `sub` is the recursive call of line 27 on the children
`node.get_mut(byte)`, evaluated only in the case of that line. -/
def insertNode (k : Key) (v : Option V) (next child : Tree V) (key : Key) (value : V)
    (sub : Option (Tree V × Option V)) : Option (Tree V × Option V) :=
  match cmpKey k key with
  | .split i =>
    match splitChild (k.drop i) v child with
    | none => none
    | some c => (insertLeaf (key.drop i) value c).map fun c => (.node (k.take i) none next c, none)
  | .less =>
    match key.drop k.length with
    | [] => none
    | byte :: rest =>
      match getChild byte child with
      | none => none
      | some .nil => (insertLeaf (byte :: rest) value child).map fun c => (.node k v next c, none)
      | some (.node ..) => sub.map fun (c, r) => (.node k v next c, r)
  | .greater => (splitChild (k.drop key.length) v child).map fun c => (.node (k.take key.length) (some value) next c, none)
  | .equal => some (.node k (some value) next child, v)

/-- tree.rs:7-41 `insert` applied to the tree that `get_mut(byte)` (node.rs:35-51) finds in a sibling list,
where `byte` is the first byte of `key`.  Callers have checked that there is such a node. -/
def insertIn (key : Key) (value : V) : Tree V → Option (Tree V × Option V)
  | .nil => none
  | .node k v next child =>
    match k, key with
    | b :: _, byte :: _ =>
      if b ≠ byte then (insertIn key value next).map fun (next, r) => (.node k v next child, r)
      else insertNode k v next child key value (insertIn (key.drop k.length) value child)
    | _, _ => none

/-- tree.rs:7-41 `insert` at the root; line 8 panics on an empty tree. -/
def insert (key : Key) (value : V) : Tree V → Option (Tree V × Option V)
  | .nil => none
  | .node k v next child => insertNode k v next child key value (insertIn (key.drop k.length) value child)

/-- node.rs:78-88 `merge`. -/
def mergeNode (k : Key) (v : Option V) (next child : Tree V) : Tree V :=
  match child with
  | .nil => .node k v next .nil
  | .node ck cv cnext cchild =>
    if v.isNone ∧ cnext.isNil then .node (k ++ ck) cv next cchild
    else .node k v next (.node ck cv cnext cchild)

/-- tree.rs:64-66, 72-74, 79-81 with node.rs:90-96: a node left without value and children is replaced by its
next sibling. -/
def replace : Tree V → Tree V
  | .nil => .nil
  | .node k v next child => if v.isNone ∧ child.isNil then next else .node k v next child

/-- tree.rs:47-82, the body of `remove` on a node; `sub` is the recursive call of line 62. -/
def removeNode (k : Key) (v : Option V) (next child : Tree V) (key : Key)
    (sub : Option (Tree V × Option V)) : Option (Tree V × Option V) :=
  match cmpKey k key with
  | .split _ => some (.node k v next child, none)
  | .less => sub.map fun (c, r) => (replace (mergeNode k v next c), r)
  | .greater => some (.node k v next child, none)
  | .equal => some (replace (mergeNode k none next child), v)

/-- tree.rs:43-83 `remove` applied to the tree that `get_mut(byte)` (node.rs:35-51) finds in a sibling list. -/
def removeIn (key : Key) : Tree V → Option (Tree V × Option V)
  | .nil => some (.nil, none)
  | .node k v next child =>
    match k, key with
    | b :: _, byte :: _ =>
      if b ≠ byte then (removeIn key next).map fun (next, r) => (.node k v next child, r)
      else removeNode k v next child key (removeIn (key.drop k.length) child)
    | _, _ => none

/-- tree.rs:43-83 `remove` at the root. -/
def remove (key : Key) : Tree V → Option (Tree V × Option V)
  | .nil => some (.nil, none)
  | .node k v next child => removeNode k v next child key (removeIn (key.drop k.length) child)

/-- tree.rs:90-105, the body of `get` on a node; `sub` is the recursive call of line 100. -/
def getNode (k : Key) (v : Option V) (key : Key) (sub : Option (Option V)) : Option (Option V) :=
  match cmpKey k key with
  | .split _ => some none
  | .less => sub
  | .greater => some none
  | .equal => some v

/-- tree.rs:85-106 `get` applied to the tree that `Node::get(byte)` (node.rs:25-33) finds in a sibling list. -/
def getIn (key : Key) : Tree V → Option (Option V)
  | .nil => some none
  | .node k v next child =>
    match k, key with
    | b :: _, byte :: _ =>
      if b ≠ byte then getIn key next else getNode k v key (getIn (key.drop k.length) child)
    | _, _ => none

/-- tree.rs:85-106 `get` at the root. -/
def get (key : Key) : Tree V → Option (Option V)
  | .nil => some none
  | .node k v _ child => getNode k v key (getIn (key.drop k.length) child)

/-- tree.rs:113-128, the body of `get_mut` on a node, the reference being used to apply `f`; `sub` is the
recursive call of line 123. -/
def getMutNode (k : Key) (v : Option V) (next child : Tree V) (key : Key) (f : V → V)
    (sub : Option (Tree V × Option V)) : Option (Tree V × Option V) :=
  match cmpKey k key with
  | .split _ => some (.node k v next child, none)
  | .less => sub.map fun (c, r) => (.node k v next c, r)
  | .greater => some (.node k v next child, none)
  | .equal => some (.node k (v.map f) next child, v)

/-- tree.rs:108-129 `get_mut` applied to the tree that `Node::get_mut(byte)` (node.rs:35-51) finds in a sibling
list. -/
def getMutIn (key : Key) (f : V → V) : Tree V → Option (Tree V × Option V)
  | .nil => some (.nil, none)
  | .node k v next child =>
    match k, key with
    | b :: _, byte :: _ =>
      if b ≠ byte then (getMutIn key f next).map fun (next, r) => (.node k v next child, r)
      else getMutNode k v next child key f (getMutIn (key.drop k.length) f child)
    | _, _ => none

/-- tree.rs:108-129 `get_mut` at the root. -/
def getMut (key : Key) (f : V → V) : Tree V → Option (Tree V × Option V)
  | .nil => some (.nil, none)
  | .node k v next child => getMutNode k v next child key f (getMutIn (key.drop k.length) f child)

/-- node.rs:99-116 `push_all_children_inner`: the keys pushed, in order. -/
def pushAll (curr : Key) : Tree V → List Key
  | .nil => []
  | .node k v next child =>
    (if v.isSome then [curr ++ k] else []) ++ pushAll (curr ++ k) child ++ pushAll curr next

/-- tree.rs:142-175, the body of `get_longest_prefix` on a node; `sub` is the result of lines 157-166. -/
def prefixNode (k : Key) (v : Option V) (child : Tree V) (key curr : Key) (sub : Option (List Key)) :
    Option (List Key) :=
  match cmpKey k key with
  | .less => sub
  | _ => some ((if v.isSome then [curr ++ k] else []) ++ pushAll (curr ++ k) child)

/-- tree.rs:158-166: `get_longest_prefix` applied to the tree that `Node::get(byte)` finds in a sibling list.
If there is no such tree the result is `other` (tree.rs:161-165). -/
def prefixIn (key curr : Key) (other : List Key) : Tree V → Option (List Key)
  | .nil => some other
  | .node k v next child =>
    match k, key with
    | b :: _, byte :: _ =>
      if b ≠ byte then prefixIn key curr other next
      else prefixNode k v child key curr
        (prefixIn (key.drop k.length) (curr ++ k) (if v.isSome then [curr ++ k] else []) child)
    | _, _ => none

/-- tree.rs:131-176 `get_longest_prefix` at the root, called with an empty `curr_key` (map.rs:222-226). -/
def longestPrefix (key : Key) : Tree V → Option (List Key)
  | .nil => some []
  | .node k v _ child => prefixNode k v child key []
      (prefixIn (key.drop k.length) k (if v.isSome then [k] else []) child)

/-- tree.rs:178-191 `min`. -/
def minKey (curr : Key) : Tree V → Option Key
  | .nil => none
  | .node k v _ child => if v.isSome then some (curr ++ k) else minKey (curr ++ k) child

/-- tree.rs:193-206 `max`, together with node.rs:124-133 `Node::max`: in a sibling list the last node counts.
The root has no siblings. -/
def maxKey (curr : Key) : Tree V → Option Key
  | .nil => none
  | .node k v next child =>
    if next.isNil then
      if v.isSome ∧ child.isNil then some (curr ++ k) else maxKey (curr ++ k) child
    else maxKey curr next

/-- map.rs:410-414 `RadixMapIter`; the stack has its top first. -/
structure Iter (V : Type) where
  pre : Key
  current : Tree V
  stack : List (Tree V × Nat)

/-- map.rs:422-448 `RadixMapIter::next` (and, with the same body, `RadixMapIntoIter::next` 376-403 and
`RadixMapIterMut::next` 467-494).  The first argument bounds the number of loop rounds. -/
def Iter.next : Nat → Iter V → Option (Option (Key × V) × Iter V)
  | 0, _ => none
  | f + 1, it =>
    match it.current, it.stack with
    | .node k v next child, stack =>
      match v with
      | some v => some (some (it.pre ++ k, v), ⟨it.pre ++ k, child, (next, k.length) :: stack⟩)
      | none => Iter.next f ⟨it.pre ++ k, child, (next, k.length) :: stack⟩
    | .nil, (t, n) :: stack =>
      if n ≤ it.pre.length then Iter.next f ⟨it.pre.take (it.pre.length - n), t, stack⟩ else none
    | .nil, [] => some (none, it)

/-- Call `next` until it returns `None`; the arguments bound the rounds of one call and the number of calls. -/
def Iter.collect (budget : Nat) : Nat → Iter V → Option (List (Key × V))
  | 0, _ => none
  | n + 1, it =>
    match it.next budget with
    | none => none
    | some (none, _) => some []
    | some (some e, it) => (Iter.collect budget n it).map (e :: ·)

/-- Number of nodes. -/
def Tree.size : Tree V → Nat
  | .nil => 0
  | .node _ _ next child => 1 + next.size + child.size

/-- map.rs:41-44 `RadixMap`. -/
structure RadixMap (V : Type) where
  root : Tree V
  len : Nat

/-- map.rs:56-61 `new`. -/
def RadixMap.new : RadixMap V := ⟨.node [] none .nil .nil, 0⟩

/-- map.rs:80-87 `insert`. -/
def RadixMap.insert (m : RadixMap V) (key : Key) (value : V) : Option (RadixMap V × Option (Key × V)) :=
  (Radix.insert key value m.root).map fun (root, r) =>
    (⟨root, if r.isSome then m.len + 1 - 1 else m.len + 1⟩, r.map fun v => (key, v))

/-- map.rs:105-110 `remove`. -/
def RadixMap.remove (m : RadixMap V) (key : Key) : Option (RadixMap V × Option (Key × V)) :=
  match Radix.remove key m.root with
  | none => none
  | some (root, none) => some (⟨root, m.len⟩, none)
  | some (root, some v) => if 1 ≤ m.len then some (⟨root, m.len - 1⟩, some (key, v)) else none

/-- map.rs:222-226 `get_longest_prefix`. -/
def RadixMap.getLongestPrefix (m : RadixMap V) (key : Key) : Option (List Key) := longestPrefix key m.root

/-- map.rs:283-289 `iter`, collected (and, with the same traversal, `into_iter` 327-338; `iter_mut` is in IterMut.lean). -/
def RadixMap.iter (m : RadixMap V) : Option (List (Key × V)) :=
  Iter.collect (3 * m.root.size + 1) (m.len + 1) ⟨[], m.root, []⟩

/-- map.rs: `insert` 80-87, `remove` 105-110, `get` 141-143, `contains_key` 124-126, `get_mut` 158-160, `min`
240-242, `max` 256-258, `len` 173-175, `is_empty` 187-189, `iter` 283-289, `clear` 204-207.  `RadixMap` has no
`floor` and `ceil`: such calls do not exist (`none`). -/
def step (m : RadixMap V) : MapOp Key V → Option (RadixMap V × MapRes Key V)
  | .insert k v => (m.insert k v).map fun (m, o) => (m, .pair o)
  | .remove k => (m.remove k).map fun (m, o) => (m, .pair o)
  | .get k => (Radix.get k m.root).map fun o => (m, .val o)
  | .containsKey k => (Radix.get k m.root).map fun o => (m, .bool o.isSome)
  | .getMut k f => (Radix.getMut k f m.root).map fun (root, o) => (⟨root, m.len⟩, .val o)
  | .min => some (m, .key (minKey [] m.root))
  | .max => some (m, .key (maxKey [] m.root))
  | .len => some (m, .num m.len)
  | .isEmpty => some (m, .bool (m.len == 0))
  | .iter => m.iter.map fun l => (m, .list l)
  | .clear => some (RadixMap.new, .unit)
  | .floor _ => none
  | .ceil _ => none

/-- The calls that `RadixMap` has. -/
def Supported : MapOp Key V → Prop
  | .floor _ => False
  | .ceil _ => False
  | _ => True

/-- `RadixMap` as a state machine. -/
def radix (V : Type) : MapImpl Key V := ⟨RadixMap V, Unit, RadixMap.new, fun m op _ => step m op⟩

end Verif.Radix
