/- Model of `treap/node.rs`, `treap/tree.rs`, `treap/map.rs`, `treap/set.rs`.
Simplifications: `usize` and the `u32` priorities are unbounded naturals; `Box`/`take`/`mem::swap` moves
are value passing; the random generator is replaced by an arbitrary number handed to each `insert`. -/
import Verif.Bst.Model

namespace Verif.Treap

open Verif.Bst Verif.Spec

/-- The two annotations of a treap node: treap/node.rs:7-8 (and 16-17 for `ImplicitNode`). -/
structure Ann where
  prio : Nat
  len : Nat
  deriving DecidableEq

/-- treap/tree.rs:7, treap/node.rs:5-11. -/
abbrev TTree (K V : Type) := Tree Ann K V

variable {K V : Type}

/-- The stored length of a subtree (0 if absent): treap/node.rs:41-46, 73-78, treap/map.rs:186-191,
treap/implicit_tree.rs:111-117. -/
def len : TTree K V → Nat
  | .nil => 0
  | .node a _ _ _ _ => a.len

/-- A node of priority `p` after `update()`: treap/node.rs:33-47 (65-79). -/
def mk (p : Nat) (l : TTree K V) (k : K) (v : V) (r : TTree K V) : TTree K V :=
  .node ⟨p, 1 + len l + len r⟩ l k v r

/-- `merge` of a non-empty left tree `node a ll k v lr` with a tree, where `f` is `merge` of `lr`:
treap/tree.rs:11-24. -/
def mergeInto (a : Ann) (ll : TTree K V) (k : K) (v : V) (lr : TTree K V)
    (f : TTree K V → TTree K V) : TTree K V → TTree K V
  | .nil => .node a ll k v lr
  | .node b rl x w rr =>
    if a.prio > b.prio then mk a.prio ll k v (f (.node b rl x w rr))
    else mk b.prio (mergeInto a ll k v lr f rl) x w rr

/-- treap/tree.rs:9-26 `merge` (treap/implicit_tree.rs:7-24 is the same code).  The recursion alternates
between the right spine of the left tree and the left spine of the right tree; see `merge_node_node` for
the equation in the form of the code. -/
def merge : TTree K V → TTree K V → TTree K V
  | .nil => fun r => r
  | .node a ll k v lr => mergeInto a ll k v lr (merge lr)

section Ord

variable [LinearOrder K]

/-- treap/tree.rs:28-60 `split`: (what stays in `tree`, the node with the key, the right part). -/
def split (key : K) : TTree K V → TTree K V × TTree K V × TTree K V
  | .nil => (.nil, .nil, .nil)
  | .node a l k v r =>
    if key < k then
      let (t, d, res) := split key l
      (t, d, mk a.prio res k v r)
    else if k < key then
      let (t, d, res) := split key r
      (mk a.prio l k v t, d, res)
    else (l, mk a.prio .nil k v .nil, r)

/-- The entry of an optional node: treap/tree.rs:97, 125. -/
def entry : TTree K V → Option (K × V)
  | .nil => none
  | .node _ _ k v _ => some (k, v)

/-- treap/tree.rs:92-97: the new node takes the place of `tree`. -/
def insertAbove (p : Nat) (key : K) (v : V) (t : TTree K V) : TTree K V × Option (K × V) :=
  let (l, dup, r) := split key t
  (mk p l key v r, entry dup)

/-- treap/tree.rs:62-98 `insert` of `Node::new(key, v, p)`. -/
def insert (p : Nat) (key : K) (v : V) : TTree K V → TTree K V × Option (K × V)
  | .nil => (.node ⟨p, 1⟩ .nil key v .nil, none)
  | .node a l k w r =>
    if p ≤ a.prio then
      if key < k then
        let (l', ret) := insert p key v l
        (mk a.prio l' k w r, ret)
      else if k < key then
        let (r', ret) := insert p key v r
        (mk a.prio l k w r', ret)
      else (.node a l key v r, some (k, w))
    else insertAbove p key v (.node a l k w r)

/-- treap/tree.rs:100-126 `remove`. -/
def remove (key : K) : TTree K V → TTree K V × Option (K × V)
  | .nil => (.nil, none)
  | .node a l k v r =>
    if key < k then
      let (l', ret) := remove key l
      (mk a.prio l' k v r, ret)
    else if k < key then
      let (r', ret) := remove key r
      (mk a.prio l k v r', ret)
    else (merge l r, some (k, v))

/-- treap/tree.rs:222-240, the body of `union` after the swap: the node that becomes the root, the other
tree, `swapped`; `f` is the recursive call. -/
def unionN (f : TTree K V → TTree K V → Bool → Option (TTree K V)) (a : Ann) (l : TTree K V) (k : K)
    (v : V) (r : TTree K V) (o : TTree K V) (sw : Bool) : Option (TTree K V) :=
  let (ol, dup, or) := split k o
  do
    let l' ← f l ol sw
    let r' ← f r or sw
    let e := if sw then (entry dup).getD (k, v) else (k, v)
    return mk a.prio l' e.1 e.2 r'

/-- treap/tree.rs:212-245 `union`; the first argument bounds the recursion depth (`none` if it runs out,
which `union_spec` excludes). -/
def unionF : Nat → TTree K V → TTree K V → Bool → Option (TTree K V)
  | 0, _, _, _ => none
  | n + 1, .node a ll k v lr, .node b rl x w rr, sw =>
    if a.prio < b.prio then unionN (unionF n) b rl x w rr (.node a ll k v lr) (!sw)
    else unionN (unionF n) a ll k v lr (.node b rl x w rr) sw
  | _ + 1, .nil, r, _ => some r
  | _ + 1, .node a ll k v lr, .nil, _ => some (.node a ll k v lr)

/-- treap/tree.rs:262-285, the body of `intersection` after the swap. -/
def interN (f : TTree K V → TTree K V → Bool → Option (TTree K V)) (a : Ann) (l : TTree K V) (k : K)
    (v : V) (r : TTree K V) (o : TTree K V) (sw : Bool) : Option (TTree K V) :=
  let (ol, dup, or) := split k o
  do
    let l' ← f l ol sw
    let r' ← f r or sw
    match entry dup with
    | some e => let e := if sw then e else (k, v); return mk a.prio l' e.1 e.2 r'
    | none => return merge l' r'

/-- treap/tree.rs:247-289 `intersection` (with recursion bound). -/
def interF : Nat → TTree K V → TTree K V → Bool → Option (TTree K V)
  | 0, _, _, _ => none
  | n + 1, .node a ll k v lr, .node b rl x w rr, sw =>
    if a.prio < b.prio then interN (interF n) b rl x w rr (.node a ll k v lr) (!sw)
    else interN (interF n) a ll k v lr (.node b rl x w rr) sw
  | _ + 1, .nil, _, _ => some .nil
  | _ + 1, .node .., .nil, _ => some .nil

/-- treap/tree.rs:331-340: one of the trees is empty. -/
def diffBase (l r : TTree K V) (sw sym : Bool) : TTree K V :=
  if sym then merge l r else if sw then r else l

/-- treap/tree.rs:307-329, the body of `difference` after the swap. -/
def diffN (f : TTree K V → TTree K V → Bool → Option (TTree K V)) (a : Ann) (l : TTree K V) (k : K)
    (v : V) (r : TTree K V) (o : TTree K V) (sw sym : Bool) : Option (TTree K V) :=
  let (ol, dup, or) := split k o
  do
    let l' ← f l ol sw
    let r' ← f r or sw
    if (entry dup).isSome || (sw && !sym) then return merge l' r'
    else return mk a.prio l' k v r'

/-- treap/tree.rs:291-342 `difference` (with recursion bound). -/
def diffF (sym : Bool) : Nat → TTree K V → TTree K V → Bool → Option (TTree K V)
  | 0, _, _, _ => none
  | n + 1, .node a ll k v lr, .node b rl x w rr, sw =>
    if a.prio < b.prio then diffN (diffF sym n) b rl x w rr (.node a ll k v lr) (!sw) sym
    else diffN (diffF sym n) a ll k v lr (.node b rl x w rr) sw sym
  | _ + 1, .nil, r, sw => some (diffBase .nil r sw sym)
  | _ + 1, .node a ll k v lr, .nil, sw => some (diffBase (.node a ll k v lr) .nil sw sym)

/-- treap/map.rs:37-40 `TreapMap { tree, rng }`. -/
structure TreapMap (K V : Type) where
  tree : TTree K V

/-- treap/map.rs:52-57 `new`. -/
def TreapMap.new : TreapMap K V := ⟨.nil⟩

/-- treap/map.rs: `insert` 73-86, `remove` 101-111, `contains_key` 125-131, `get` 146-152, `get_mut`
167-173, `len` 186-191, `is_empty` 203-205, `clear` 220-222, `floor` 237-243, `ceil` 258-264, `min`
278-283, `max` 297-302, `iter` 514-519.  The number is the priority drawn by `insert`. -/
def step (m : TreapMap K V) : MapOp K V → Nat → Option (TreapMap K V × MapRes K V)
  | .insert k v, p => let (t, r) := insert p k v m.tree; some (⟨t⟩, .pair r)
  | .remove k, _ => let (t, r) := remove k m.tree; some (⟨t⟩, .pair r)
  | .get k, _ => some (m, .val ((m.tree.get k).map (·.2)))
  | .containsKey k, _ => some (m, .bool (m.tree.get k).isSome)
  | .getMut k f, _ =>
    let (e, t) := m.tree.getMut k f
    some (⟨t⟩, .val (e.map (·.2)))
  | .floor k, _ => some (m, .key ((m.tree.floor k).map (·.1)))
  | .ceil k, _ => some (m, .key ((m.tree.ceil k).map (·.1)))
  | .min, _ => some (m, .key (m.tree.min.map (·.1)))
  | .max, _ => some (m, .key (m.tree.max.map (·.1)))
  | .len, _ => some (m, .num (len m.tree))
  | .isEmpty, _ => some (m, .bool (len m.tree == 0))
  | .iter, _ => some (m, .list (Iter.start m.tree).collect)
  | .clear, _ => some (⟨.nil⟩, .unit)

/-- The `TreapMap` API as a state machine. -/
def impl (K V : Type) [LinearOrder K] : MapImpl K V where
  State := TreapMap K V
  Draw := Nat
  empty := TreapMap.new
  step := step

/-- treap/map.rs:323-343 `split_off`: (the receiver afterwards, the returned map).
treap/set.rs:255-262 delegates to it. -/
def TreapMap.splitOff (m : TreapMap K V) (key : K) (inclusive : Bool) : TreapMap K V × TreapMap K V :=
  let (t, d, r) := split key m.tree
  if inclusive then (⟨merge t d⟩, ⟨r⟩) else (⟨t⟩, ⟨merge d r⟩)

/-- Enough recursion depth for `union`, `intersection`, `difference`. -/
def depthBound (l r : TTree K V) : Nat := l.size + r.size + 1

/-- treap/map.rs:368-383 `union` and 698-707 `Add` (treap/set.rs:283-290, 463-472). -/
def TreapMap.union (l r : TreapMap K V) : Option (TreapMap K V) :=
  (unionF (depthBound l.tree r.tree) l.tree r.tree false).map TreapMap.mk

/-- treap/map.rs:407-419 `intersection` (treap/set.rs:310-317). -/
def TreapMap.intersection (l r : TreapMap K V) : Option (TreapMap K V) :=
  (interF (depthBound l.tree r.tree) l.tree r.tree false).map TreapMap.mk

/-- treap/map.rs:444-456 `difference` and 709-718 `Sub` (treap/set.rs:338-345, 474-483). -/
def TreapMap.difference (l r : TreapMap K V) : Option (TreapMap K V) :=
  (diffF false (depthBound l.tree r.tree) l.tree r.tree false).map TreapMap.mk

/-- treap/map.rs:480-495 `symmetric_difference` (treap/set.rs:369-376). -/
def TreapMap.symmetricDifference (l r : TreapMap K V) : Option (TreapMap K V) :=
  (diffF true (depthBound l.tree r.tree) l.tree r.tree false).map TreapMap.mk

end Ord

end Verif.Treap
