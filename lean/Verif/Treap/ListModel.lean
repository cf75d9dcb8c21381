/- Model of `treap/implicit_tree.rs` and `treap/list.rs`.  An `ImplicitNode` is a treap node whose key
is the unit value; `merge` and the iterators are the same code as for `TreapMap` and are reused.
Simplifications as in `Verif.Treap.Model`. -/
import Verif.Treap.Model
import Verif.Bst.IterMut
import Verif.Spec.Seq

namespace Verif.Treap.Implicit

open Verif.Bst Verif.Spec

/-- treap/implicit_tree.rs:5, treap/node.rs:14-20. -/
abbrev ITree (V : Type) := TTree Unit V

variable {V : Type}

/-- treap/node.rs:81-86 `get_implicit_key`, of a node with this left subtree. -/
def implicitKey (l : ITree V) : Nat := len l + 1

/-- treap/implicit_tree.rs:26-47 `split`: (what stays in `tree`, the returned right part). -/
def split (leftInclusive : Bool) : Nat → ITree V → ITree V × ITree V
  | _, .nil => (.nil, .nil)
  | index, .node a l k v r =>
    let key := implicitKey l
    if index < key ∨ (index = key ∧ leftInclusive = true) then
      let (t, res) := split leftInclusive index l
      (t, mk a.prio res k v r)
    else
      let (t, res) := split leftInclusive (index - key) r
      (mk a.prio l k v t, res)

/-- treap/implicit_tree.rs:49-54 `insert` of `ImplicitNode::new(v, p)` (node.rs:51-59). -/
def insert (index p : Nat) (v : V) (t : ITree V) : Option (ITree V) :=
  if 1 ≤ index ∧ index ≤ len t + 1 then
    let (l, r) := split true index t
    some (merge (merge l (.node ⟨p, 1⟩ .nil () v .nil)) r)
  else none

/-- treap/implicit_tree.rs:56-87 `remove`. -/
def remove : Nat → ITree V → Option (ITree V × V)
  | _, .nil => none
  | index, .node a l k v r =>
    if 1 ≤ index ∧ index ≤ a.len then
      let key := implicitKey l
      if index < key then do
        let (l', x) ← remove index l
        return (mk a.prio l' k v r, x)
      else if key < index then do
        let (r', x) ← remove (index - key) r
        return (mk a.prio l k v r', x)
      else some (merge l r, v)
    else none

/-- treap/implicit_tree.rs:89-98 `get`. -/
def get : Nat → ITree V → Option V
  | _, .nil => none
  | index, .node _ l _ v r =>
    let key := implicitKey l
    if index < key then get index l
    else if key < index then get (index - key) r
    else some v

/-- treap/implicit_tree.rs:100-109 `get_mut`; the returned `&mut` is modelled by applying `f`. -/
def getMut (f : V → V) : Nat → ITree V → Option V × ITree V
  | _, .nil => (none, .nil)
  | index, .node a l k v r =>
    let key := implicitKey l
    if index < key then
      let (o, l') := getMut f index l
      (o, .node a l' k v r)
    else if key < index then
      let (o, r') := getMut f (index - key) r
      (o, .node a l k v r')
    else (some v, .node a l k (f v) r)

/-- treap/list.rs:37-40 `TreapList { tree, rng }`. -/
structure TreapList (V : Type) where
  tree : ITree V

/-- treap/list.rs:52-57 `new`. -/
def TreapList.new : TreapList V := ⟨.nil⟩

/-- treap/list.rs:73-79 `insert`. -/
def TreapList.insert (m : TreapList V) (i : Nat) (v : V) (p : Nat) : Option (TreapList V × SeqRes V) :=
  (Implicit.insert (i + 1) p v m.tree).map fun t => (⟨t⟩, .unit)

/-- treap/list.rs:92-94 `remove`. -/
def TreapList.remove (m : TreapList V) (i : Nat) : Option (TreapList V × SeqRes V) :=
  (Implicit.remove (i + 1) m.tree).map fun q => (⟨q.1⟩, .val q.2)

/-- `self.len() - 1` on a `usize`: panics at zero. -/
def decr : Nat → Option Nat
  | 0 => none
  | n + 1 => some n

/-- treap/list.rs: `push_front` 108-110, `push_back` 124-127, `pop_front` 145-147, `pop_back` 165-168,
`get` 183-185, `get_mut` 200-202, `len` 215-217, `is_empty` 229-231, `clear` 246-248, `iter` 266-271,
`iter_mut` 293-298, the iterators 340-425 (same code as those of the maps), `Index` 445-451.  The number
is the priority drawn by an insertion. -/
def step (m : TreapList V) : SeqOp V → Nat → Option (TreapList V × SeqRes V)
  | .insert i v, p => m.insert i v p
  | .remove i, _ => m.remove i
  | .pushFront v, p => m.insert 0 v p
  | .pushBack v, p => m.insert (len m.tree) v p
  | .popFront, _ => m.remove 0
  | .popBack, _ => do let i ← decr (len m.tree); m.remove i
  | .get i, _ => some (m, .opt (get (i + 1) m.tree))
  | .index i, _ => (get (i + 1) m.tree).map fun v => (m, .val v)
  | .getMut i f, _ =>
    let (o, t) := getMut f (i + 1) m.tree
    some (⟨t⟩, .opt o)
  | .len, _ => some (m, .num (len m.tree))
  | .isEmpty, _ => some (m, .bool (match m.tree with | .nil => true | .node .. => false))
  | .clear, _ => some (⟨.nil⟩, .unit)
  | .iter n, _ => some (m, .opts (((Iter.start m.tree).take n).map (Option.map (·.2))))
  | .iterMut fs, _ =>
    let (es, t, _) := IterMut.runWrite fs m.tree IterMut.start
    some (⟨t⟩, .opts (es.map (Option.map (·.2))))

/-- The `TreapList` API as a state machine. -/
def impl (V : Type) : SeqImpl V where
  State := TreapList V
  Draw := Nat
  empty := TreapList.new
  step := step

/-- treap/list.rs:433-443 `Add`. -/
def TreapList.add (a b : TreapList V) : TreapList V := ⟨merge a.tree b.tree⟩

end Verif.Treap.Implicit
