/- Model of `bp_tree/node.rs`: the arrays of B+ tree nodes.
A boxed slice is a list of fixed length, an unused slot is `none` (or `0` for a pointer).  A loop over array
indices is written as a recursion over the rest of the array, so `arr[index..]` is the list that the recursion
is at.  `none` is a panic. -/
import Mathlib.Order.Basic
import Mathlib.Order.Compare
import Verif.Spec.OrdMap

namespace Verif.Bp

variable {K V : Type}

/-- node.rs:12-18 `InternalNode`. -/
structure INode (K : Type) where
  len : Nat
  keys : List (Option K)
  ptrs : List Nat
  deriving DecidableEq

/-- node.rs:178-183 `LeafNode`. -/
structure LNode (K V : Type) where
  len : Nat
  entries : List (Option (K × V))
  next : Option Nat
  deriving DecidableEq

/-- node.rs:359-364 `Node`. -/
inductive Node (K V : Type) where
  | internal (n : INode K)
  | leaf (n : LNode K V)
  | free (next : Option Nat)
  deriving DecidableEq

/-- node.rs:46-53 `InternalNode::new`. -/
def INode.new (deg : Nat) : INode K := ⟨0, List.replicate deg none, List.replicate (deg + 1) 0⟩

/-- node.rs:219-225 `LeafNode::new`. -/
def LNode.new (deg : Nat) : LNode K V := ⟨0, List.replicate deg none, none⟩

/-- `mem::swap` of neighbours from a slot with `x` up to the end of the list: `x` travels to the end
(the loops of node.rs:126-129 and 288-290). -/
def carry {α : Type} (x : α) : List α → List α
  | [] => [x]
  | y :: rest => y :: carry x rest

/-- The same, starting at the first slot of a list. -/
def bubble {α : Type} : List α → List α
  | [] => []
  | x :: rest => carry x rest

/-- Replace the last element of a list, returning it. -/
def takeLast {α : Type} (z : α) : List α → Option (List α × α)
  | [] => none
  | [x] => some ([z], x)
  | x :: y :: rest => (takeLast z (y :: rest)).map fun (l, e) => (x :: l, e)

section
variable [LinearOrder K]

/-- node.rs:69-77, the loop of `InternalNode::insert` with `is_right` on a node with room; the pointer list is
`pointers[index + 1..]`. -/
def insertRight (k : K) (p : Nat) : List (Option K) → List Nat → Option (List (Option K) × List Nat)
  | none :: ks, _ :: ps => some (some k :: ks, p :: ps)
  | some a :: ks, q :: ps =>
    if k < a then (insertRight a q ks ps).map fun (ks, ps) => (some k :: ks, p :: ps)
    else (insertRight k p ks ps).map fun (ks, ps) => (some a :: ks, q :: ps)
  | _, _ => none

/-- node.rs:69-80, the same loop without `is_right`; the pointer list is `pointers[index..]`. -/
def insertLeft (k : K) (p : Nat) : List (Option K) → List Nat → Option (List (Option K) × List Nat)
  | none :: ks, q :: _ :: ps => some (some k :: ks, p :: q :: ps)
  | some a :: ks, q :: ps =>
    if k < a then (insertLeft a q ks ps).map fun (ks, ps) => (some k :: ks, p :: ps)
    else (insertLeft k p ks ps).map fun (ks, ps) => (some a :: ks, q :: ps)
  | _, _ => none

/-- What the loop of the splitting case leaves: the arrays of `self`, what was moved to the new node, and the key
and pointer still in hand. -/
structure Moved (K : Type) where
  keys : List (Option K)
  ptrs : List Nat
  mkeys : List (Option K)
  mptrs : List Nat
  k : K
  p : Nat

/-- node.rs:88-106, the loop of `InternalNode::insert` with `is_right` on a full node.  `half` is
`(internal_degree + 1) / 2`, the pointer list is `pointers[index + 1..]`.  The keys from index `half + 1` on are
moved to the new node (slots `0..`), and the pointers to slots `1..`. -/
def splitLoop (half : Nat) (k : K) (p : Nat) : Nat → List (Option K) → List Nat → Option (Moved K)
  | _, [], ps => some ⟨[], ps, [], [], k, p⟩
  | i, a :: ks, q :: ps =>
    let sw : Bool := match a with | some a => decide (k < a) | none => false
    let slot := if sw then some k else a
    let slotp := if sw then p else q
    let k' := if sw then a.getD k else k
    let p' := if sw then q else p
    (splitLoop half k' p' (i + 1) ks ps).map fun m =>
      if half < i then ⟨none :: m.keys, 0 :: m.ptrs, slot :: m.mkeys, slotp :: m.mptrs, m.k, m.p⟩
      else ⟨slot :: m.keys, slotp :: m.ptrs, m.mkeys, m.mptrs, m.k, m.p⟩
  | _, _ :: _, [] => none

/-- Overwrite the beginning of an array. -/
def putFront {α : Type} (l arr : List α) : List α := l ++ arr.drop l.length

/-- node.rs:55-120 `InternalNode::insert` with `is_right = true`: the node, and the split key and new node if it
was full.  (The splitting case with `is_right = false` has no caller and is not modelled.) -/
def INode.insert (n : INode K) (k : K) (p : Nat) : Option (INode K × Option (K × INode K)) :=
  let deg := n.keys.length
  if n.len < deg then
    match n.ptrs with
    | [] => none
    | p0 :: ps => (insertRight k p n.keys ps).map fun (ks, ps) => (⟨n.len + 1, ks, p0 :: ps⟩, none)
  else
    let half := (deg + 1) / 2
    match n.ptrs with
    | [] => none
    | p0 :: ps =>
      if deg < 2 then none
      else
        match splitLoop half k p 0 n.keys ps with
        | none => none
        | some m =>
          let skeys := (putFront m.mkeys (INode.new deg : INode K).keys).set ((deg - 2) / 2) (some m.k)
          let sptrs := (putFront (0 :: m.mptrs) (INode.new deg : INode K).ptrs).set ((deg - 2) / 2 + 1) m.p
          match m.keys[half]?, (p0 :: m.ptrs)[half + 1]? with
          | some (some splitKey), some q =>
            some (⟨half, m.keys.set half none, (p0 :: m.ptrs).set (half + 1) 0⟩,
              some (splitKey, ⟨deg / 2, skeys, sptrs.set 0 q⟩))
          | _, _ => none

/-- node.rs:67-83 `InternalNode::insert` with `is_right = false` on a node with room (`none` on a full one: that
case has no caller). -/
def INode.insertFirst (n : INode K) (k : K) (p : Nat) : Option (INode K) :=
  if n.len < n.keys.length then
    (insertLeft k p n.keys n.ptrs).map fun (ks, ps) => ⟨n.len + 1, ks, ps⟩
  else none

end

/-- node.rs:122-140 `InternalNode::remove_at`.  With `is_right` the pointer after the key is removed, otherwise the
pointer before it (the swap of lines 132-134 continues the loop by one step). -/
def INode.removeAt (n : INode K) (i : Nat) (isRight : Bool) : Option (INode K × K × Nat) :=
  if i < n.len then
    let j := if isRight then i + 1 else i
    match takeLast none (bubble ((n.keys.take n.len).drop i)),
      takeLast 0 (bubble ((n.ptrs.take (n.len + 1)).drop j)) with
    | some (ks, some k), some (ps, p) =>
      some (⟨n.len - 1, n.keys.take i ++ ks ++ n.keys.drop n.len, n.ptrs.take j ++ ps ++ n.ptrs.drop (n.len + 1)⟩, k, p)
    | _, _ => none
  else none

section
variable [LinearOrder K]

/-- node.rs:147-162, the binary search of `InternalNode::search`; `hi` is stored plus one.  The first argument
bounds the rounds. -/
def searchLoop (keys : List (Option K)) (key : K) : Nat → Nat → Nat → Option Nat
  | 0, _, _ => none
  | f + 1, lo, hi =>
    if lo < hi then
      let mid := lo + (hi - 1 - lo) / 2
      match keys[mid]? with
      | none => none
      | some none => searchLoop keys key f lo mid
      | some (some a) => if a ≤ key then searchLoop keys key f (mid + 1) hi else searchLoop keys key f lo mid
    else some lo

/-- node.rs:142-163 `InternalNode::search`; line 148 underflows on an array of length 0. -/
def INode.search (n : INode K) (key : K) : Option Nat :=
  if n.keys.length = 0 then none else searchLoop n.keys key (n.keys.length + 1) 0 n.keys.length

end

/-- node.rs:165-175 `InternalNode::merge`: `self` after it. -/
def INode.merge (n : INode K) (k : K) (m : INode K) : Option (INode K) :=
  if n.len + m.len < n.keys.length then
    some ⟨n.len + m.len + 1,
      n.keys.take n.len ++ some k :: m.keys.take m.len ++ n.keys.drop (n.len + m.len + 1),
      n.ptrs.take (n.len + 1) ++ m.ptrs.take (m.len + 1) ++ n.ptrs.drop (n.len + m.len + 2)⟩
  else none

section
variable [LinearOrder K]

/-- The outcome of an insertion loop of a leaf. -/
inductive LeafLoop (K V : Type) where
  /-- The key was present: the array and the old entry. -/
  | dup (entries : List (Option (K × V))) (old : K × V)
  /-- The array and what was moved to the new node, with the entry still in hand. -/
  | fin (entries : List (Option (K × V))) (moved : List (Option (K × V))) (e : K × V)

/-- Prepend to the array of a `LeafLoop`. -/
def LeafLoop.cons (slot : Option (K × V)) : LeafLoop K V → LeafLoop K V
  | .dup l o => .dup (slot :: l) o
  | .fin l m e => .fin (slot :: l) m e

/-- Prepend to the moved entries of a `LeafLoop`, leaving an empty slot behind. -/
def LeafLoop.move (slot : Option (K × V)) : LeafLoop K V → LeafLoop K V
  | .dup l o => .dup (none :: l) o
  | .fin l m e => .fin (none :: l) (slot :: m) e

/-- node.rs:235-246, the loop of `LeafNode::insert` with room; `fin` here has put the entry into the first empty
slot. -/
def leafRoom (e : K × V) : List (Option (K × V)) → Option (LeafLoop K V)
  | [] => none
  | none :: l => some (.fin (some e :: l) [] e)
  | some a :: l =>
    if e.1 ≤ a.1 then
      if a.1 = e.1 then some (.dup (some e :: l) a) else (leafRoom a l).map (·.cons (some e))
    else (leafRoom e l).map (·.cons (some a))

/-- node.rs:251-266, the loop of `LeafNode::insert` on a full node.  `half` is `leaf_degree / 2`; the entries from
index `half + 1` on are moved to the new node. -/
def leafSplit (half : Nat) (e : K × V) : Nat → List (Option (K × V)) → LeafLoop K V
  | _, [] => .fin [] [] e
  | i, none :: l => (if half < i then LeafLoop.move none else LeafLoop.cons none) (leafSplit half e (i + 1) l)
  | i, some a :: l =>
    if e.1 ≤ a.1 then
      if a.1 = e.1 then .dup (some e :: l) a
      else (if half < i then LeafLoop.move (some e) else LeafLoop.cons (some e)) (leafSplit half a (i + 1) l)
    else (if half < i then LeafLoop.move (some a) else LeafLoop.cons (some a)) (leafSplit half e (i + 1) l)

/-- node.rs:185-191 `InsertCases`, with `none` of the `Option` around it as `done`. -/
inductive InsertCases (K V : Type) where
  | done
  | split (key : K) (node : LNode K V)
  | entry (e : K × V)

/-- node.rs:227-283 `LeafNode::insert`. -/
def LNode.insert (n : LNode K V) (e : K × V) : Option (LNode K V × InsertCases K V) :=
  let deg := n.entries.length
  if n.len < deg then
    match leafRoom e n.entries with
    | none => none
    | some (.dup l o) => some (⟨n.len, l, n.next⟩, .entry o)
    | some (.fin l _ _) => some (⟨n.len + 1, l, n.next⟩, .done)
  else
    match leafSplit (deg / 2) e 0 n.entries with
    | .dup l o => some (⟨n.len, l, n.next⟩, .entry o)
    | .fin l m c =>
      if deg = 0 then none
      else
        let s := (putFront m (LNode.new deg : LNode K V).entries).set ((deg - 1) / 2) (some c)
        match s[0]? with
        | some (some e0) => some (⟨(n.len + 2) / 2, l, n.next⟩, .split e0.1 ⟨(n.len + 1) / 2, s, n.next⟩)
        | _ => none

/-- node.rs:302-312: the slot holds the key. -/
def holdsKey (key : K) : Option (K × V) → Bool
  | some a => decide (key = a.1)
  | none => false

/-- node.rs:300-317, the loop of `LeafNode::remove` from a slot `x` and the slots after it: a matching entry is
swapped to the right until the end.  The second component is `removed`. -/
def removeFrom (key : K) (x : Option (K × V)) : List (Option (K × V)) → List (Option (K × V)) × Bool
  | [] => ([x], holdsKey key x)
  | y :: l =>
    if holdsKey key x then (y :: (removeFrom key x l).1, true)
    else (x :: (removeFrom key y l).1, (removeFrom key y l).2)

/-- node.rs:299-317, the loop of `LeafNode::remove` over the slots `0..len`. -/
def removeLoop (key : K) : List (Option (K × V)) → List (Option (K × V)) × Bool
  | [] => ([], false)
  | x :: l => removeFrom key x l

/-- node.rs:294-325 `LeafNode::remove`. -/
def LNode.remove (n : LNode K V) (key : K) : Option (LNode K V × Option (K × V)) :=
  let (l, removed) := removeLoop key (n.entries.take n.len)
  if removed then
    match takeLast none l with
    | none => none
    | some (l, o) => some (⟨n.len - 1, l ++ n.entries.drop n.len, n.next⟩, o)
  else some (⟨n.len, l ++ n.entries.drop n.len, n.next⟩, none)

/-- node.rs:332-345, the binary search of `LeafNode::search`; `hi` is stored plus one. -/
def leafSearchLoop (entries : List (Option (K × V))) (key : K) : Nat → Nat → Nat → Option (Option Nat)
  | 0, _, _ => none
  | f + 1, lo, hi =>
    if lo < hi then
      let mid := lo + (hi - 1 - lo) / 2
      match entries[mid]? with
      | none => none
      | some none => leafSearchLoop entries key f lo mid
      | some (some a) =>
        if a.1 < key then leafSearchLoop entries key f (mid + 1) hi
        else if a.1 = key then some (some mid)
        else leafSearchLoop entries key f lo mid
    else some none

/-- node.rs:327-346 `LeafNode::search`. -/
def LNode.search (n : LNode K V) (key : K) : Option (Option Nat) :=
  if n.entries.length = 0 then none else leafSearchLoop n.entries key (n.entries.length + 1) 0 n.entries.length

end

/-- node.rs:285-292 `LeafNode::remove_at`. -/
def LNode.removeAt (n : LNode K V) (i : Nat) : Option (LNode K V × (K × V)) :=
  if i < n.len then
    match takeLast none (bubble ((n.entries.take n.len).drop i)) with
    | some (l, some e) => some (⟨n.len - 1, n.entries.take i ++ l ++ n.entries.drop n.len, n.next⟩, e)
    | _ => none
  else none

/-- node.rs:348-356 `LeafNode::merge`: `self` after it. -/
def LNode.merge (n m : LNode K V) : Option (LNode K V) :=
  if n.len + m.len ≤ n.entries.length then
    some ⟨n.len + m.len, n.entries.take n.len ++ m.entries.take m.len ++ n.entries.drop (n.len + m.len), m.next⟩
  else none

end Verif.Bp
