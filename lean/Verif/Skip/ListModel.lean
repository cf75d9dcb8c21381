/- Model of `skiplist/list.rs` (`SkipList`).
Simplifications: as for `SkipMap` (MapModel.lean): `usize` is an unbounded natural, with subtractions that
would wrap or panic modelled as `none`; nodes live in a heap owned by the list; every call that allocates
receives the random height and a number that picks the address of the new node; the `&mut *mut Node` cursor
is represented by the address it points to. -/
import Verif.Spec.Seq
import Verif.Skip.IntoIter

namespace Verif.Skip.Lst

open Verif.Spec

/-- list.rs:21 `MAX_HEIGHT`. -/
def maxHeight : Nat := 32

/-- list.rs:9-12 `Link`. -/
structure Link where
  next : Option Addr
  dist : Nat
  deriving DecidableEq

/-- The all-zero bytes of a link (list.rs:54, 442). -/
def Link.zero : Link := ⟨none, 0⟩

/-- list.rs:14-19: nodes with a value and a tower of links. -/
abbrev LHeap (V : Type) := Heap V Link

/-- list.rs:101-105 `SkipList`, with its nodes.  Every address in use is below `bump`. -/
structure SkipList (V : Type) where
  mem : LHeap V
  head : Addr
  len : Nat
  bump : Nat

variable {V : Type}

/-- list.rs:48-56 `Node::allocate(MAX_HEIGHT + 1)`. -/
def headNode : Node V Link := ⟨none, List.replicate (maxHeight + 1) .zero⟩

/-- list.rs:117-123 `new`, with the head at address `a`. -/
def SkipList.new (a : Addr) : SkipList V := ⟨Heap.put (fun _ => none) a headNode, a, 0, a + 1⟩

/-- `a - b` on `usize`: `none` when it would be negative. -/
def sub (a b : Nat) : Option Nat := if b ≤ a then some (a - b) else none

/-- A position in a descent: the node, the index relative to it, the distance walked on this level and the
link of the node at this level. -/
structure Cursor where
  cur : Addr
  index : Nat
  walked : Nat
  link : Link
  deriving DecidableEq

/-- The inner loop of every descent (list.rs:154-160, 210-215, 331-336, 371-376): follow level `i` while
there is a next node and its distance is at most `index`.  The first argument bounds the number of steps. -/
def walk (m : LHeap V) (i : Nat) : Nat → Addr → Nat → Nat → Option Cursor
  | 0, _, _, _ => none
  | f + 1, cur, index, walked =>
    match getLink m cur i with
    | none => none
    | some ⟨none, d⟩ => some ⟨cur, index, walked, ⟨none, d⟩⟩
    | some ⟨some b, d⟩ =>
      if d ≤ index then walk m i f b (index - d) (walked + d) else some ⟨cur, index, walked, ⟨some b, d⟩⟩

/-- list.rs:163-171: move the link at level `i` to the new node and point to the new node instead. -/
def linkNew (new : Addr) (nh i : Nat) (c : Cursor) (m : LHeap V) : Option (LHeap V) :=
  if i ≤ nh then
    match setLink m c.cur i ⟨some new, 1⟩ with
    | none => none
    | some m => setLink m new i c.link
  else some m

/-- list.rs:153-178: the descent of `insert` from level `i`; the result lists `last_nodes` for the levels
`0`, `1`, … (`acc` holds those of the levels above `i`). -/
def insertDown (fuel : Nat) (new : Addr) (nh : Nat) : Nat → LHeap V → Addr → Nat → List (Addr × Nat) →
    Option (LHeap V × List (Addr × Nat))
  | i, m, cur, index, acc =>
    match walk m i fuel cur index 0 with
    | none => none
    | some c =>
      match linkNew new nh i c m with
      | none => none
      | some m =>
        match i with
        | 0 => some (m, (c.cur, c.walked) :: acc)
        | i + 1 => insertDown fuel new nh i m c.cur c.index ((c.cur, c.walked) :: acc)

/-- list.rs:182-187, the updates of one level; `s` is `last_nodes[i - 1].1` and `c` is `last_nodes[i].0`. -/
def fixLevel (new : Addr) (nh i s : Nat) (c : Addr) (m : LHeap V) : Option (LHeap V) :=
  if i ≤ nh then do
    let l ← getLink m c i
    let m ← setLink m c i ⟨l.next, s + 1⟩
    let l' ← getLink m new i
    let d ← sub l'.dist s
    setLink m new i ⟨l'.next, d⟩
  else do
    let l ← getLink m c i
    setLink m c i ⟨l.next, l.dist + 1⟩

/-- list.rs:180-188: the ascent of `insert`, from level `i` on; `s` is `last_nodes[i - 1].1`. -/
def fixUp (new : Addr) (nh : Nat) : Nat → Nat → List (Addr × Nat) → LHeap V → Option (LHeap V)
  | _, _, [], m => some m
  | i, s, (c, w) :: rest, m =>
    match fixLevel new nh i s c m with
    | none => none
    | some m => fixUp new nh (i + 1) (w + s) rest m

/-- list.rs:143-190 `insert`; `nh` is the drawn height (`leading_zeros` of a `u32`, list.rs:125-127). -/
def SkipList.insert (s : SkipList V) (index : Nat) (value : V) (nh off : Nat) : Option (SkipList V) :=
  if index ≤ s.len then do
    let new := s.bump + off
    let mem := s.mem.put new ⟨some value, List.replicate (nh + 1) .zero⟩
    let (mem, last) ← insertDown (s.len + 1) new nh maxHeight mem s.head index []
    match last with
    | [] => none
    | (_, w) :: rest =>
      let mem ← fixUp new nh 1 w rest mem
      return ⟨mem, s.head, s.len + 1, new + 1⟩
  else none

/-- list.rs:217-231: one level of `remove`; the result says which node (if any) was unlinked. -/
def unlink (i : Nat) (c : Cursor) (m : LHeap V) : Option (LHeap V × Option Addr) :=
  match c.link.next with
  | none => some (m, none)
  | some b =>
    if c.link.dist = c.index + 1 then do
      let l ← getLink m b i
      let m ← setLink m b i c.link
      let d ← sub c.link.dist 1
      let m ← setLink m c.cur i ⟨l.next, l.dist + d⟩
      return (m, some b)
    else do
      let d ← sub c.link.dist 1
      let m ← setLink m c.cur i ⟨some b, d⟩
      return (m, none)

/-- list.rs:209-234: the descent of `remove` from level `i`; the result is the memory and the value read.
Leaving level 0 without a result would underflow `curr_height`. -/
def removeDown (fuel : Nat) : Nat → LHeap V → Addr → Nat → Option (LHeap V × V)
  | i, m, cur, index =>
    match walk m i fuel cur index 0 with
    | none => none
    | some c =>
      match unlink i c m with
      | none => none
      | some (m, o) =>
        match i, o with
        | 0, none => none
        | 0, some b => do
          let v ← entryAt m b
          let m ← m.free b
          return (m, v)
        | i + 1, _ => removeDown fuel i m c.cur c.index

/-- list.rs:203-236 `remove`. -/
def SkipList.remove (s : SkipList V) (index : Nat) : Option (SkipList V × V) :=
  if index < s.len then do
    let (m, v) ← removeDown (s.len + 1) maxHeight s.mem s.head index
    let n ← sub s.len 1
    return (⟨m, s.head, n, s.bump⟩, v)
  else none

/-- list.rs:325-350, 365-390: the search of `get` and `get_mut`; the node found, if any. -/
def lookup (m : LHeap V) (fuel : Nat) : Nat → Addr → Nat → Option (Option Addr)
  | i, cur, index =>
    match walk m i fuel cur index 0 with
    | none => none
    | some c =>
      match c.link.next, decide (c.link.dist = c.index + 1), i with
      | some b, true, _ => some (some b)
      | _, _, 0 => some none
      | _, _, i + 1 => lookup m fuel i c.cur c.index

/-- list.rs:325-350 `get`. -/
def SkipList.get (s : SkipList V) (index : Nat) : Option (Option V) := do
  let o ← lookup s.mem (s.len + 1) maxHeight s.head index
  match o with
  | none => some none
  | some b => (entryAt s.mem b).map some

/-- A write through a reference to a value; returns the old value. -/
def modifyAt (m : LHeap V) (b : Addr) (f : V → V) : Option (LHeap V × V) :=
  match m b with
  | some ⟨some v, ls⟩ => some (m.put b ⟨some (f v), ls⟩, v)
  | _ => none

/-- list.rs:365-390 `get_mut`, the reference being used to apply `f`. -/
def SkipList.getMut (s : SkipList V) (index : Nat) (f : V → V) : Option (SkipList V × Option V) := do
  let o ← lookup s.mem (s.len + 1) maxHeight s.head index
  match o with
  | none => some (s, none)
  | some b => (modifyAt s.mem b f).map fun (m, v) => ({ s with mem := m }, some v)

/-- list.rs:438-441, 504-507: free the nodes of the bottom level. -/
def freeAll (m : LHeap V) : Nat → Option Addr → Option (LHeap V)
  | _, none => some m
  | 0, some _ => none
  | f + 1, some a => do
    let l ← getLink m a 0
    let m ← m.free a
    freeAll m f l.next

/-- list.rs:434-444 `clear`. -/
def SkipList.clear (s : SkipList V) : Option (SkipList V) := do
  let l ← getLink s.mem s.head 0
  let m ← freeAll s.mem s.len l.next
  let m ← zeroLinks m .zero s.head
  return { s with mem := m, len := 0 }

/-- list.rs:499-510 `drop`: the heap that remains. -/
def SkipList.drop (s : SkipList V) : Option (LHeap V) := do
  let l ← getLink s.mem s.head 0
  let m ← s.mem.free s.head
  freeAll m s.len l.next

/-- list.rs:600-611: `n` calls of `next()` on an `iter()`. -/
def iterate (m : LHeap V) : Nat → Option Addr → Option (List (Option V))
  | 0, _ => some []
  | n + 1, none => (iterate m n none).map (none :: ·)
  | n + 1, some a => do
    let v ← entryAt m a
    let l ← getLink m a 0
    let r ← iterate m n l.next
    return some v :: r

/-- list.rs:462-468 `iter`. -/
def SkipList.iter (s : SkipList V) (n : Nat) : Option (List (Option V)) := do
  let l ← getLink s.mem s.head 0
  iterate s.mem n l.next

/-- list.rs:627-638: calls of `next()` on an `iter_mut()`, one per function, which is applied to the value. -/
def iterateMut (m : LHeap V) : List (V → V) → Option Addr → Option (LHeap V × List (Option V))
  | [], _ => some (m, [])
  | _ :: fs, none => (iterateMut m fs none).map fun (m, r) => (m, none :: r)
  | f :: fs, some a => do
    let (m, v) ← modifyAt m a f
    let l ← getLink m a 0
    let (m, r) ← iterateMut m fs l.next
    return (m, some v :: r)

/-- list.rs:490-496 `iter_mut`. -/
def SkipList.iterMut (s : SkipList V) (fs : List (V → V)) : Option (SkipList V × List (Option V)) := do
  let l ← getLink s.mem s.head 0
  let (m, r) ← iterateMut s.mem fs l.next
  return ({ s with mem := m }, r)

/-- list.rs:516-524 `into_iter`: the head is emptied and then dropped with the list (499-510). -/
def SkipList.intoIter (s : SkipList V) : Option (IntoIter V Link) := do
  let l ← getLink s.mem s.head 0
  let m ← zeroLinks s.mem .zero s.head
  let m ← m.free s.head
  return ⟨m, l.next, [], []⟩

/-- list.rs:653-666: the last node of every level `0`, …, `h`, from node `cur`. -/
def lasts (m : LHeap V) : Nat → Nat → Addr → List Addr → Option (List Addr)
  | 0, _, _, _ => none
  | f + 1, h, cur, acc =>
    match getLink m cur h with
    | none => none
    | some ⟨some b, _⟩ => lasts m f h b acc
    | some ⟨none, _⟩ =>
      match h with
      | 0 => some (cur :: acc)
      | h + 1 => lasts m f h cur (cur :: acc)

/-- list.rs:668-675: swap the links of the last nodes with those of the other head, level by level. -/
def join (ohead : Addr) : Nat → List Addr → LHeap V → Option (LHeap V)
  | _, [], m => some m
  | i, c :: cs, m => do
    let l ← getLink m c i
    let l' ← getLink m ohead i
    let m ← setLink m c i ⟨l'.next, l'.dist + l.dist⟩
    let m ← setLink m ohead i l
    join ohead (i + 1) cs m

/-- list.rs:647-679 `Add`.  The nodes of both lists are in one memory; `other` is dropped at the end (499-510). -/
def SkipList.append (s o : SkipList V) : Option (SkipList V) := do
  let mem : LHeap V := fun a => (s.mem a).or (o.mem a)
  let cs ← lasts mem (s.len + maxHeight + 1) maxHeight s.head []
  let mem ← join o.head 0 cs mem
  let l ← getLink mem o.head 0
  let mem ← mem.free o.head
  let mem ← freeAll mem o.len l.next
  return ⟨mem, s.head, s.len + o.len, Nat.max s.bump o.bump⟩

/-- A random height (the number of leading zeros of a `u32`) and an address choice. -/
abbrev Draw := Fin 33 × Nat

/-- list.rs: `insert` 143-190, `remove` 203-236, `push_front` 250-252, `push_back` 266-269, `pop_front` 287-289,
`pop_back` 307-310, `get` 325-350, `Index` 681-687, `get_mut` 365-390, `len` 403-405, `is_empty` 417-419,
`clear` 434-444, `iter` 462-468, `iter_mut` 490-496. -/
def step (s : SkipList V) : SeqOp V → Draw → Option (SkipList V × SeqRes V)
  | .insert i v, d => (s.insert i v d.1 d.2).map fun s => (s, .unit)
  | .remove i, _ => (s.remove i).map fun (s, v) => (s, .val v)
  | .pushFront v, d => (s.insert 0 v d.1 d.2).map fun s => (s, .unit)
  | .pushBack v, d => (s.insert s.len v d.1 d.2).map fun s => (s, .unit)
  | .popFront, _ => (s.remove 0).map fun (s, v) => (s, .val v)
  | .popBack, _ => (sub s.len 1).bind fun i => (s.remove i).map fun (s, v) => (s, .val v)
  | .get i, _ => (s.get i).map fun o => (s, .opt o)
  | .index i, _ => (s.get i).bind fun o => o.map fun v => (s, .val v)
  | .getMut i f, _ => (s.getMut i f).map fun (s, o) => (s, .opt o)
  | .len, _ => some (s, .num s.len)
  | .isEmpty, _ => some (s, .bool (s.len == 0))
  | .clear, _ => s.clear.map fun s => (s, .unit)
  | .iter n, _ => (s.iter n).map fun l => (s, .opts l)
  | .iterMut fs, _ => (s.iterMut fs).map fun (s, l) => (s, .opts l)

/-- The `SkipList` API as a state machine; the head of the initial list is at address `a`. -/
def impl (V : Type) (a : Addr) : SeqImpl V where
  State := SkipList V
  Draw := Draw
  empty := SkipList.new a
  step := step

end Verif.Skip.Lst
