/- Model of `skiplist/map.rs` (`SkipMap`) and, with unit values, of `skiplist/set.rs`.
Simplifications: `usize` is an unbounded natural; nodes live in a heap owned by the map; every call that
allocates receives the random height and a number that picks the address of the new node above all
addresses in use (the code never inspects addresses except for equality); the `&mut *mut Node` cursor
`curr_node` is represented by the address it points to (the slot it refers to lies in an earlier node than
the slots written through it, so its contents do not change while it is live). -/
import Verif.Spec.OrdMap
import Verif.Skip.IntoIter

namespace Verif.Skip.Map

open Verif.Spec

/-- skiplist/map.rs:17 `MAX_HEIGHT`. -/
def maxHeight : Nat := 32

/-- skiplist/map.rs:13-14: entries are key-value pairs, links are nullable node pointers. -/
abbrev MHeap (K V : Type) := Heap (K × V) (Option Addr)

/-- skiplist/map.rs:95-99 `SkipMap`, with its nodes.  Every address in use is below `bump`. -/
structure SkipMap (K V : Type) where
  mem : MHeap K V
  head : Addr
  len : Nat
  bump : Nat

variable {K V : Type}

/-- skiplist/map.rs:44-52 `Node::allocate(links_len)`: a fresh node with null links and no entry. -/
def headNode : Node (K × V) (Option Addr) := ⟨none, List.replicate (maxHeight + 1) none⟩

/-- skiplist/map.rs:111-117 `new`, with the head at address `a`. -/
def SkipMap.new (a : Addr) : SkipMap K V := ⟨Heap.put (fun _ => none) a headNode, a, 0, a + 1⟩

/-- skiplist/map.rs:119-121 `get_starting_height`: the number of significant bits of `len as u32`. -/
def startHeight (len : Nat) : Nat := if len % 2 ^ 32 = 0 then 0 else Nat.log2 (len % 2 ^ 32) + 1

/-- The inner loop of every descent (map.rs:154-158, 213-217, 286-290, 329-333, 426-430, 468-472,
534-538): follow level `i` from `cur` while the next node exists and satisfies `p`; returns the last node
reached and the pointer that ended the loop.  The first argument bounds the number of steps. -/
def walk (m : MHeap K V) (p : K × V → Bool) (i : Nat) : Nat → Addr → Option (Addr × Option Addr)
  | 0, _ => none
  | f + 1, cur =>
    match getLink m cur i with
    | none => none
    | some none => some (cur, none)
    | some (some b) =>
      match entryAt m b with
      | none => none
      | some e => if p e then walk m p i f b else some (cur, some b)

/-- The mutable locals of `insert` and `remove` (map.rs:145-150, 207-209). -/
structure Work (K V : Type) where
  mem : MHeap K V
  cur : Addr
  ret : Option (K × V)
  len : Nat

/-- `self.len -= 1`, which panics (or wraps) at zero. -/
def dec : Nat → Option Nat
  | 0 => none
  | n + 1 => some n

/-- map.rs:164-171, 223-230: at the bottom level the unlinked node is read and deallocated. -/
def release (i : Nat) (b : Addr) (e : K × V) (w : Work K V) : Option (Work K V) :=
  match i with
  | 0 => do
    let m ← w.mem.free b
    let n ← dec w.len
    return { w with mem := m, ret := some e, len := n }
  | _ + 1 => some w

variable [LinearOrder K]

/-- map.rs:160-172, 219-231: if the next node has the key, unlink it at level `i`. -/
def unlink (key : K) (i : Nat) (w : Work K V) : Option Addr → Option (Work K V)
  | none => some w
  | some b =>
    match entryAt w.mem b with
    | none => none
    | some e =>
      if e.1 = key then do
        let l ← getLink w.mem b i
        let m ← setLink w.mem w.cur i l
        release i b e { w with mem := m }
      else some w

/-- map.rs:174-177: link the new node (of height `nh`) at level `i` after `cur`. -/
def linkNew (new : Addr) (nh : Nat) (i : Nat) (w : Work K V) : Option (Work K V) :=
  if i ≤ nh then do
    let l ← getLink w.mem w.cur i
    let m ← setLink w.mem w.cur i (some new)
    let m ← setLink m new i l
    return { w with mem := m }
  else some w

/-- map.rs:153-178, one iteration of the outer loop of `insert`. -/
def insertLevel (fuel : Nat) (new : Addr) (nh : Nat) (key : K) (i : Nat) (w : Work K V) :
    Option (Work K V) := do
  let (cur, nxt) ← walk w.mem (fun e => decide (e.1 < key)) i fuel w.cur
  let w ← unlink key i { w with cur := cur } nxt
  linkNew new nh i w

/-- map.rs:212-232, one iteration of the outer loop of `remove`. -/
def removeLevel (fuel : Nat) (key : K) (i : Nat) (w : Work K V) : Option (Work K V) := do
  let (cur, nxt) ← walk w.mem (fun e => decide (e.1 < key)) i fuel w.cur
  unlink key i { w with cur := cur } nxt

/-- The outer loops (map.rs:153-184, 212-238): the body for level `i`, `i - 1`, …, `0`. -/
def downFrom (body : Nat → Work K V → Option (Work K V)) : Nat → Work K V → Option (Work K V)
  | 0, w => body 0 w
  | i + 1, w => do
    let w ← body (i + 1) w
    downFrom body i w

/-- map.rs:141-187 `insert`.  `nh` is the drawn height (`leading_zeros` of a `u32`, map.rs:123-125). -/
def SkipMap.insert (s : SkipMap K V) (key : K) (value : V) (nh : Nat) (off : Nat) :
    Option (SkipMap K V × Option (K × V)) := do
  let new := s.bump + off
  let mem := s.mem.put new ⟨some (key, value), List.replicate (nh + 1) none⟩
  let w ← downFrom (insertLevel (s.len + 1) new nh key) maxHeight ⟨mem, s.head, none, s.len + 1⟩
  return (⟨w.mem, s.head, w.len, new + 1⟩, w.ret)

/-- map.rs:202-241 `remove`. -/
def SkipMap.remove (s : SkipMap K V) (key : K) : Option (SkipMap K V × Option (K × V)) := do
  let w ← downFrom (removeLevel (s.len + 1) key) maxHeight ⟨s.mem, s.head, none, s.len⟩
  return (⟨w.mem, s.head, w.len, s.bump⟩, w.ret)

/-- map.rs:292-294, 335-337: the next node, if it has the key. -/
def hit (m : MHeap K V) (key : K) : Option Addr → Option (Option Addr)
  | none => some none
  | some b =>
    match entryAt m b with
    | none => none
    | some e => if e.1 = key then some (some b) else some none

/-- map.rs:281-302, 324-345: the search of `get` and `get_mut`; the node with the key, if any. -/
def lookup (m : MHeap K V) (key : K) (fuel : Nat) : Nat → Addr → Option (Option Addr)
  | i, cur =>
    match walk m (fun e => decide (e.1 < key)) i fuel cur with
    | none => none
    | some (cur', nxt) =>
      match hit m key nxt with
      | none => none
      | some (some b) => some (some b)
      | some none =>
        match i with
        | 0 => some none
        | i + 1 => lookup m key fuel i cur'

/-- map.rs:276-304 `get` (with the key of the entry found). -/
def SkipMap.get (s : SkipMap K V) (key : K) : Option (Option (K × V)) := do
  let o ← lookup s.mem key (s.len + 1) (startHeight s.len) s.head
  match o with
  | none => some none
  | some b => (entryAt s.mem b).map some

/-- The write through the reference returned by `get_mut` or by `iter_mut`. -/
def modifyAt (m : MHeap K V) (b : Addr) (f : V → V) : Option (MHeap K V × (K × V)) :=
  match m b with
  | some ⟨some e, ls⟩ => some (m.put b ⟨some (e.1, f e.2), ls⟩, e)
  | _ => none

/-- map.rs:319-347 `get_mut`, the reference being used to apply `f`. -/
def SkipMap.getMut (s : SkipMap K V) (key : K) (f : V → V) :
    Option (SkipMap K V × Option (K × V)) := do
  let o ← lookup s.mem key (s.len + 1) (startHeight s.len) s.head
  match o with
  | none => some (s, none)
  | some b => (modifyAt s.mem b f).map fun (m, e) => ({ s with mem := m }, some e)

/-- The descents of `floor`, `ceil` and `max` (map.rs:424-442, 466-484, 532-550): walk every level down to 0. -/
def descend (m : MHeap K V) (p : K × V → Bool) (fuel : Nat) : Nat → Addr → Option (Addr × Option Addr)
  | 0, cur => walk m p 0 fuel cur
  | i + 1, cur =>
    match walk m p (i + 1) fuel cur with
    | none => none
    | some (cur', _) => descend m p fuel i cur'

/-- map.rs:433-437, 541-545: the entry of the last node, unless it is the head. -/
def orHead (s : SkipMap K V) (a : Addr) : Option (Option (K × V)) :=
  if a = s.head then some none else (entryAt s.mem a).map some

/-- map.rs:475-479, 505-509: the entry of a node, unless the pointer is null. -/
def orNull (s : SkipMap K V) : Option Addr → Option (Option (K × V))
  | none => some none
  | some a => (entryAt s.mem a).map some

/-- map.rs:416-443 `floor`. -/
def SkipMap.floor (s : SkipMap K V) (key : K) : Option (Option (K × V)) := do
  let (cur, _) ← descend s.mem (fun e => decide (e.1 ≤ key)) (s.len + 1) (startHeight s.len) s.head
  orHead s cur

/-- map.rs:458-485 `ceil`. -/
def SkipMap.ceil (s : SkipMap K V) (key : K) : Option (Option (K × V)) := do
  let (_, nxt) ← descend s.mem (fun e => decide (e.1 < key)) (s.len + 1) (startHeight s.len) s.head
  orNull s nxt

omit [LinearOrder K] in
/-- map.rs:499-511 `min`. -/
def SkipMap.min (s : SkipMap K V) : Option (Option (K × V)) := do
  let nxt ← getLink s.mem s.head 0
  orNull s nxt

omit [LinearOrder K] in
/-- map.rs:525-551 `max`. -/
def SkipMap.max (s : SkipMap K V) : Option (Option (K × V)) := do
  let (cur, _) ← descend s.mem (fun _ => true) (s.len + 1) (startHeight s.len) s.head
  orHead s cur

omit [LinearOrder K] in
/-- map.rs:1044-1055 `next()` of `iter()` until it returns `None` (the first argument bounds the number of
calls). -/
def collect (m : MHeap K V) : Nat → Option Addr → Option (List (K × V))
  | _, none => some []
  | 0, some _ => none
  | f + 1, some a => do
    let e ← entryAt m a
    let nxt ← getLink m a 0
    let l ← collect m f nxt
    return e :: l

omit [LinearOrder K] in
/-- map.rs:901-907 `iter` (and 956-964, 1003-1014 `into_iter` as far as the items are concerned). -/
def SkipMap.iter (s : SkipMap K V) : Option (List (K × V)) := do
  let first ← getLink s.mem s.head 0
  collect s.mem s.len first

omit [LinearOrder K] in
/-- map.rs:395-398, 944-947: free the nodes of the bottom level. -/
def freeAll (m : MHeap K V) : Nat → Option Addr → Option (MHeap K V)
  | _, none => some m
  | 0, some _ => none
  | f + 1, some a => do
    let nxt ← getLink m a 0
    let m ← m.free a
    freeAll m f nxt

omit [LinearOrder K] in
/-- map.rs:391-401 `clear`. -/
def SkipMap.clear (s : SkipMap K V) : Option (SkipMap K V) := do
  let first ← getLink s.mem s.head 0
  let m ← freeAll s.mem s.len first
  let m ← zeroLinks m none s.head
  return { s with mem := m, len := 0 }

omit [LinearOrder K] in
/-- map.rs:939-950 `drop`: the heap that remains. -/
def SkipMap.drop (s : SkipMap K V) : Option (MHeap K V) := do
  let first ← getLink s.mem s.head 0
  let m ← s.mem.free s.head
  freeAll m s.len first

omit [LinearOrder K] in
/-- map.rs:956-964 `into_iter`: the iterator takes the bottom chain, the head is emptied and then dropped with
the map (939-950). -/
def SkipMap.intoIter (s : SkipMap K V) : Option (IntoIter (K × V) (Option Addr)) := do
  let current ← getLink s.mem s.head 0
  let m ← zeroLinks s.mem none s.head
  let m ← m.free s.head
  return ⟨m, current, [], []⟩

/-- A random height (the number of leading zeros of a `u32`) and an address choice. -/
abbrev Draw := Fin 33 × Nat

/-- map.rs: `insert` 141-187, `remove` 202-241, `contains_key` 255-261, `get` 276-304, `get_mut` 319-347,
`len` 360-362, `is_empty` 374-376, `clear` 391-401, `floor` 416-443, `ceil` 458-485, `min` 499-511, `max`
525-551, `iter` 901-907. -/
def step (s : SkipMap K V) : MapOp K V → Draw → Option (SkipMap K V × MapRes K V)
  | .insert k v, d => (s.insert k v d.1 d.2).map fun (s, r) => (s, .pair r)
  | .remove k, _ => (s.remove k).map fun (s, r) => (s, .pair r)
  | .get k, _ => (s.get k).map fun o => (s, .val (o.map (·.2)))
  | .containsKey k, _ => (s.get k).map fun o => (s, .bool o.isSome)
  | .getMut k f, _ => (s.getMut k f).map fun (s, o) => (s, .val (o.map (·.2)))
  | .floor k, _ => (s.floor k).map fun o => (s, .key (o.map (·.1)))
  | .ceil k, _ => (s.ceil k).map fun o => (s, .key (o.map (·.1)))
  | .min, _ => s.min.map fun o => (s, .key (o.map (·.1)))
  | .max, _ => s.max.map fun o => (s, .key (o.map (·.1)))
  | .len, _ => some (s, .num s.len)
  | .isEmpty, _ => some (s, .bool (s.len == 0))
  | .iter, _ => s.iter.map fun l => (s, .list l)
  | .clear, _ => s.clear.map fun s => (s, .unit)

/-- The `SkipMap` API as a state machine; the head of the initial map is at address `a`. -/
def impl (K V : Type) [LinearOrder K] (a : Addr) : MapImpl K V where
  State := SkipMap K V
  Draw := Draw
  empty := SkipMap.new a
  step := step

/-! ### The set operations -/

/-- The locals of `union`, `intersection`, `map_difference` (map.rs:580-593, 672-685, 747-760); `left` and
`right` are `left.head` and `right.head` during the loop. -/
structure Merge (K V : Type) where
  mem : MHeap K V
  left : Option Addr
  right : Option Addr
  curr : List Addr
  len : Nat

omit [LinearOrder K] in
/-- `let next = *(*left.head).get_pointer(0); mem::replace(&mut left.head, next)`; `left.head` may be null,
in which case the read is undefined. -/
def popL (s : Merge K V) : Option (Addr × Merge K V) :=
  match s.left with
  | none => none
  | some a => (getLink s.mem a 0).map fun nxt => (a, { s with left := nxt })

omit [LinearOrder K] in
/-- The same for `right`. -/
def popR (s : Merge K V) : Option (Addr × Merge K V) :=
  match s.right with
  | none => none
  | some a => (getLink s.mem a 0).map fun nxt => (a, { s with right := nxt })

omit [LinearOrder K] in
/-- `Node::free`. -/
def freeNode (s : Merge K V) (a : Addr) : Option (Merge K V) :=
  (s.mem.free a).map fun m => { s with mem := m }

omit [LinearOrder K] in
/-- Take the left node as `next_node`. -/
def takeL (s : Merge K V) : Option (Merge K V × Option Addr) := (popL s).map fun (a, s) => (s, some a)
omit [LinearOrder K] in
/-- Take the right node as `next_node`. -/
def takeR (s : Merge K V) : Option (Merge K V × Option Addr) := (popR s).map fun (a, s) => (s, some a)
omit [LinearOrder K] in
/-- Free the left node and `continue`. -/
def dropL (s : Merge K V) : Option (Merge K V × Option Addr) := do
  let (a, s) ← popL s
  let s ← freeNode s a
  return (s, none)
omit [LinearOrder K] in
/-- Free the right node and `continue`. -/
def dropR (s : Merge K V) : Option (Merge K V × Option Addr) := do
  let (a, s) ← popR s
  let s ← freeNode s a
  return (s, none)

/-- `(*left.head).entry.cmp(&(*right.head).entry)`; entries compare by key (entry.rs:10-17). -/
def compareAt (m : MHeap K V) (a b : Addr) : Option Ordering :=
  match entryAt m a, entryAt m b with
  | some e, some e' => some (compare e.1 e'.1)
  | _, _ => none

/-- map.rs:597-625: one iteration of `union` up to the choice of `next_node` (`none`: `continue`). -/
def unionPick (s : Merge K V) : Option (Merge K V × Option Addr) :=
  match s.left, s.right with
  | some a, some b =>
    match compareAt s.mem a b with
    | none => none
    | some .eq => dropR s
    | some .lt => takeL s
    | some .gt => takeR s
  | none, _ => takeR s
  | some _, none => takeL s

/-- map.rs:689-722 (`intersection`). -/
def interPick (s : Merge K V) : Option (Merge K V × Option Addr) :=
  match s.left, s.right with
  | some a, some b =>
    match compareAt s.mem a b with
    | none => none
    | some .eq => do
      let (a, s) ← popL s
      let (b, s) ← popR s
      let s ← freeNode s b
      return (s, some a)
    | some .lt => dropL s
    | some .gt => dropR s
  | none, _ => dropR s
  | some _, none => dropL s

/-- map.rs:764-804 (`map_difference`); in the last case (800-803) `right.head`, which is null, is
dereferenced. -/
def diffPick (sym : Bool) (s : Merge K V) : Option (Merge K V × Option Addr) :=
  match s.left, s.right with
  | some a, some b =>
    match compareAt s.mem a b with
    | none => none
    | some .eq => do
      let (a, s) ← popL s
      let (b, s) ← popR s
      let s ← freeNode s a
      let s ← freeNode s b
      return (s, none)
    | some .lt => takeL s
    | some .gt => if sym then takeR s else dropR s
  | none, _ => if sym then takeR s else dropR s
  | some _, none => takeR s

omit [LinearOrder K] in
/-- map.rs:635-638 (732-735, 814-817): `next_node` is appended at the levels `i`, `i + 1`, …, for `n` levels,
as far as `curr_nodes` goes. -/
def relink (next : Addr) : Nat → Nat → MHeap K V × List Addr → Option (MHeap K V × List Addr)
  | _, 0, p => some p
  | i, n + 1, (m, curr) =>
    match curr[i]? with
    | none => some (m, curr)
    | some c =>
      match setLink m c i (some next) with
      | none => none
      | some m => relink next (i + 1) n (m, curr.set i next)

omit [LinearOrder K] in
/-- map.rs:626-638 (723-735, 805-817): append `next_node`; `extra` is 0 for `take(links_len)` and 1 for the
`take(links_len + 1)` of `intersection`. -/
def append (extra : Nat) (next : Addr) (s : Merge K V) : Option (Merge K V) :=
  match zeroLinks s.mem none next with
  | none => none
  | some m =>
    match m next with
    | none => none
    | some n =>
      (relink next 0 (n.links.length + extra) (m, s.curr)).map fun (m, curr) =>
        { s with mem := m, curr := curr, len := s.len + 1 }

omit [LinearOrder K] in
/-- map.rs:595-639 (687-736, 762-818): the loop; the first argument bounds the number of iterations. -/
def mergeLoop (pick : Merge K V → Option (Merge K V × Option Addr)) (extra : Nat) :
    Nat → Merge K V → Option (Merge K V)
  | f, s =>
    match s.left, s.right with
    | none, none => some s
    | _, _ =>
      match f with
      | 0 => none
      | f + 1 =>
        match pick s with
        | none => none
        | some (s, none) => mergeLoop pick extra f s
        | some (s, some next) =>
          match append extra next s with
          | none => none
          | some s => mergeLoop pick extra f s

omit [LinearOrder K] in
/-- map.rs:580-644 (672-741, 747-823).  The nodes of both maps are in one memory; `left` and `right` are
dropped at the end with empty heads, which deallocates the heads only (939-950).  `off` picks the address of
the new head. -/
def mergeWith (pick : Merge K V → Option (Merge K V × Option Addr)) (extra : Nat) (l r : SkipMap K V)
    (off : Nat) : Option (SkipMap K V) := do
  let head := Nat.max l.bump r.bump + off
  let mem : MHeap K V := Heap.put (fun a => (l.mem a).or (r.mem a)) head headNode
  let lf ← getLink mem l.head 0
  let rf ← getLink mem r.head 0
  let mem ← zeroLinks mem none l.head
  let mem ← zeroLinks mem none r.head
  let s ← mergeLoop pick extra (l.len + r.len) ⟨mem, lf, rf, List.replicate (maxHeight + 1) head, 0⟩
  let mem ← s.mem.free l.head
  let mem ← mem.free r.head
  return ⟨mem, head, s.len, head + 1⟩

/-- map.rs:576-644 `union`, 1101-1103 `Add`. -/
def SkipMap.union (l r : SkipMap K V) (off : Nat) : Option (SkipMap K V) := mergeWith unionPick 0 l r off
/-- map.rs:668-741 `intersection`. -/
def SkipMap.intersection (l r : SkipMap K V) (off : Nat) : Option (SkipMap K V) :=
  mergeWith interPick 1 l r off
/-- map.rs:848-853 `difference`, 1112-1114 `Sub`. -/
def SkipMap.difference (l r : SkipMap K V) (off : Nat) : Option (SkipMap K V) :=
  mergeWith (diffPick false) 0 l r off
/-- map.rs:877-882 `symmetric_difference`. -/
def SkipMap.symmetricDifference (l r : SkipMap K V) (off : Nat) : Option (SkipMap K V) :=
  mergeWith (diffPick true) 0 l r off

end Verif.Skip.Map
