/- Model of the set operations of `skiplist/map.rs` when the comparisons obey no law, or panic (C78).

The loops of `union` and `map_difference` as in `Skip/MapModel`, with the answers of the comparisons in place of an
order, and with a record of the entries that are dropped.  A panicking comparison unwinds: the locals `ret`, `right` and
`left` are dropped as they are at that moment, that is, with `left.head` and `right.head` at entry nodes. -/
import Verif.Skip.MapModel
import Verif.Skip.DropPanic
import Verif.Spec.SetOps

namespace Verif.Skip.Map

open Verif.Spec

variable {K V : Type}

/-- `Node::free` (map.rs:60-63), with the entry that is dropped. -/
def dropNode (s : Merge K V) (a : Addr) : Option (Merge K V × (K × V)) :=
  match entryAt s.mem a with
  | none => none
  | some e => (s.mem.free a).map fun m => ({ s with mem := m }, e)

/-- What an iteration leaves behind: the state, the node to append, the entries dropped. -/
abbrev Iterated (K V : Type) := Merge K V × Option Addr × List (K × V)

/-- `next_node` is the left node. -/
def keepL (s : Merge K V) : Option (Iterated K V) := (popL s).map fun (a, s) => (s, some a, [])
/-- `next_node` is the right node. -/
def keepR (s : Merge K V) : Option (Iterated K V) := (popR s).map fun (a, s) => (s, some a, [])
/-- The right node is freed. -/
def loseR (s : Merge K V) : Option (Iterated K V) := do
  let (b, s) ← popR s
  let (s, e) ← dropNode s b
  return (s, none, [e])
/-- Both nodes are freed (map.rs:769-773). -/
def loseBoth (s : Merge K V) : Option (Iterated K V) := do
  let (a, s) ← popL s
  let (b, s) ← popR s
  let (s, e) ← dropNode s a
  let (s, e') ← dropNode s b
  return (s, none, [e, e'])

/-- map.rs:601-616 (`union`), 768-788 (`map_difference`): the branches of the comparison. -/
def onAnswer : MergeOp → Ordering → Merge K V → Option (Iterated K V)
  | .union, .eq => loseR
  | .union, .lt => keepL
  | .union, .gt => keepR
  | .difference _, .eq => loseBoth
  | .difference _, .lt => keepL
  | .difference sym, .gt => if sym then keepR else loseR

/-- map.rs:617-620, 790-798: only the right map has nodes left. -/
def onlyRight : MergeOp → Merge K V → Option (Iterated K V)
  | .union => keepR
  | .difference sym => if sym then keepR else loseR

/-- map.rs:621-624, 799-802: only the left map has nodes left; `map_difference` dereferences the null pointer
`right.head`. -/
def onlyLeft : MergeOp → Merge K V → Option (Iterated K V)
  | .union => keepL
  | .difference _ => keepR

/-- The rest of an iteration: append `next_node`, if there is one (map.rs:626-638, 805-817). -/
def finish : Iterated K V → Option (Merge K V × List (K × V))
  | (s, none, d) => some (s, d)
  | (s, some next, d) => (append 0 next s).map fun s => (s, d)

/-- map.rs:595-639, 762-818: the loop with the answers `ans`; the comparison after the last answer panics (`true`).
`log` are the entries dropped so far. -/
def loopA (op : MergeOp) : Nat → List Ordering → Merge K V → List (K × V) → Option (Merge K V × List (K × V) × Bool)
  | f, ans, s, log =>
    match s.left, s.right with
    | none, none => some (s, log, false)
    | some a, some b =>
      match entryAt s.mem a, entryAt s.mem b, ans, f with
      | some _, some _, [], _ => some (s, log, true)
      | some _, some _, o :: ans, f + 1 =>
        ((onAnswer op o s).bind finish).bind fun (s, d) => loopA op f ans s (log ++ d)
      | _, _, _, _ => none
    | none, some _ =>
      match f with
      | 0 => none
      | f + 1 => ((onlyRight op s).bind finish).bind fun (s, d) => loopA op f ans s (log ++ d)
    | some _, none =>
      match f with
      | 0 => none
      | f + 1 => ((onlyLeft op s).bind finish).bind fun (s, d) => loopA op f ans s (log ++ d)

/-- How the call ends: it returns a map, or it has unwound and left memory behind.  `dropped` are the entries whose
destructors have run, in order. -/
inductive SetRes (K V : Type) where
  | returned (map : SkipMap K V) (dropped : List (K × V))
  | unwound (mem : MHeap K V) (dropped : List (K × V))

/-- map.rs:580-593, 747-760: the state before the loop, and the new head.  The nodes of both maps are in one memory. -/
def mergeInit (l r : SkipMap K V) (off : Nat) : Option (Merge K V × Addr) := do
  let head := Nat.max l.bump r.bump + off
  let mem : MHeap K V := Heap.put (fun a => (l.mem a).or (r.mem a)) head headNode
  let lf ← getLink mem l.head 0
  let rf ← getLink mem r.head 0
  let mem ← zeroLinks mem none l.head
  let mem ← zeroLinks mem none r.head
  return (⟨mem, lf, rf, List.replicate (maxHeight + 1) head, 0⟩, head)

/-- `Drop` (map.rs:939-950) of a map with this `head`, when no destructor panics. -/
def dropAt (steps : Nat) (m : MHeap K V) : Option Addr → Option (MHeap K V × List (K × V))
  | none => none
  | some head =>
    match dropD (fun _ => false) id steps m head with
    | .done r => some (r.mem, r.started)
    | _ => none

/-- Unwinding drops `ret`, then `right`, then `left`. -/
def unwind (steps : Nat) (head : Addr) (s : Merge K V) : Option (MHeap K V × List (K × V)) := do
  let (m, d) ← dropAt steps s.mem (some head)
  let (m, d') ← dropAt steps m s.right
  let (m, d'') ← dropAt steps m s.left
  return (m, d ++ d' ++ d'')

/-- map.rs:576-644 `union`, 743-823 `map_difference`. -/
def SkipMap.setOpA (op : MergeOp) (ans : List Ordering) (l r : SkipMap K V) (off : Nat) : Option (SetRes K V) := do
  let (s, head) ← mergeInit l r off
  let (s, log, panics) ← loopA op (l.len + r.len) ans s []
  if panics then
    let (m, d) ← unwind (l.len + r.len) head s
    return .unwound m (log ++ d)
  else
    let mem ← s.mem.free l.head
    let mem ← mem.free r.head
    return .returned ⟨mem, head, s.len, head + 1⟩ log

end Verif.Skip.Map
