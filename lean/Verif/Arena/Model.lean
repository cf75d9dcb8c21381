/- Model of `arena.rs` (`TypedArena`).  Simplifications: `usize` is unbounded; a panic ends the history
(the half-done update of `free` on a vacant block is modelled in Panic.lean, where panics are caught). -/
import Verif.Spec.Heap

namespace Verif.Arena

open Verif.Spec

/-- arena.rs:8-12 `Entry`. -/
structure Entry where
  chunk : Nat
  block : Nat
  deriving DecidableEq

/-- arena.rs:14-17 `Block`. -/
inductive Block (V : Type) where
  | occupied (v : V)
  | vacant (next : Option Entry)

/-- arena.rs:42-48 `TypedArena`. -/
structure Arena (V : Type) where
  head : Option Entry
  chunks : List (List (Block V))
  chunkSize : Nat
  size : Nat
  capacity : Nat

variable {V : Type}

/-- arena.rs:66-74 `new`. -/
def Arena.new (chunkSize : Nat) : Arena V := ⟨none, [], chunkSize, 0, 0⟩

/-- The block of an entry, `none` if the entry is not valid: arena.rs:51-54 and the indexing
`self.chunks[entry.chunk_index][entry.block_index]` (106, 142, 174, 196). -/
def blockAt (chunks : List (List (Block V))) (e : Entry) : Option (Block V) :=
  (chunks[e.chunk]?).bind fun c => c[e.block]?

/-- Writing a block through that indexing. -/
def setBlock (chunks : List (List (Block V))) (e : Entry) (b : Block V) : List (List (Block V)) :=
  chunks.modify e.chunk fun c => c.set e.block b

/-- arena.rs:88-91: a new chunk if every block of the capacity is in use. -/
def Arena.grow (a : Arena V) : Arena V :=
  if a.size = a.capacity then
    { a with chunks := a.chunks ++ [[]], capacity := a.capacity + a.chunkSize }
  else a

/-- arena.rs:92-119, the part of `allocate` after growing. -/
def Arena.place (a : Arena V) (v : V) : Option (Arena V × Entry) :=
  match a.head with
  | none =>
    -- indexing `chunks[chunk_count - 1]` panics if there is no chunk
    match a.chunks.getLast? with
    | none => none
    | some last =>
      some ({ a with size := a.size + 1, chunks := a.chunks.dropLast ++ [last ++ [.occupied v]] },
        ⟨a.chunks.length - 1, last.length⟩)
  | some e =>
    match blockAt a.chunks e with
    | some (.vacant next) =>
      some ({ a with size := a.size + 1, head := next, chunks := setBlock a.chunks e (.occupied v) }, e)
    | _ => none

/-- arena.rs:87-120 `allocate`. -/
def Arena.allocate (a : Arena V) (v : V) : Option (Arena V × Entry) := a.grow.place v

/-- arena.rs:137-156 `free`. -/
def Arena.free (a : Arena V) (e : Entry) : Option (Arena V × V) :=
  match blockAt a.chunks e with
  | some (.occupied v) =>
    match a.size with
    | 0 => none
    | n + 1 =>
      some ({ a with size := n, head := some e, chunks := setBlock a.chunks e (.vacant a.head) }, v)
  | _ => none

/-- arena.rs:170-178 `get`. -/
def Arena.get (a : Arena V) (e : Entry) : Option V :=
  match blockAt a.chunks e with
  | some (.occupied v) => some v
  | _ => none

/-- arena.rs:192-200 `get_mut`; the returned `&mut` is modelled by applying `f`. -/
def Arena.getMut (a : Arena V) (e : Entry) (f : V → V) : Arena V × Option V :=
  match blockAt a.chunks e with
  | some (.occupied v) => ({ a with chunks := setBlock a.chunks e (.occupied (f v)) }, some v)
  | _ => (a, none)

/-- The API as a state machine (`none` is a panic); `Index` is arena.rs:203-209. -/
def step (a : Arena V) : HeapOp Entry V → Option (Arena V × HeapRes Entry V)
  | .allocate v => (a.allocate v).map fun q => (q.1, .handle q.2)
  | .free e => (a.free e).map fun q => (q.1, .val q.2)
  | .get e => some (a, .opt (a.get e))
  | .getMut e f => some ((a.getMut e f).1, .opt (a.getMut e f).2)
  | .index e => (a.get e).map fun v => (a, .val v)

/-- Outcomes of a sequence of calls; a panic ends it. -/
def run : Arena V → List (HeapOp Entry V) → List (Option (HeapRes Entry V))
  | _, [] => []
  | a, op :: ops =>
    match step a op with
    | none => [none]
    | some (a', r) => some r :: run a' ops

/-- The arenas some history of calls reaches from a new arena with this chunk size. -/
inductive Reach (chunkSize : Nat) : Arena V → Prop
  | new : Reach chunkSize (Arena.new chunkSize)
  | step {a a' op r} : Reach chunkSize a → step a op = some (a', r) → Reach chunkSize a'

end Verif.Arena
