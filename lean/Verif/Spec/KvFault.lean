/-
Specification of the key-value store `LsmMap` when operations on the files fail: what can fail, histories in which
some calls fail, and what is kept of the writes.
-/
import Verif.Spec.Kv

namespace Verif.Spec

/-- What failed. -/
inductive Fault where
  /-- writing `logical_time.dat` (size_tiered.rs:401-403, leveled.rs:477-479) -/
  | clock
  /-- creating the directory or a file of a new table (map.rs:92-95, sstable.rs:105-113) -/
  | create
  /-- writing the entries of the new table, closing it, or reading it back (map.rs:96-99) -/
  | fill
  /-- writing `metadata.dat` after the new table was pushed (size_tiered.rs:411-412, leveled.rs:487-488) -/
  | list
  /-- deleting the directory of a table that is not used any more (size_tiered.rs:374, leveled.rs:284, 518, 620) -/
  | delete
  /-- writing `metadata.dat` after the directories were deleted -/
  | relist
  /-- reading a table -/
  | read
  deriving DecidableEq

/-- An event of a history: a call that returned a result (after some events of the compaction thread), a call that
returned an error, or an I/O error in the compaction thread. -/
inductive Ev (K V : Type) where
  | done (op : KvOp K V) (d : Nat) (r : KvRes K V)
  | failed (op : KvOp K V) (d : Nat) (f : Fault)
  | died
  deriving DecidableEq

namespace Ev

variable {K V : Type}

/-- The event that loses writes: the entries in memory could not be written to a new table. -/
def Lossy : Ev K V → Prop
  | .failed _ _ .fill => True
  | _ => False

/-- A call that returned and that writes everything in memory to a table, or discards it. -/
def Settled : Ev K V → Prop
  | .done op _ _ => op.Settles
  | _ => False

/-- The call of an event. -/
def call? : Ev K V → Option (KvOp K V)
  | .done op _ _ => some op
  | .failed op _ _ => some op
  | .died => none

/-- The effect of an event on the contents.  A call that fails has its effect all the same, unless what failed is
the write of the logical time, which comes first. -/
def apply [DecidableEq K] (m : K → Option V) : Ev K V → K → Option V
  | .done op _ _ => op.apply m
  | .failed _ _ .clock => m
  | .failed op _ _ => op.apply m
  | .died => m

end Ev

variable {K V : Type} [DecidableEq K]

/-- The contents after the events, if none of them loses writes. -/
def effects (es : List (Ev K V)) : K → Option V := es.foldl Ev.apply fun _ => none

/-- After the events the contents are `now`, and they fall back to `saved` if the entries in memory are lost.
Every event may save the contents; the calls that write out memory do. -/
inductive Told : List (Ev K V) → (K → Option V) → (K → Option V) → Prop where
  | nil : Told [] (fun _ => none) (fun _ => none)
  | keep {es : List (Ev K V)} {now saved : K → Option V} {e : Ev K V} :
      Told es now saved → ¬ e.Lossy → ¬ e.Settled → Told (es ++ [e]) (e.apply now) saved
  | save {es : List (Ev K V)} {now saved : K → Option V} {e : Ev K V} :
      Told es now saved → ¬ e.Lossy → Told (es ++ [e]) (e.apply now) (e.apply now)
  | lose {es : List (Ev K V)} {now saved : K → Option V} {e : Ev K V} :
      Told es now saved → e.Lossy → Told (es ++ [e]) saved saved

end Verif.Spec
