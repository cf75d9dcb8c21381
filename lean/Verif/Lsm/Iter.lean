/-
Model of the iterators of `LsmMap` as they are read, one `next()` at a time, while the map goes on being used (C58).
`LsmMap::iter` returns a boxed iterator that does not borrow the map, so other calls, other iterators, and even the
end of the map may come between two calls of `next`.

A data file that is open can be read to its end even after its directory is deleted (the behaviour of `unlink` on
POSIX systems); a file that has not been opened yet is found only while its directory exists.
-/
import Verif.Lsm.Props
import Mathlib.Algebra.BigOperators.Group.List.Basic

namespace Verif.Lsm.Iter

open Verif Verif.Spec Verif.Lsm Store

variable {K V : Type}

/-! ### The model -/

/-- `SSTableDataIter` (sstable.rs:339-343): the directory of the table, and the entries not yet read if the file is
open. -/
structure Source (K V : Type) where
  id : Nat
  file : Option (List (Ent K V))

/-- What reading on gives: an entry, the end, or an error. -/
inductive Got (K V : Type) where
  | entry (e : Ent K V)
  | stop
  | error

/-- The entries that a source has left: those of its open file, or of the file in the directory; none if there is no
such file. -/
def Source.left (dirs : List (Table K V)) (q : Source K V) : Option (List (Ent K V)) :=
  match q.file with
  | some l => some l
  | none => (dirs.find? fun t => t.id = q.id).map (·.entries)

/-- sstable.rs:352-381 `SSTableDataIter::next`: opens the file if it is not open, and reads an entry. -/
def Source.next (dirs : List (Table K V)) (q : Source K V) : Source K V × Got K V :=
  match q.left dirs with
  | none => (q, .error)
  | some [] => ({ q with file := some [] }, .stop)
  | some (e :: l) => ({ q with file := some l }, .entry e)

/-- leveled.rs:705-719 `get_next_level_entry`: reads from the first source of the queue, and drops sources that have
ended.  The sources of `SizeTieredIter`, and those of level 0, are queues of one source (size_tiered.rs:615,
leveled.rs:777); there the code keeps a source that has ended, which stays ended. -/
def nextEntry (dirs : List (Table K V)) : List (Source K V) → List (Source K V) × Got K V
  | [] => ([], .stop)
  | q :: qs =>
    match q.next dirs with
    | (_, .stop) => nextEntry dirs qs
    | (q', g) => (q' :: qs, g)

/-- One of the runs that are merged: its entry in the heap `entries`, if any, and the queue it is read from. -/
structure Run (K V : Type) where
  head : Option (Ent K V)
  rest : List (Source K V)

/-- leveled.rs:733-752, 772-787, size_tiered.rs:591-596, 615-622: read the next entry of a run and push it on the heap;
`false` if reading fails. -/
def pull (dirs : List (Table K V)) (qs : List (Source K V)) : Run K V × Bool :=
  match nextEntry dirs qs with
  | (qs, .entry e) => (⟨some e, qs⟩, true)
  | (qs, .stop) => (⟨none, qs⟩, true)
  | (qs, .error) => (⟨none, qs⟩, false)

/-- `LeveledIter` (leveled.rs:692-698), `SizeTieredIter` (size_tiered.rs:568-573): the runs and `last_key_opt`.  The
heap is kept as the heads of the runs. -/
structure Iter (K V : Type) where
  runs : List (Run K V)
  last : Option K

/-- leveled.rs:721-761, size_tiered.rs:580-604 `new`: reads the first entry of every run; `none` if that fails.  The
sources of a run are given by the names of their directories. -/
def Iter.new (dirs : List (Table K V)) (runs : List (List Nat)) : Option (Iter K V) :=
  let rs := runs.map fun ids => pull dirs (ids.map fun i => ⟨i, none⟩)
  if rs.all (·.2) then some ⟨rs.map (·.1), none⟩ else none

variable [LinearOrder K]

/-- `entries.pop()`: the first of the heads, and the index of its run (see `pick`). -/
def first : List (Option (Ent K V)) → Option (Ent K V × Nat)
  | [] => none
  | none :: hs => (first hs).map fun (e, i) => (e, i + 1)
  | some e :: hs =>
    match first hs with
    | none => some (e, 0)
    | some (e', i) => if before e' e then some (e', i + 1) else some (e, 0)

/-- What `next` of an iterator returns: `Some(Ok((key, value)))`, `None` or `Some(Err(_))`. -/
inductive Item (K V : Type) where
  | pair (p : K × V)
  | done
  | error
  deriving DecidableEq

/-- leveled.rs:771-801, size_tiered.rs:613-636 `next`, inside the `filter_map` of leveled.rs:667-678,
size_tiered.rs:553-560 that skips tombstones.  The first argument bounds the number of pops. -/
def Iter.nextN (dirs : List (Table K V)) : Nat → Iter K V → Iter K V × Item K V
  | 0, it => (it, .done)
  | n + 1, it =>
    match first (it.runs.map (·.head)) with
    | none => (it, .done)
    | some (e, i) =>
      let (run, ok) := pull dirs ((it.runs[i]?.map (·.rest)).getD [])
      let runs := it.runs.set i run
      if ok then
        let it' : Iter K V := ⟨runs, some e.1⟩
        if it.last = some e.1 then it'.nextN dirs n
        else
          match e.2.data with
          | none => it'.nextN dirs n
          | some v => (it', .pair (e.1, v))
      else (⟨runs, it.last⟩, .error)

/-- The number of entries a run has left. -/
def Run.count (dirs : List (Table K V)) (r : Run K V) : Nat :=
  r.head.toList.length + (r.rest.map fun q => ((q.left dirs).getD []).length).sum

/-- `next`: every pop takes an entry, so the number of the entries left is a bound for the number of pops. -/
def Iter.next (dirs : List (Table K V)) (it : Iter K V) : Iter K V × Item K V :=
  it.nextN dirs ((it.runs.map (Run.count dirs)).sum + 1)

/-- An iterator that has not been dropped.  `gen` tells which map it is from: after `reopen` there is another map,
with a `metadata_lock_count` of its own. -/
structure Live (K V : Type) where
  gen : Nat
  it : Iter K V

/-- The map and its iterators, in the order of their creation (`none`: dropped). -/
structure Sys (kd : Kind K V) where
  store : Store kd
  gen : Nat
  iters : List (Option (Live K V))

/-- What a program does: a call of the map, `iter()`, `next()` of the `i`th iterator created, or dropping it. -/
inductive Op (K V : Type) where
  | call (op : KvOp K V)
  | iter
  | next (i : Nat)
  | drop (i : Nat)
  deriving DecidableEq

/-- The results of these. -/
inductive Res (K V : Type) where
  | res (r : KvRes K V)
  | item (x : Item K V)
  | unit
  deriving DecidableEq

variable {kd : Kind K V} [DecidableEq V]

namespace Sys

/-- A new map. -/
def new (kd : Kind K V) : Sys kd := ⟨Store.new kd, 0, []⟩

/-- One action of the program, after `d` events of the compaction thread.  `parts` gives the tables of the runs that
the iterators of the strategy merge.  map.rs:513 `iter`: `flush` and then `iter` of the strategy (leveled.rs:642-681,
size_tiered.rs:538-563), which raises the lock count; dropping an iterator lowers the lock count of its map
(leveled.rs:804-810, size_tiered.rs:639-645).  The calls `hold` and `release` of `KvOp` are not calls of the map but stand
for the creation and the end of an iterator, so they are not used here directly. -/
def step (c : Cfg K V) (parts : kd.M → List (List (Table K V))) (s : Sys kd) (op : Op K V) (d : Nat) :
    Option (Sys kd × Res K V) :=
  match op with
  | .call .hold | .call .release => none
  | .call op => (s.store.step c op d).map fun (st, r) =>
      ({ s with store := st, gen := if op = .reopen then s.gen + 1 else s.gen }, .res r)
  | .iter =>
    match s.store.step c .hold d with
    | none => none
    | some (st, _) =>
      (Iter.new st.disk.dirs ((parts st.cur).map fun ts => ts.map (·.id))).map fun it =>
        ({ s with store := st, iters := s.iters ++ [some ⟨s.gen, it⟩] }, .unit)
  | .next i =>
    match s.iters[i]? with
    | some (some l) =>
      let st := work d s.store
      let (it, x) := l.it.next st.disk.dirs
      some ({ s with store := st, iters := s.iters.set i (some { l with it := it }) }, .item x)
    | _ => none
  | .drop i =>
    match s.iters[i]? with
    | some (some l) =>
      if l.gen = s.gen then
        (s.store.step c .release d).map fun (st, _) => ({ s with store := st, iters := s.iters.set i none }, .unit)
      else some ({ s with store := work d s.store, iters := s.iters.set i none }, .unit)
    | _ => none

/-- A program: actions, each with the number of events of the compaction thread before it. -/
def run (c : Cfg K V) (parts : kd.M → List (List (Table K V))) : Sys kd → List (Op K V × Nat) →
    Option (Sys kd × List (Res K V))
  | s, [] => some (s, [])
  | s, (op, d) :: ops =>
    match s.step c parts op d with
    | none => none
    | some (s, r) => (run c parts s ops).map fun (s, rs) => (s, r :: rs)

end Sys

/-- The tables that `SizeTieredIter` merges: each is a run (size_tiered.rs:547-551). -/
def tieredParts (ts : List (Table K V)) : List (List (Table K V)) := ts.map fun t => [t]

/-- The tables that `LeveledIter` merges: each table of level 0 is a run, and each level is (leveled.rs:651-666). -/
def leveledParts (m : Leveled.Meta K V) : List (List (Table K V)) :=
  m.l0.map (fun t => [t]) ++ m.levels.map fun l => l.map (·.2)

end Verif.Lsm.Iter
