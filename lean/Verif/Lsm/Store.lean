/-
Model of `LsmMap` (src/lsm_tree/map.rs) and of what `SizeTieredStrategy` and `LeveledStrategy`
(src/lsm_tree/compaction/size_tiered.rs, leveled.rs) have in common: the two copies of the metadata, the
compaction thread, and the files.  What differs between the strategies is a `Kind`.

The compaction thread reads only table directories and creates new ones, and hands over its result by storing
`next_metadata` and then clearing `is_compacting`.  No directory it reads is deleted while it runs: directories are
deleted when a result is taken over, which happens after it, and by `clear`, which joins it.  So its run is one
event (`deliver`) that happens at an arbitrary time, followed by a second one (clearing the flag).  Every call
takes the number of such events that happen before it; `flush` and `clear` join the thread.

I/O errors are not modelled here (see Verif/Lsm/Faults.lean), except that opening a missing directory or reading an
empty file fails.  Times and
sizes are natural numbers, not `u64`.
-/
import Verif.Lsm.Merge
import Verif.Spec.Kv

namespace Verif.Lsm

open Verif Verif.Spec

/-- A compaction strategy: the metadata and the functions on it that differ between the two strategies. -/
structure Kind (K V : Type) where
  /-- `SizeTieredMetadata` (size_tiered.rs:25-34) or `LeveledMetadata` (leveled.rs:25-38), without the parameters -/
  M : Type
  /-- what the compaction thread is started with -/
  Job : Type
  empty : M
  /-- all tables named by the metadata -/
  tabs : M → List (Table K V)
  /-- `push_sstable` -/
  push : M → Table K V → M
  /-- the decision whether to start a compaction of the snapshot -/
  plan : M → Option Job
  /-- the compaction; the second argument is the next unused directory name.  The result is the new metadata and
  the tables written; `none` if it does not terminate or panics -/
  compact : Job → Nat → Option (M × List (Table K V))
  /-- `try_replace_metadata`: the current and the new metadata -/
  replace : M → M → M
  /-- the lookup of `get` -/
  get : M → K → Option (Val V)
  /-- the runs that `iter` merges -/
  runs : M → List (List (Ent K V))

/-- The parameters of the map: serialized sizes, the block size chosen for an expected number of entries
(sstable.rs:126) and `max_in_memory_size`. -/
structure Cfg (K V : Type) where
  sizes : Sizes K V
  block : Nat → Nat
  maxMem : Nat

variable {K V : Type}

/-- The directory of the map: `metadata.dat`, the table directories, and `logical_time.dat` (`none`: still empty). -/
structure Disk (kd : Kind K V) where
  md : kd.M
  dirs : List (Table K V)
  time : Option Nat

/-- `LsmMap` (map.rs:52-56) with its strategy (size_tiered.rs:169-179, leveled.rs:109-122): `job` is what the
running thread works on, `busy` is `is_compacting`, `handle` whether there is a join handle, `locks` is
`metadata_lock_count`.  `fresh` is a source of directory names (the code draws random names), `disk` the files and
`trace` the states of the files after every write so far. -/
structure Store (kd : Kind K V) where
  mem : List (Ent K V)
  usage : Nat
  cur : kd.M
  next : Option kd.M
  job : Option kd.Job
  busy : Bool
  handle : Bool
  clock : Nat
  locks : Nat
  fresh : Nat
  disk : Disk kd
  trace : List (Disk kd)

namespace Store

variable {kd : Kind K V}

/-- size_tiered.rs:199-249, leveled.rs:145-195 and map.rs:82-88: a new map in a new directory. -/
def new (kd : Kind K V) : Store kd :=
  ⟨[], 0, kd.empty, none, none, false, false, 0, 0, 0, ⟨kd.empty, [], none⟩, [⟨kd.empty, [], none⟩]⟩

/-- A write to the files. -/
def put (s : Store kd) (d : Disk kd) : Store kd := { s with disk := d, trace := s.trace ++ [d] }

/-- size_tiered.rs:411-412 and the like: write `metadata.dat`.  The file is overwritten in place; the model takes
this as one step. -/
def writeMeta (s : Store kd) : Store kd := s.put { s.disk with md := s.cur }

/-- size_tiered.rs:398-405, leveled.rs:474-481 `get_and_increment_logical_time`. -/
def tick (s : Store kd) : Store kd × Nat :=
  let s' := { s with clock := s.clock + 1 }
  (s'.put { s.disk with time := some (s.clock + 1) }, s.clock)

/-- One event of the compaction thread: size_tiered.rs:311-312, leveled.rs:305-429 (everything up to storing
`next_metadata`), or, after that, size_tiered.rs:313, leveled.rs:431 (`is_compacting := false`).  A compaction
that does not terminate never delivers. -/
def deliver (s : Store kd) : Store kd :=
  match s.job with
  | none => { s with busy := false }
  | some j =>
    match kd.compact j s.fresh with
    | none => s
    | some (m, new) =>
      put { s with next := some m, job := none, fresh := s.fresh + new.length } { s.disk with dirs := s.disk.dirs ++ new }

/-- `n` events of the compaction thread. -/
def work : Nat → Store kd → Store kd
  | 0, s => s
  | n + 1, s => work n s.deliver

/-- `fs::remove_dir_all` of the directories with the given names, one after the other; `none` if one is missing. -/
def removeDirs : List Nat → Store kd → Option (Store kd)
  | [], s => some s
  | i :: is, s =>
    if i ∈ s.disk.dirs.map (·.id) then
      removeDirs is (s.put { s.disk with dirs := s.disk.dirs.filter fun t => t.id ≠ i })
    else none

/-- size_tiered.rs:350-382, leveled.rs:243-292 `try_replace_metadata`, and the write of the metadata that all
callers do if it replaced anything. -/
def tryReplace (s : Store kd) : Option (Store kd) :=
  match s.next with
  | none => some s
  | some m =>
    let cur := kd.replace s.cur m
    let old := (kd.tabs s.cur).filter fun t => t.id ∉ (kd.tabs cur).map (·.id)
    (removeDirs (old.map (·.id)) { s with cur := cur, next := none }).map writeMeta

/-- map.rs:90-99 and size_tiered.rs:408-413, leveled.rs:484-489: the table `t` has been written from the in-memory
tree, which is now empty; it is pushed and the metadata is written. -/
def pushTable (s : Store kd) (t : Table K V) : Store kd :=
  writeMeta (put { s with usage := 0, mem := [], fresh := s.fresh + 1, cur := kd.push s.cur t }
    { s.disk with dirs := s.disk.dirs ++ [t] })

/-- size_tiered.rs:415-433, leveled.rs:491-509: take over the result of a finished compaction, and perhaps start
another one. -/
def start (s : Store kd) : Option (Store kd) :=
  if s.busy ∨ s.locks ≠ 0 then some s
  else
    match s.tryReplace with
    | none => none
    | some s =>
      match kd.plan s.cur with
      | none => some s
      | some j => some { s with job := some j, busy := true, handle := true }

/-- map.rs:90-101 `try_compact` and size_tiered.rs:407-434, leveled.rs:483-510: write the in-memory tree as a table
and perhaps start a compaction. -/
def tryCompact [LinearOrder K] (c : Cfg K V) (s : Store kd) : Option (Store kd) :=
  match build c.sizes (c.block s.mem.length) s.mem s.fresh with
  | none => none
  | some t => (s.pushTable t).start

/-- Joining the compaction thread: it runs to its end; `none` if it never ends. -/
def join (s : Store kd) : Option (Store kd) :=
  let s := work 2 s
  if s.job.isSome then none else some s

/-- size_tiered.rs:436-450, leveled.rs:512-526 `flush` of the strategy. -/
def settle (s : Store kd) : Option (Store kd) :=
  if s.handle then
    match s.join with
    | none => none
    | some s => tryReplace { s with handle := false }
  else some s

/-- map.rs:476-481 `flush`. -/
def flush [LinearOrder K] (c : Cfg K V) (s : Store kd) : Option (Store kd) :=
  match s.mem with
  | [] => s.settle
  | _ :: _ =>
    match s.tryCompact c with
    | none => none
    | some s => s.settle

/-- map.rs:134-142, 184-191: `in_memory_usage` after writing the version `v` of `k`; `none` if the subtraction
underflows. -/
def usageAfter [LinearOrder K] (c : Cfg K V) (s : Store kd) (k : K) (v : Val V) : Option Nat :=
  match SL.find k s.mem with
  | some e =>
    if c.sizes.entry (k, e.2) ≤ s.usage then some (s.usage - c.sizes.entry (k, e.2) + c.sizes.entry (k, v)) else none
  | none => some (s.usage + c.sizes.entry (k, v))

/-- map.rs:129-150 `insert`, 178-199 `remove`: `data` is `none` for `remove`. -/
def write [LinearOrder K] (c : Cfg K V) (s : Store kd) (k : K) (data : Option V) : Option (Store kd) :=
  let (s, time) := s.tick
  match s.usageAfter c k ⟨data, time⟩ with
  | none => none
  | some u =>
    let s := { s with usage := u, mem := SL.ins k ⟨data, time⟩ s.mem }
    if c.maxMem < u then s.tryCompact c else some s

/-- The pairs that the iterator of the strategy yields (size_tiered.rs:553-560, leveled.rs:667-678): the merged
entries that are not tombstones. -/
def live (l : List (Ent K V)) : List (K × V) := l.filterMap fun e => e.2.data.map fun x => (e.1, x)

/-- size_tiered.rs:538-563, leveled.rs:642-681 `iter` of the strategy. -/
def items [LinearOrder K] (s : Store kd) : List (K × V) := live (mergeRuns (kd.runs s.cur))

/-- size_tiered.rs:498-522, leveled.rs:601-626 and map.rs:376-379 `clear`.  `in_memory_usage` is left as it is. -/
def clear (s : Store kd) : Option (Store kd) :=
  let s := { s with mem := [] }
  match (if s.handle then s.join else some s) with
  | none => none
  | some s =>
    let s := { s with handle := false, cur := kd.empty, next := none }
    (removeDirs (s.disk.dirs.map (·.id)) s).map writeMeta

/-- size_tiered.rs:267-295, leveled.rs:213-241 `open` (and map.rs:82-88): reading an empty `logical_time.dat` is an
error, and so is a table that the metadata names and that has no directory (sstable.rs:387-399, 243-260). -/
def openDir [DecidableEq K] [DecidableEq V] (fresh : Nat) (trace : List (Disk kd)) (d : Disk kd) : Option (Store kd) :=
  match d.time with
  | none => none
  | some t =>
    if ∀ t ∈ kd.tabs d.md, d.dirs.find? (fun u => u.id = t.id) = some t then
      some ⟨[], 0, d.md, none, none, false, false, t, 0, fresh, d, trace⟩
    else none

/-- map.rs:407-417: the smaller of two keys, if any. -/
def optMin [LinearOrder K] : Option K → Option K → Option K
  | none, b => b
  | some a, none => some a
  | some a, some b => some (Min.min a b)

/-- map.rs:443-450: `cmp::max` of two options. -/
def optMax [LinearOrder K] : Option K → Option K → Option K
  | none, b => b
  | some a, none => some a
  | some a, some b => some (Max.max a b)

/-- size_tiered.rs:481-485, leveled.rs:573-590 `len_hint` of the strategy: `entry_count - tombstone_count`, summed
(none if the subtraction underflows). -/
def hint : List (Table K V) → Option Nat
  | [] => some 0
  | t :: ts => if t.tombCount ≤ t.entryCount then (hint ts).map (t.entryCount - t.tombCount + ·) else none

/-- The calls of the map (map.rs:129-514), after `d` events of the compaction thread. -/
def step [LinearOrder K] [DecidableEq V] (c : Cfg K V) (s : Store kd) (op : KvOp K V) (d : Nat) :
    Option (Store kd × KvRes K V) :=
  let s := work d s
  match op with
  | .insert k v => (s.write c k (some v)).map fun s => (s, .unit)
  | .remove k => (s.write c k none).map fun s => (s, .unit)
  | .get k =>
    match SL.find k s.mem with
    | some e => some (s, .val e.2.data)
    | none => s.tryReplace.map fun s => (s, .val ((kd.get s.cur k).bind (·.data)))
  | .containsKey k =>
    match SL.find k s.mem with
    | some e => some (s, .bool e.2.data.isSome)
    | none => s.tryReplace.map fun s => (s, .bool ((kd.get s.cur k).bind (·.data)).isSome)
  | .lenHint => s.tryReplace.bind fun s => (hint (kd.tabs s.cur)).map fun n => (s, .num (s.mem.length + n))
  | .len => (s.flush c).bind fun s => s.tryReplace.map fun s => (s, .num s.items.length)
  | .isEmpty => (s.flush c).bind fun s => s.tryReplace.map fun s => (s, .bool (s.items.length == 0))
  | .min => s.tryReplace.map fun s => (s, .key (optMin ((live s.mem).head?.map (·.1)) (s.items.head?.map (·.1))))
  | .max => s.tryReplace.map fun s => (s, .key (optMax ((live s.mem).getLast?.map (·.1)) (s.items.getLast?.map (·.1))))
  | .iter => (s.flush c).bind fun s => s.tryReplace.map fun s => (s, .list s.items)
  | .hold => (s.flush c).bind fun s => s.tryReplace.map fun s => ({ s with locks := s.locks + 1 }, .list s.items)
  | .release => some ({ s with locks := s.locks - 1 }, .unit)
  | .flush => (s.flush c).map fun s => (s, .unit)
  | .clear => s.clear.map fun s => (s, .unit)
  | .reopen => (s.flush c).bind fun s => (openDir s.fresh s.trace s.disk).map fun s => (s, .unit)

/-- A list of calls, each with the number of events of the compaction thread before it. -/
def run [LinearOrder K] [DecidableEq V] (c : Cfg K V) : Store kd → List (KvOp K V × Nat) →
    Option (Store kd × List (KvRes K V))
  | s, [] => some (s, [])
  | s, (op, d) :: ops =>
    match s.step c op d with
    | none => none
    | some (s, r) => (run c s ops).map fun (s, rs) => (s, r :: rs)

end Store

end Verif.Lsm
