/-
The LSM map (Verif/Lsm/Store.lean) as two threads whose single steps are interleaved in any way.

In Verif/Lsm/Store.lean a call of the map is one step and so is the whole run of the compaction thread.  Here a call is
a program whose steps are the single accesses to what the threads share: the flag, the result of the compaction, the
join, and every directory created or removed.  The thread creates its directories one at a time, publishes its result,
and clears the flag; at each of its steps it fails if a directory it reads is missing.  A call likewise fails if it
reads a table whose directory is missing.

What only the calling thread uses (the in-memory tree, `curr_metadata`, the clock) changes together with the next
access to the files.  The thread takes the names of its directories in advance; the code draws them at random, so
which thread draws first does not matter.
-/
import Verif.Lsm.Store

namespace Verif.Lsm

open Verif Verif.Spec

/-- A program: steps on the shared state, between which the other thread may run.  `act f k` is one step (`none`: it
fails), after which the program goes on as `k` says, given the states before and after; `await b k` waits until `b`. -/
inductive Prog (σ ρ : Type) where
  | ret (r : ρ)
  | act (f : σ → Option σ) (k : σ → σ → Prog σ ρ)
  | await (b : σ → Bool) (k : Prog σ ρ)

variable {K V : Type}

/-- The state of both threads: `out` is what the compaction thread is about to publish, the directories it has
created, and those it still has to create. -/
structure Fine (kd : Kind K V) where
  s : Store kd
  out : Option (kd.M × List (Table K V) × List (Table K V))

namespace Fine

variable {kd : Kind K V}

/-- One step of the compaction thread; `inp` says which tables it reads (and it may read those it has written):
size_tiered.rs:297-348, leveled.rs:294-458.  If a directory is missing it ends with an error, which clears the flag
(size_tiered.rs:343, leveled.rs:453). -/
def thread [DecidableEq K] [DecidableEq V] (inp : kd.Job → List (Table K V)) (a : Fine kd) : Fine kd :=
  match a.s.job with
  | none => { a with s := { a.s with busy := false } }
  | some j =>
    match a.out with
    | none =>
      if ∀ t ∈ inp j, t ∈ a.s.disk.dirs then
        match kd.compact j a.s.fresh with
        | none => a
        | some (m, new) => ⟨{ a.s with fresh := a.s.fresh + new.length }, some (m, [], new)⟩
      else ⟨{ a.s with job := none, busy := false }, none⟩
    | some (m, done, t :: rest) =>
      if ∀ t ∈ inp j ++ done, t ∈ a.s.disk.dirs then
        ⟨a.s.put { a.s.disk with dirs := a.s.disk.dirs ++ [t] }, some (m, done ++ [t], rest)⟩
      else ⟨{ a.s with job := none, busy := false }, none⟩
    | some (m, _, []) => ⟨{ a.s with next := some m, job := none }, none⟩

/-- A program of the calling thread. -/
abbrev P (kd : Kind K V) := Prog (Fine kd) (KvRes K V)

/-- A step that cannot fail. -/
def set (f : Store kd → Store kd) (k : P kd) : P kd := .act (fun a => some { a with s := f a.s }) fun _ _ => k

/-- A look at the state. -/
def look (k : Store kd → P kd) : P kd := .act (fun a => some a) fun a _ => k a.s

/-- `fs::remove_dir_all`, one directory after the other. -/
def removeP : List Nat → P kd → P kd
  | [], k => k
  | i :: is, k =>
    .act (fun a => if i ∈ a.s.disk.dirs.map (·.id) then
        some { a with s := a.s.put { a.s.disk with dirs := a.s.disk.dirs.filter fun t => t.id ≠ i } } else none)
      fun _ _ => removeP is k

/-- size_tiered.rs:350-382, leveled.rs:243-292 `try_replace_metadata`: take the result of the compaction, if there is
one; then remove the directories that are no longer named; then the callers write the metadata. -/
def replaceP (k : P kd) : P kd :=
  .act (fun a => some { a with s := match a.s.next with
      | none => a.s
      | some m => { a.s with cur := kd.replace a.s.cur m, next := none } })
    fun a b => match a.s.next with
      | none => k
      | some _ => removeP (((kd.tabs a.s.cur).filter fun t => t.id ∉ (kd.tabs b.s.cur).map (·.id)).map (·.id))
          (set Store.writeMeta k)

/-- size_tiered.rs:415-433, leveled.rs:491-509: look at the flag; take over the result of a finished compaction; start
another one. -/
def startP (k : P kd) : P kd :=
  look fun s => if s.busy ∨ s.locks ≠ 0 then k else
    replaceP (set (fun s => match kd.plan s.cur with
      | none => s
      | some j => { s with job := some j, busy := true, handle := true }) k)

/-- map.rs:90-101, size_tiered.rs:407-413, leveled.rs:483-489: write the in-memory tree as a table; push it and write the
metadata. -/
def compactP [LinearOrder K] (c : Cfg K V) (k : P kd) : P kd :=
  .act (fun a => (build c.sizes (c.block a.s.mem.length) a.s.mem a.s.fresh).map fun t =>
      { a with s := { a.s with fresh := a.s.fresh + 1 }.put { a.s.disk with dirs := a.s.disk.dirs ++ [t] } })
    fun a _ => match build c.sizes (c.block a.s.mem.length) a.s.mem a.s.fresh with
      | none => k
      | some t => set (fun s => { s with usage := 0, mem := [], cur := kd.push s.cur t }.writeMeta) (startP k)

/-- size_tiered.rs:436-450, leveled.rs:512-526 `flush` of the strategy: join the thread and take over its result. -/
def settleP (k : P kd) : P kd :=
  look fun s => if s.handle then
    .await (fun a => a.s.job.isNone && !a.s.busy) (set (fun s => { s with handle := false }) (replaceP k))
  else k

/-- map.rs:476-481 `flush`. -/
def flushP [LinearOrder K] (c : Cfg K V) (k : P kd) : P kd :=
  look fun s => match s.mem with
    | [] => settleP k
    | _ :: _ => compactP c (settleP k)

/-- Read the tables and return: fails if the directory of a table is missing. -/
def readP [DecidableEq K] [DecidableEq V] (q : Store kd → KvRes K V) : P kd :=
  .act (fun a => if ∀ t ∈ kd.tabs a.s.cur, t ∈ a.s.disk.dirs then some a else none) fun _ b => .ret (q b.s)

/-- map.rs:129-150 `insert`, 178-199 `remove`. -/
def writeP [LinearOrder K] (c : Cfg K V) (k : K) (data : Option V) : P kd :=
  .act (fun a => some { a with s := a.s.tick.1 }) fun a _ =>
    .act (fun b => (b.s.usageAfter c k ⟨data, a.s.clock⟩).map fun u =>
        { b with s := { b.s with usage := u, mem := SL.ins k ⟨data, a.s.clock⟩ b.s.mem } })
      fun _ b => if c.maxMem < b.s.usage then compactP c (.ret .unit) else .ret .unit

/-- size_tiered.rs:498-522, leveled.rs:601-626 and map.rs:376-379 `clear`. -/
def clearP : P kd :=
  look fun s =>
    let k := .act (fun a => some { a with s := { a.s with mem := [], handle := false, cur := kd.empty, next := none } })
      fun _ b => removeP (b.s.disk.dirs.map (·.id)) (set Store.writeMeta (.ret .unit))
    if s.handle then .await (fun a => a.s.job.isNone && !a.s.busy) k else k

/-- The calls of the map (map.rs:129-514). -/
def prog [LinearOrder K] [DecidableEq V] (c : Cfg K V) : KvOp K V → P kd
  | .insert k v => writeP c k (some v)
  | .remove k => writeP c k none
  | .get k => look fun s => match SL.find k s.mem with
    | some e => .ret (.val e.2.data)
    | none => replaceP (readP fun s => .val ((kd.get s.cur k).bind (·.data)))
  | .containsKey k => look fun s => match SL.find k s.mem with
    | some e => .ret (.bool e.2.data.isSome)
    | none => replaceP (readP fun s => .bool ((kd.get s.cur k).bind (·.data)).isSome)
  | .lenHint => replaceP (.act (fun a => (Store.hint (kd.tabs a.s.cur)).map fun _ => a) fun a _ =>
      match Store.hint (kd.tabs a.s.cur) with
      | none => .ret .unit
      | some n => .ret (.num (a.s.mem.length + n)))
  | .len => flushP c (replaceP (readP fun s => .num s.items.length))
  | .isEmpty => flushP c (replaceP (readP fun s => .bool (s.items.length == 0)))
  | .min => replaceP (readP fun s => .key (Store.optMin ((Store.live s.mem).head?.map (·.1)) (s.items.head?.map (·.1))))
  | .max => replaceP (readP fun s =>
      .key (Store.optMax ((Store.live s.mem).getLast?.map (·.1)) (s.items.getLast?.map (·.1))))
  | .iter => flushP c (replaceP (readP fun s => .list s.items))
  | .hold => flushP c (replaceP (set (fun s => { s with locks := s.locks + 1 }) (readP fun s => .list s.items)))
  | .release => set (fun s => { s with locks := s.locks - 1 }) (.ret .unit)
  | .flush => flushP c (.ret .unit)
  | .clear => clearP
  | .reopen => flushP c (.act (fun a => (Store.openDir a.s.fresh a.s.trace a.s.disk).map fun s => ⟨s, none⟩)
      fun _ _ => .ret .unit)

end Fine

/-- A running program: the state, the calls that have returned with their results, and the call that is running. -/
structure Conf (kd : Kind K V) where
  a : Fine kd
  log : List (KvOp K V × KvRes K V)
  run : Option (KvOp K V × Fine.P kd)

namespace Conf

variable {kd : Kind K V}

/-- A new map. -/
def init (kd : Kind K V) : Conf kd := ⟨⟨Store.new kd, none⟩, [], none⟩

/-- The steps of the calling thread.  A map that was never written cannot be opened again (C40), so `reopen` is called
only after a write. -/
inductive Main [LinearOrder K] [DecidableEq V] (c : Cfg K V) : Conf kd → Conf kd → Prop where
  | call (a log op) : (op = .reopen → ∃ q ∈ log, (∃ k v, q.1 = .insert k v) ∨ ∃ k, q.1 = .remove k) →
      Main c ⟨a, log, none⟩ ⟨a, log, some (op, Fine.prog c op)⟩
  | act (a a' log op f k) : f a = some a' → Main c ⟨a, log, some (op, .act f k)⟩ ⟨a', log, some (op, k a a')⟩
  | await (a log op b k) : b a = true → Main c ⟨a, log, some (op, .await b k)⟩ ⟨a, log, some (op, k)⟩
  | ret (a log op r) : Main c ⟨a, log, some (op, .ret r)⟩ ⟨a, log ++ [(op, r)], none⟩

/-- One step of either thread. -/
inductive Step [LinearOrder K] [DecidableEq V] (c : Cfg K V) (inp : kd.Job → List (Table K V)) :
    Conf kd → Conf kd → Prop where
  | main {x y} : Main c x y → Step c inp x y
  | thread (a log run) : Step c inp ⟨a, log, run⟩ ⟨a.thread inp, log, run⟩

/-- The states reached by any interleaving. -/
inductive Reach [LinearOrder K] [DecidableEq V] (c : Cfg K V) (inp : kd.Job → List (Table K V)) : Conf kd → Prop where
  | init : Reach c inp (init kd)
  | step {x y} : Reach c inp x → Step c inp x y → Reach c inp y

end Conf

end Verif.Lsm
