/-
C88: a comparison or a hash function of the user's key type panics during a call on an `LsmMap`, and the client
catches the panic and goes on.

`get`, `contains_key`, `min`, `max`, `len`, `is_empty` and `iter` run the user's functions while they hold the mutex
`curr_metadata`, which a panic poisons; every later `lock().unwrap()` panics.  `try_compact` runs the hash function
after it has taken the in-memory tree out of the map.
-/
import Verif.Lsm.Panic

namespace Verif.Lsm

open Verif Verif.Spec

variable {K V : Type}

/-- Where in a call the user's code panics. -/
inductive Place (K V : Type) where
  /-- in `in_memory_tree.get` (map.rs:137, 184, 259) -/
  | search
  /-- in `in_memory_tree.insert` (map.rs:143, 191) -/
  | store
  /-- while the table of the in-memory tree is written (map.rs:92-98, sstable.rs:160); `left` is what is on the disk by
  then -/
  | table (left : Table K V)
  /-- while the mutex is held: in the lookups in the tables (size_tiered.rs:463-469, leveled.rs:537-558), or when the
  iterator of the tables is created (size_tiered.rs:550-552, leveled.rs:662-666) -/
  | lookup
  /-- while the iterator of the tables is read (size_tiered.rs:491, 525, 532, leveled.rs:594, 629, 636), or in the
  comparison of `min` and `max` (map.rs:416, 443) -/
  | merge

/-- What happens to a map: a call, after `d` events of the compaction thread; a call in which the user's code panics; or
the map is dropped, without `flush`, and its directory is opened again. -/
inductive UEv (K V : Type) where
  | call (op : KvOp K V) (d : Nat)
  | unwind (op : KvOp K V) (d : Nat) (p : Place K V)
  | restart

/-- The call, if it is one without a panic of the user's code. -/
def UEv.call? : UEv K V → Option (KvOp K V)
  | .call op _ => some op
  | _ => none

/-- The calls without panics among the events. -/
abbrev unhurt (es : List (UEv K V)) : List (KvOp K V) := es.filterMap UEv.call?

/-- The calls that returned; `none` is the result of a call that panicked. -/
def returned : List (UEv K V) → List (Option (KvRes K V)) → List (KvOp K V)
  | .call op _ :: es, some _ :: rs => op :: returned es rs
  | _ :: es, _ :: rs => returned es rs
  | _, _ => []

namespace Store

variable {kd : Kind K V}

/-- map.rs:91-98: the in-memory tree has been taken out of the map and is lost; `t` is left on the disk, and no metadata
names it. -/
def lose (s : Store kd) (t : Table K V) : Store kd :=
  put { s with usage := 0, mem := [], fresh := s.fresh + 1 }
    { s.disk with dirs := s.disk.dirs ++ [{ t with id := s.fresh }] }

variable [LinearOrder K]

/-- map.rs:129-143, 178-191: the first part of `insert` and `remove`, up to the comparison with `max_in_memory_size`. -/
def stash (c : Cfg K V) (s : Store kd) (k : K) (data : Option V) : Option (Store kd) :=
  let (s, time) := s.tick
  (s.usageAfter c k ⟨data, time⟩).map fun u => { s with usage := u, mem := SL.ins k ⟨data, time⟩ s.mem }

/-- A write that panics at the given place. -/
def unwindWrite (c : Cfg K V) (s : Store kd) (k : K) (data : Option V) : Place K V → Option (Store kd)
  | .search => if s.mem = [] then none else some s.tick.1
  | .store => if s.mem = [] then none else (s.stash c k data).map fun s' => { s' with mem := s.mem }
  | .table t => (s.stash c k data).bind fun s' => if c.maxMem < s'.usage then some (s'.lose t) else none
  | _ => none

/-- A lookup that panics at the given place; the flag says whether the mutex is held. -/
def unwindGet (s : Store kd) (k : K) : Place K V → Option (Store kd × Bool)
  | .search => if s.mem = [] then none else some (s, false)
  | .lookup => if (SL.find k s.mem).isSome then none else
      s.tryReplace.bind fun s => if kd.tabs s.cur = [] then none else some (s, true)
  | _ => none

/-- `min` or `max`. -/
def unwindMin (s : Store kd) : Place K V → Option (Store kd × Bool)
  | .lookup => s.tryReplace.bind fun s => if kd.tabs s.cur = [] then none else some (s, true)
  | .merge => s.tryReplace.map fun s => (s, false)
  | _ => none

/-- The writing of the table in `flush`, which `len`, `is_empty`, `iter` and `flush` begin with. -/
def unwindFlush (s : Store kd) (t : Table K V) : Option (Store kd × Bool) :=
  if s.mem = [] then none else some (s.lose t, false)

/-- `len`, `is_empty` or `iter`. -/
def unwindLen (c : Cfg K V) (s : Store kd) : Place K V → Option (Store kd × Bool)
  | .table t => s.unwindFlush t
  | .lookup => (s.flush c).bind fun s => s.tryReplace.bind fun s => if kd.tabs s.cur = [] then none else some (s, true)
  | .merge => (s.flush c).bind fun s => s.tryReplace.map fun s => (s, false)
  | _ => none

/-- A call (map.rs:129-514) in which the user's code panics at the given place, on a map whose mutex is not poisoned: what
is left of the map, and whether the mutex is poisoned.  `none`: the call does not come to this place.  `BTreeMap` is
taken to leave the tree as it was when a comparison of `get` or `insert` panics, as its implementation does. -/
def unwind (c : Cfg K V) (s : Store kd) (op : KvOp K V) (d : Nat) (p : Place K V) : Option (Store kd × Bool) :=
  let s := work d s
  match op with
  | .insert k v => (s.unwindWrite c k (some v) p).map fun s => (s, false)
  | .remove k => (s.unwindWrite c k none p).map fun s => (s, false)
  | .get k => s.unwindGet k p
  | .containsKey k => s.unwindGet k p
  | .min => s.unwindMin p
  | .max => s.unwindMin p
  | .len => s.unwindLen c p
  | .isEmpty => s.unwindLen c p
  | .iter => s.unwindLen c p
  | .hold => match p with
    | .merge => none
    | p => s.unwindLen c p
  | .flush => match p with
    | .table t => s.unwindFlush t
    | _ => none
  | .reopen => match p with
    | .table t => s.unwindFlush t
    | _ => none
  | _ => none

/-- `insert` and `remove` when the mutex is poisoned: if a table is to be written, then it is written and
`try_compact` of the strategy panics (size_tiered.rs:409, leveled.rs:485). -/
def badWrite (c : Cfg K V) (s : Store kd) (k : K) (data : Option V) : Option (Store kd × Option (KvRes K V)) :=
  (s.stash c k data).bind fun s =>
    if c.maxMem < s.usage then
      (build c.sizes (c.block s.mem.length) s.mem s.fresh).map fun t => (s.lose t, none)
    else some (s, some .unit)

/-- `get` and `contains_key` when the mutex is poisoned: what is found in memory is returned, otherwise `lock().unwrap()`
panics (size_tiered.rs:457, leveled.rs:530). -/
def badGet (s : Store kd) (k : K) (f : Option V → KvRes K V) : Store kd × Option (KvRes K V) :=
  (s, (SL.find k s.mem).map fun e => f e.2.data)

/-- `flush` when the mutex is poisoned (map.rs:476-481): if anything is in memory, `try_compact` panics; if not, and there
is a thread to be joined, `flush` of the strategy panics after joining it (size_tiered.rs:436-450, leveled.rs:512-526). -/
def badFlush (c : Cfg K V) (s : Store kd) : Option (Store kd × Option (KvRes K V)) :=
  match s.mem with
  | _ :: _ => (build c.sizes (c.block s.mem.length) s.mem s.fresh).map fun t => (s.lose t, none)
  | [] => if s.handle then s.join.map fun s => ({ s with handle := false }, none) else some (s, some .unit)

/-- The calls when the mutex is poisoned; the result is `none` if the call panics.  All calls that look at the tables
panic, after they have done what comes before: `flush` for `len`, `is_empty` and `iter`, and `clear` has cleared the
in-memory tree and joined the thread (map.rs:376-379, size_tiered.rs:498-508, leveled.rs:601-611).  `reopen` is not
modelled here. -/
def bad (c : Cfg K V) (s : Store kd) (op : KvOp K V) (d : Nat) : Option (Store kd × Option (KvRes K V)) :=
  let s := work d s
  match op with
  | .insert k v => s.badWrite c k (some v)
  | .remove k => s.badWrite c k none
  | .get k => some (s.badGet k .val)
  | .containsKey k => some (s.badGet k fun o => .bool o.isSome)
  | .lenHint => some (s, none)
  | .min => some (s, none)
  | .max => some (s, none)
  | .len => (s.badFlush c).map fun p => (p.1, none)
  | .isEmpty => (s.badFlush c).map fun p => (p.1, none)
  | .iter => (s.badFlush c).map fun p => (p.1, none)
  | .hold => (s.badFlush c).map fun p => (p.1, none)
  | .release => some ({ s with locks := s.locks - 1 }, some .unit)
  | .flush => s.badFlush c
  | .clear =>
    let s := { s with mem := [] }
    if s.handle then s.join.map fun s => ({ s with handle := false }, none) else some (s, none)
  | .reopen => none

/-- A call in which the user's code panics when the mutex is poisoned: it can only panic in memory. -/
def badUnwind (c : Cfg K V) (s : Store kd) (op : KvOp K V) (d : Nat) (p : Place K V) : Option (Store kd) :=
  match p with
  | .lookup => none
  | .merge => none
  | p => (s.unwind c op d p).map (·.1)

/-- One event.  The flag says whether the mutex is poisoned; the result of a call that panics is `none`. -/
def eventU [DecidableEq V] (c : Cfg K V) : Store kd × Bool → UEv K V → Option ((Store kd × Bool) × Option (KvRes K V))
  | (s, false), .call op d => (s.step c op d).map fun p => ((p.1, false), some p.2)
  | (s, true), .call op d => (s.bad c op d).map fun p => ((p.1, true), p.2)
  | (s, false), .unwind op d p => (s.unwind c op d p).map fun p => (p, none)
  | (s, true), .unwind op d p => (s.badUnwind c op d p).map fun s => ((s, true), none)
  | (s, _), .restart => (openDir s.fresh s.trace s.disk).map fun s => ((s, false), none)

/-- A list of events. -/
def runU [DecidableEq V] (c : Cfg K V) : Store kd × Bool → List (UEv K V) →
    Option ((Store kd × Bool) × List (Option (KvRes K V)))
  | s, [] => some (s, [])
  | s, e :: es => (eventU c s e).bind fun p => (runU c p.1 es).map fun q => (q.1, p.2 :: q.2)

/-! ### The invariant -/

variable {x : Bool}

theorem inv_tick {L : Laws kd x} {c : Cfg K V} {s : Store kd} {g : Ghost K V} (h : Inv L c s g) {u : Nat}
    (hu : memSize c.sizes s.mem ≤ u) :
    Inv L c ({ s.tick.1 with usage := u } : Store kd) ⟨g.W, g.ins, True⟩ := by
  refine ⟨h.memSorted, ?_, h.memNew, ?_, h.inv, h.sees, h.ids, h.job, h.next, h.locked, h.files, h.dirIds,
    h.dirNew, h.md, .inl rfl, hu, fun hc => absurd trivial hc, h.vals, h.memVals⟩
  · intro e he
    have := h.memTime e he
    show e.2.time < s.clock + 1
    omega
  · intro t ht
    have := h.curTime t ht
    show t.times.2 < s.clock + 1
    omega

theorem inv_stash {L : Laws kd x} {c : Cfg K V} {s : Store kd} {g : Ghost K V} (h : Inv L c s g) (k : K) (data : Option V) :
    ∃ u, s.stash c k data = some (s.noted k data u) ∧ s.usageAfter c k ⟨data, s.clock⟩ = some u ∧
      Inv L c (s.noted k data u) ⟨g.W, fun a y => g.ins a y ∨ (a = k ∧ data = some y), g.cleared⟩ := by
  obtain ⟨u, hu, hu1, hu2⟩ := usageAfter_some h k ⟨data, s.clock⟩
  refine ⟨u, ?_, hu, inv_noted h hu1 hu2⟩
  unfold stash
  rw [tick_eq]
  have hu' : usageAfter c ({ s with
    clock := s.clock + 1, disk := { s.disk with time := some (s.clock + 1) },
    trace := s.trace ++ [{ s.disk with time := some (s.clock + 1) }] } : Store kd) k ⟨data, s.clock⟩ = some u := hu
  simp only [hu']
  rfl

theorem usage_grows {L : Laws kd x} {c : Cfg K V} {s : Store kd} {g : Ghost K V} (h : Inv L c s g) {k : K} {v : Val V} {u : Nat}
    (hv : ∀ e, c.sizes.entry (k, e) ≤ c.sizes.entry (k, v)) (hu : s.usageAfter c k v = some u) :
    memSize c.sizes s.mem ≤ u := by
  have := h.used
  unfold usageAfter at hu
  cases hf : SL.find k s.mem with
  | none =>
    rw [hf] at hu
    simp only [Option.some.injEq] at hu
    omega
  | some e =>
    rw [hf] at hu
    simp only at hu
    split at hu
    · simp only [Option.some.injEq] at hu
      have := hv e.2
      omega
    · cases hu

theorem inv_lose {L : Laws kd x} {c : Cfg K V} {s : Store kd} {g : Ghost K V} (h : Inv L c s g) (t : Table K V) :
    Inv L c (s.lose t) g := by
  refine ⟨by simp [lose, put, SL.Sorted], by simp [lose, put], by simp [lose, put], h.curTime, h.inv, h.sees, h.ids, h.job, ?_,
    h.locked, fun t ht => List.mem_append_left _ (h.files t ht), ?_, ?_, h.md, h.time, by simp [lose, put, memSize],
    by simp [lose, put, memSize], h.vals, by simp [lose, put]⟩
  · intro m hm
    obtain ⟨S, j, f, new, h1, h2, h3, h4, h5, h6⟩ := h.next m hm
    exact ⟨S, j, f, new, h1, h2, h3, h4, fun u hu => List.mem_append_left _ (h5 u hu), h6⟩
  · show ((s.disk.dirs ++ [({ t with id := s.fresh } : Table K V)]).map (·.id)).Nodup
    rw [List.map_append]
    refine List.nodup_append.2 ⟨h.dirIds, by simp, ?_⟩
    intro i hi k hk hik
    obtain ⟨u, hu, rfl⟩ := List.mem_map.1 hi
    have := h.dirNew u hu
    simp only [List.map_cons, List.map_nil, List.mem_singleton] at hk
    omega
  · intro u hu
    show u.id < s.fresh + 1
    rcases List.mem_append.1 hu with hu | hu
    · have := h.dirNew u hu; omega
    · simp only [List.mem_singleton] at hu
      subst hu
      show s.fresh < s.fresh + 1
      omega

theorem inv_replaced {L : Laws kd x} {c : Cfg K V} {s s' : Store kd} {g : Ghost K V} (h : Inv L c s g) (hh : s.Hand)
    (hs : s.tryReplace = some s') : Inv L c s' g ∧ s'.Hand ∧ s'.mem = s.mem := by
  obtain ⟨s3, k1, k2, k3, k4, k5, k6, k7, k8, k9, k10, _⟩ := inv_tryReplace h
  rw [hs] at k1
  simp only [Option.some.injEq] at k1
  subst k1
  exact ⟨k2, fun hb => ⟨k6.trans (hh (k8 ▸ hb)).1, k5⟩, k3⟩

theorem clock_pos {L : Laws kd x} {c : Cfg K V} {s : Store kd} {g : Ghost K V} (h : Inv L c s g) (hn : kd.tabs s.cur ≠ []) :
    s.clock ≠ 0 := by
  obtain ⟨t, ht⟩ := List.exists_mem_of_ne_nil _ hn
  have := h.curTime t ht
  omega

/-- The states of a map with the contents `m`, of which the values `ins` have been inserted. -/
def Sound (L : Laws kd x) (c : Cfg K V) (s : Store kd) (m : K → Option V) (ins : K → V → Prop) : Prop :=
  ∃ g : Ghost K V, Inv L c s g ∧ s.Hand ∧ look s.mem g.W = m ∧ ∀ a y, g.ins a y → ins a y

/-- The panics that do no harm: those in the in-memory tree and those without the mutex; but in `BTreeMap::insert` only if
the new version is not smaller than any other one. -/
def Harmless (c : Cfg K V) : UEv K V → Prop
  | .call _ _ => True
  | .unwind _ _ .search => True
  | .unwind _ _ .merge => True
  | .unwind (.insert k v) _ .store => ∀ e t, c.sizes.entry (k, e) ≤ c.sizes.entry (k, ⟨some v, t⟩)
  | _ => False

omit [LinearOrder K] in
theorem frame_store {c : Cfg K V} {op : KvOp K V} {d : Nat} (h : Harmless c (.unwind op d .store)) :
    ∃ k v, op = .insert k v ∧ ∀ e t, c.sizes.entry (k, e) ≤ c.sizes.entry (k, ⟨some v, t⟩) := by
  cases op <;> first | exact ⟨_, _, rfl, h⟩ | exact absurd h (by simp [Harmless])

theorem sound_flush {L : Laws kd x} (hL : ∀ l, L.good l) {c : Cfg K V} {s s' : Store kd} {m : K → Option V}
    {ins : K → V → Prop} (h : Sound L c s m ins) (hs : s.flush c = some s') : Sound L c s' m ins := by
  obtain ⟨g, h1, h2, h3, h4⟩ := h
  obtain ⟨k1, k2, k3, k4, -⟩ := inv_flush h1 h2 (fun _ => hL _) hs
  refine ⟨_, k1, fun _ => ⟨k2, k3⟩, ?_, h4⟩
  rw [k4]
  exact (look_addW _ _).trans h3

theorem sound_replace {L : Laws kd x} {c : Cfg K V} {s s' : Store kd} {m : K → Option V}
    {ins : K → V → Prop} (h : Sound L c s m ins) (hs : s.tryReplace = some s') : Sound L c s' m ins := by
  obtain ⟨g, h1, h2, h3, h4⟩ := h
  obtain ⟨k1, k2, k3⟩ := inv_replaced h1 h2 hs
  exact ⟨g, k1, k2, by rw [k3]; exact h3, h4⟩

theorem sound_work {L : Laws kd x} {c : Cfg K V} {s : Store kd} {m : K → Option V}
    {ins : K → V → Prop} (h : Sound L c s m ins) (d : Nat) : Sound L c (work d s) m ins := by
  obtain ⟨g, h1, h2, h3, h4⟩ := h
  exact ⟨g, inv_work d h1, hand_work d h2, by rw [(work_frame d s).1]; exact h3, h4⟩

/-- A panic at a harmless place, or in a lookup: the contents are as before; the mutex is poisoned in the latter case
only. -/
theorem sound_unwind {L : Laws kd x} (hL : ∀ l, L.good l) {c : Cfg K V} {s s' : Store kd} {m : K → Option V}
    {ins : K → V → Prop} {op : KvOp K V} {d : Nat} {p : Place K V} {b : Bool} (h : Sound L c s m ins)
    (hp : Harmless c (.unwind op d p) ∨ p = .lookup) (hs : s.unwind c op d p = some (s', b)) :
    Sound L c s' m ins ∧ (b = true → s'.clock ≠ 0) ∧ (b = true ↔ p = .lookup) := by
  have hw := sound_work h d
  simp only [unwind] at hs
  generalize work d s = w at *
  have hwr : ∀ k data, (p = .store → ∃ v, data = some v ∧ ∀ e t, c.sizes.entry (k, e) ≤ c.sizes.entry (k, ⟨some v, t⟩)) →
      (w.unwindWrite c k data p).map (fun s => (s, false)) = some (s', b) →
      Sound L c s' m ins ∧ (b = true → s'.clock ≠ 0) ∧ (b = true ↔ p = .lookup) := by
    intro k data hst hs
    simp only [Option.map_eq_some_iff, Prod.mk.injEq] at hs
    obtain ⟨s2, e, rfl, rfl⟩ := hs
    obtain ⟨g, h1, h2, h3, h4⟩ := hw
    cases p with
    | search =>
      simp only [unwindWrite] at e
      split at e
      · cases e
      · simp only [Option.some.injEq] at e
        subst e
        exact ⟨⟨_, inv_tick h1 h1.used, h2, h3, h4⟩, by simp, by simp⟩
    | store =>
      obtain ⟨v, rfl, hv⟩ := hst rfl
      simp only [unwindWrite] at e
      split at e
      · cases e
      · obtain ⟨u, k1, k2, -⟩ := inv_stash h1 k (some v)
        rw [k1] at e
        simp only [Option.map_some, Option.some.injEq] at e
        subst e
        exact ⟨⟨_, inv_tick h1 (usage_grows h1 (fun e => hv e _) k2), h2, h3, h4⟩, by simp, by simp⟩
    | table t => rcases hp with hp | hp <;> simp [Harmless] at hp
    | lookup => simp [unwindWrite] at e
    | merge => simp [unwindWrite] at e
  have hlk : ∀ {s1 : Store kd}, Sound L c s1 m ins → (s1.tryReplace.bind fun s => if kd.tabs s.cur = [] then none else some (s, true)) =
      some (s', b) → Sound L c s' m ins ∧ (b = true → s'.clock ≠ 0) ∧ b = true := by
    intro s1 h1 e
    simp only [Option.bind_eq_some_iff] at e
    obtain ⟨s2, e1, e2⟩ := e
    split at e2
    · cases e2
    · rename_i hne
      simp only [Option.some.injEq, Prod.mk.injEq] at e2
      obtain ⟨rfl, rfl⟩ := e2
      have h2 := sound_replace h1 e1
      obtain ⟨g, j1, _⟩ := id h2
      exact ⟨h2, fun _ => clock_pos j1 hne, rfl⟩
  have hmg : ∀ {s1 : Store kd}, Sound L c s1 m ins → (s1.tryReplace.map fun s => (s, false)) = some (s', b) →
      Sound L c s' m ins ∧ (b = true → s'.clock ≠ 0) ∧ b = false := by
    intro s1 h1 e
    simp only [Option.map_eq_some_iff, Prod.mk.injEq] at e
    obtain ⟨s2, e1, rfl, rfl⟩ := e
    exact ⟨sound_replace h1 e1, by simp, rfl⟩
  have hget : ∀ k, w.unwindGet k p = some (s', b) →
      Sound L c s' m ins ∧ (b = true → s'.clock ≠ 0) ∧ (b = true ↔ p = .lookup) := by
    intro k hs
    cases p with
    | search =>
      simp only [unwindGet] at hs
      split at hs
      · cases hs
      · simp only [Option.some.injEq, Prod.mk.injEq] at hs
        obtain ⟨rfl, rfl⟩ := hs
        exact ⟨hw, by simp, by simp⟩
    | lookup =>
      simp only [unwindGet] at hs
      split at hs
      · cases hs
      · obtain ⟨a1, a2, a3⟩ := hlk hw hs
        exact ⟨a1, a2, by simp [a3]⟩
    | store => simp [unwindGet] at hs
    | table t => simp [unwindGet] at hs
    | merge => simp [unwindGet] at hs
  have hmin : w.unwindMin p = some (s', b) →
      Sound L c s' m ins ∧ (b = true → s'.clock ≠ 0) ∧ (b = true ↔ p = .lookup) := by
    intro hs
    cases p with
    | lookup =>
      obtain ⟨a1, a2, a3⟩ := hlk hw hs
      exact ⟨a1, a2, by simp [a3]⟩
    | merge =>
      obtain ⟨a1, a2, a3⟩ := hmg hw hs
      exact ⟨a1, a2, by simp [a3]⟩
    | search => simp [unwindMin] at hs
    | store => simp [unwindMin] at hs
    | table t => simp [unwindMin] at hs
  have hlen : w.unwindLen c p = some (s', b) →
      Sound L c s' m ins ∧ (b = true → s'.clock ≠ 0) ∧ (b = true ↔ p = .lookup) := by
    intro hs
    cases p with
    | lookup =>
      simp only [unwindLen] at hs
      rw [Option.bind_eq_some_iff] at hs
      obtain ⟨s1, e1, e2⟩ := hs
      obtain ⟨a1, a2, a3⟩ := hlk (sound_flush hL hw e1) e2
      exact ⟨a1, a2, by simp [a3]⟩
    | merge =>
      simp only [unwindLen] at hs
      rw [Option.bind_eq_some_iff] at hs
      obtain ⟨s1, e1, e2⟩ := hs
      obtain ⟨a1, a2, a3⟩ := hmg (sound_flush hL hw e1) e2
      exact ⟨a1, a2, by simp [a3]⟩
    | table t => rcases hp with hp | hp <;> simp [Harmless] at hp
    | search => simp [unwindLen] at hs
    | store => simp [unwindLen] at hs
  cases op with
  | insert k v =>
    refine hwr k (some v) (fun hst => ?_) hs
    subst hst
    rcases hp with hp | hp
    · exact ⟨v, rfl, hp⟩
    · cases hp
  | remove k =>
    refine hwr k none (fun hst => ?_) hs
    subst hst
    rcases hp with hp | hp
    · obtain ⟨_, _, h, _⟩ := frame_store hp; cases h
    · cases hp
  | get k => exact hget k hs
  | containsKey k => exact hget k hs
  | min => exact hmin hs
  | max => exact hmin hs
  | len => exact hlen hs
  | isEmpty => exact hlen hs
  | iter => exact hlen hs
  | hold =>
    cases p with
    | merge => simp at hs
    | search => exact hlen hs
    | store => exact hlen hs
    | lookup => exact hlen hs
    | table t => exact hlen hs
  | flush =>
    cases p with
    | table t => rcases hp with hp | hp <;> simp [Harmless] at hp
    | _ => simp at hs
  | reopen =>
    cases p with
    | table t => rcases hp with hp | hp <;> simp [Harmless] at hp
    | _ => simp at hs
  | lenHint => simp at hs
  | release => simp at hs
  | clear => simp at hs

/-! ### Lists of events -/

variable [DecidableEq V]

theorem runU_cons {c : Cfg K V} {s s' : Store kd × Bool} {e : UEv K V} {es : List (UEv K V)}
    {rs : List (Option (KvRes K V))} (h : runU c s (e :: es) = some (s', rs)) :
    ∃ s1 r rs', eventU c s e = some (s1, r) ∧ runU c s1 es = some (s', rs') ∧ rs = r :: rs' := by
  simp only [runU, Option.bind_eq_some_iff, Option.map_eq_some_iff, Prod.mk.injEq] at h
  obtain ⟨⟨s1, r⟩, h1, ⟨s2, rs'⟩, h2, rfl, rfl⟩ := h
  exact ⟨s1, r, rs', h1, h2, rfl⟩

theorem runU_append {c : Cfg K V} : ∀ (es : List (UEv K V)) {fs : List (UEv K V)} {s s' : Store kd × Bool}
    {rs : List (Option (KvRes K V))}, runU c s (es ++ fs) = some (s', rs) →
    ∃ s1 r1 r2, runU c s es = some (s1, r1) ∧ runU c s1 fs = some (s', r2) ∧ rs = r1 ++ r2
  | [], fs, s, s', rs, h => ⟨s, [], rs, rfl, h, rfl⟩
  | e :: es, fs, s, s', rs, h => by
    obtain ⟨s1, r, rs', h1, h2, rfl⟩ := runU_cons h
    obtain ⟨s2, r1, r2, k1, k2, rfl⟩ := runU_append es h2
    exact ⟨s2, r :: r1, r2, by simp [runU, h1, k1], k2, rfl⟩

theorem sound_new (L : Laws kd x) (c : Cfg K V) :
    Sound L c (new kd) (contents []) (fun a y => KvOp.insert a y ∈ ([] : List (KvOp K V))) :=
  ⟨_, inv_new L c, hand_new, rfl, fun _ _ h => h.elim⟩

theorem sound_step {L : Laws kd x} (hL : ∀ l, L.good l) {c : Cfg K V} {s s' : Store kd} {pre : List (KvOp K V)}
    {op : KvOp K V} {d : Nat} {r : KvRes K V} (h : Sound L c s (contents pre) (fun a y => .insert a y ∈ pre))
    (hs : s.step c op d = some (s', r)) :
    Sound L c s' (contents (pre ++ [op])) (fun a y => .insert a y ∈ pre ++ [op]) := by
  obtain ⟨g, h1, h2, h3, h4⟩ := h
  obtain ⟨W', k1, k2, k3, -⟩ := inv_step h1 h2 (fun l _ => hL l) hs
  refine ⟨_, k1, k2, ?_, ?_⟩
  · rw [contents_snoc, ← h3]; exact k3
  · rintro a y (h | h)
    · exact List.mem_append_left _ (h4 a y h)
    · rw [h]; exact List.mem_append_right _ (by simp)

/-- After harmless panics the contents are those after the calls that did not panic. -/
theorem sound_runU {L : Laws kd x} (hL : ∀ l, L.good l) {c : Cfg K V} : ∀ (es : List (UEv K V)) {s s' : Store kd} {b : Bool}
    {pre : List (KvOp K V)} {rs : List (Option (KvRes K V))}, (∀ e ∈ es, Harmless c e) →
    Sound L c s (contents pre) (fun a y => .insert a y ∈ pre) → runU c (s, false) es = some ((s', b), rs) →
    b = false ∧ Sound L c s' (contents (pre ++ unhurt es)) (fun a y => .insert a y ∈ pre ++ unhurt es)
  | [], s, s', b, pre, rs, hp, h, hr => by
    simp only [runU, Option.some.injEq, Prod.mk.injEq] at hr
    obtain ⟨⟨rfl, rfl⟩, -⟩ := hr
    exact ⟨rfl, by simpa using h⟩
  | .call op d :: es, s, s', b, pre, rs, hp, h, hr => by
    obtain ⟨s1, r, rs', h1, h2, -⟩ := runU_cons hr
    simp only [eventU, Option.map_eq_some_iff, Prod.mk.injEq] at h1
    obtain ⟨⟨s2, r2⟩, h1, rfl, -⟩ := h1
    have := sound_runU hL es (fun e he => hp e (List.mem_cons_of_mem _ he)) (sound_step hL h h1) h2
    simpa [unhurt, UEv.call?] using this
  | .unwind op d p :: es, s, s', b, pre, rs, hp, h, hr => by
    obtain ⟨s1, r, rs', h1, h2, -⟩ := runU_cons hr
    simp only [eventU, Option.map_eq_some_iff, Prod.mk.injEq] at h1
    obtain ⟨⟨s2, b2⟩, h1, rfl, -⟩ := h1
    have hh := hp _ List.mem_cons_self
    obtain ⟨k1, -, k3⟩ := sound_unwind hL h (.inl hh) h1
    have hb : b2 = false := by
      by_contra hb
      have hl := k3.1 (by simpa using hb)
      subst hl
      cases op <;> exact hh
    subst hb
    exact sound_runU hL es (fun e he => hp e (List.mem_cons_of_mem _ he)) k1 h2
  | .restart :: es, s, s', b, pre, rs, hp, h, hr => absurd (hp _ List.mem_cons_self) (by simp [Harmless])

theorem sound_reads {L : Laws kd true} (hL : ∀ l, L.good l) {c : Cfg K V} {s : Store kd} {m : K → Option V}
    {ins : K → V → Prop} (h : Sound L c s m ins) :
    (∀ k d, ∃ s', s.step c (.get k) d = some (s', .val (m k))) ∧
    ∀ (op : KvOp K V) d s' r, op.Reads → s.step c op d = some (s', r) → op.Answer m r := by
  obtain ⟨g, h1, h2, h3, -⟩ := h
  have key : ∀ (op : KvOp K V) d s' r, op.Reads → s.step c op d = some (s', r) → op.Answer m r := by
    intro op d s' r hop hs
    obtain ⟨W', k1, k2, k3, k4, _⟩ := inv_step h1 h2 (fun l _ => hL l) hs
    have h2 : op.Answer (Lsm.look s'.mem W') r := answer_exact k1 hop k4
    rwa [k3, apply_reads hop, h3] at h2
  refine ⟨fun k d => ?_, key⟩
  obtain ⟨⟨s1, o, e1⟩, _⟩ := get_returns h1 k d
  have := key _ d s1 _ (by trivial) e1
  exact ⟨s1, e1.trans (congrArg (fun r => some (s1, r)) this)⟩

/-! ### When the mutex is poisoned -/

/-- The states of a map with a poisoned mutex: the metadata and what the tables hold stay as they were, and what is in
memory is right. -/
structure Bad (L : Laws kd x) (c : Cfg K V) (W : K → Option (Val V)) (cur : kd.M) (s : Store kd) (m : K → Option V) : Prop where
  inv : ∃ i q, Inv L c s ⟨W, i, q⟩
  cur : s.cur = cur
  clock : s.clock ≠ 0
  mem : ∀ k e, SL.find k s.mem = some e → e.2.data = m k

omit [DecidableEq V] in
theorem bad_work {L : Laws kd x} {c : Cfg K V} {W : K → Option (Val V)} {cur : kd.M} {s : Store kd} {m : K → Option V}
    (h : Bad L c W cur s m) (d : Nat) : Bad L c W cur (work d s) m := by
  obtain ⟨i, q, hi⟩ := h.inv
  obtain ⟨f1, f2, f3, f4, f5, f6⟩ := work_frame d s
  exact ⟨⟨i, q, inv_work d hi⟩, f3.trans h.cur, by rw [f5]; exact h.clock, by rw [f1]; exact h.mem⟩

omit [DecidableEq V] in
theorem bad_lose {L : Laws kd x} {c : Cfg K V} {W : K → Option (Val V)} {cur : kd.M} {s : Store kd} {m m' : K → Option V}
    (h : Bad L c W cur s m) (t : Table K V) : Bad L c W cur (s.lose t) m' := by
  obtain ⟨i, q, hi⟩ := h.inv
  exact ⟨⟨i, q, inv_lose hi t⟩, h.cur, h.clock, fun k e he => by simp [lose, put, SL.find_nil] at he⟩

omit [DecidableEq V] in
theorem bad_stash {L : Laws kd x} {c : Cfg K V} {W : K → Option (Val V)} {cur : kd.M} {s s' : Store kd} {m : K → Option V}
    {k : K} {data : Option V} (h : Bad L c W cur s m) (hs : s.stash c k data = some s') :
    Bad L c W cur s' (fun y => if y = k then data else m y) := by
  obtain ⟨i, q, hi⟩ := h.inv
  obtain ⟨u, k1, k2, k3⟩ := inv_stash hi k data
  rw [hs] at k1
  simp only [Option.some.injEq] at k1
  subst k1
  refine ⟨⟨_, _, k3⟩, h.cur, Nat.succ_ne_zero _, fun y e he => ?_⟩
  have he' : SL.find y (SL.ins k ⟨data, s.clock⟩ s.mem) = some e := he
  rw [SL.find_ins hi.memSorted] at he'
  split at he'
  · rename_i hy
    simp only [Option.some.injEq] at he'
    subst he'
    simp [hy]
  · rename_i hy
    simp only [hy, if_false]
    exact h.mem y e he'

omit [DecidableEq V] in
theorem bad_join {L : Laws kd x} {c : Cfg K V} {W : K → Option (Val V)} {cur : kd.M} {s s' : Store kd} {m : K → Option V}
    (h : Bad L c W cur s m) (hs : s.join = some s') : Bad L c W cur { s' with handle := false } m := by
  obtain ⟨i, q, hi⟩ := h.inv
  obtain ⟨k1, k2, k3, k4, k5, k6, k7⟩ := inv_join hi hs
  refine ⟨⟨i, q, ?_⟩, k5.trans h.cur, fun h0 => h.clock (k6.symm.trans h0), fun k e he => h.mem k e ?_⟩
  · exact ⟨k1.memSorted, k1.memTime, k1.memNew, k1.curTime, k1.inv, k1.sees, k1.ids, k1.job, k1.next, k1.locked, k1.files,
      k1.dirIds, k1.dirNew, k1.md, k1.time, k1.used, k1.usedEq, k1.vals, k1.memVals⟩
  · rw [← k3]; exact he

omit [DecidableEq V] in
theorem bad_flush {L : Laws kd x} {c : Cfg K V} {W : K → Option (Val V)} {cur : kd.M} {s s' : Store kd} {m : K → Option V}
    {r : Option (KvRes K V)} (h : Bad L c W cur s m) (hs : s.badFlush c = some (s', r)) : Bad L c W cur s' m := by
  unfold badFlush at hs
  cases hm : s.mem with
  | cons e l =>
    rw [hm] at hs
    simp only [Option.map_eq_some_iff, Prod.mk.injEq] at hs
    obtain ⟨t, -, rfl, -⟩ := hs
    exact bad_lose h t
  | nil =>
    rw [hm] at hs
    simp only at hs
    split at hs
    · simp only [Option.map_eq_some_iff, Prod.mk.injEq] at hs
      obtain ⟨s1, e, rfl, -⟩ := hs
      exact bad_join h e
    · simp only [Option.some.injEq, Prod.mk.injEq] at hs
      obtain ⟨rfl, -⟩ := hs
      exact h

omit [DecidableEq V] in
theorem bad_write {L : Laws kd x} {c : Cfg K V} {W : K → Option (Val V)} {cur : kd.M} {s s' : Store kd} {m : K → Option V}
    {k : K} {data : Option V} {r : Option (KvRes K V)} (h : Bad L c W cur s m) (hs : s.badWrite c k data = some (s', r)) :
    Bad L c W cur s' (if r.isSome then fun y => if y = k then data else m y else m) := by
  simp only [badWrite, Option.bind_eq_some_iff] at hs
  obtain ⟨s1, e1, e2⟩ := hs
  have h1 := bad_stash h e1
  split at e2
  · simp only [Option.map_eq_some_iff, Prod.mk.injEq] at e2
    obtain ⟨t, -, rfl, rfl⟩ := e2
    exact bad_lose h1 t
  · simp only [Option.some.injEq, Prod.mk.injEq] at e2
    obtain ⟨rfl, rfl⟩ := e2
    exact h1

omit [DecidableEq V] in
/-- A call on a map with a poisoned mutex. -/
theorem bad_step {L : Laws kd x} {c : Cfg K V} {W : K → Option (Val V)} {cur : kd.M} {s s' : Store kd} {m : K → Option V}
    {op : KvOp K V} {d : Nat} {r : Option (KvRes K V)} (h : Bad L c W cur s m) (hs : s.bad c op d = some (s', r)) :
    Bad L c W cur s' (if r.isSome then op.apply m else m) := by
  have hw := bad_work h d
  simp only [bad] at hs
  generalize work d s = w at *
  have hfl : (w.badFlush c).map (fun p => (p.1, (none : Option (KvRes K V)))) = some (s', r) → Bad L c W cur s' m ∧ r = none := by
    intro e
    simp only [Option.map_eq_some_iff, Prod.mk.injEq] at e
    obtain ⟨⟨s1, r1⟩, e1, rfl, rfl⟩ := e
    exact ⟨bad_flush hw e1, rfl⟩
  have hid : ∀ {f : KvOp K V}, f.apply m = m → Bad L c W cur s' m → Bad L c W cur s' (if r.isSome then f.apply m else m) := by
    intro f hf hb; rw [hf]; split <;> exact hb
  cases op with
  | insert k v => exact bad_write hw hs
  | remove k => exact bad_write hw hs
  | get k =>
    simp only [badGet, Option.some.injEq, Prod.mk.injEq] at hs
    obtain ⟨rfl, -⟩ := hs
    exact hid rfl hw
  | containsKey k =>
    simp only [badGet, Option.some.injEq, Prod.mk.injEq] at hs
    obtain ⟨rfl, -⟩ := hs
    exact hid rfl hw
  | lenHint => simp only [Option.some.injEq, Prod.mk.injEq] at hs; obtain ⟨rfl, rfl⟩ := hs; exact hw
  | min => simp only [Option.some.injEq, Prod.mk.injEq] at hs; obtain ⟨rfl, rfl⟩ := hs; exact hw
  | max => simp only [Option.some.injEq, Prod.mk.injEq] at hs; obtain ⟨rfl, rfl⟩ := hs; exact hw
  | len => obtain ⟨a, rfl⟩ := hfl hs; exact a
  | isEmpty => obtain ⟨a, rfl⟩ := hfl hs; exact a
  | iter => obtain ⟨a, rfl⟩ := hfl hs; exact a
  | hold => obtain ⟨a, rfl⟩ := hfl hs; exact a
  | release =>
    simp only [Option.some.injEq, Prod.mk.injEq] at hs
    obtain ⟨rfl, -⟩ := hs
    obtain ⟨i, q, hi⟩ := hw.inv
    refine hid rfl ⟨⟨i, q, ?_⟩, hw.cur, hw.clock, hw.mem⟩
    exact ⟨hi.memSorted, hi.memTime, hi.memNew, hi.curTime, hi.inv, hi.sees, hi.ids, hi.job, hi.next,
      fun hl => hi.locked (fun h0 => hl (by simp [h0])), hi.files,
      hi.dirIds, hi.dirNew, hi.md, hi.time, hi.used, hi.usedEq, hi.vals, hi.memVals⟩
  | flush => exact hid rfl (bad_flush hw hs)
  | clear =>
    obtain ⟨i, q, hi⟩ := hw.inv
    have h0 : Bad L c W cur { w with mem := [] } m := by
      refine ⟨⟨i, True, ?_⟩, hw.cur, hw.clock, fun k e he => by simp [SL.find_nil] at he⟩
      exact ⟨by simp [SL.Sorted], by simp, by simp, hi.curTime, hi.inv, hi.sees, hi.ids, hi.job, hi.next, hi.locked,
        hi.files, hi.dirIds, hi.dirNew, hi.md, hi.time, by simp [memSize], by simp, hi.vals, by simp⟩
    simp only at hs
    split at hs
    · simp only [Option.map_eq_some_iff, Prod.mk.injEq] at hs
      obtain ⟨s1, e, rfl, rfl⟩ := hs
      exact bad_join h0 e
    · simp only [Option.some.injEq, Prod.mk.injEq] at hs
      obtain ⟨rfl, rfl⟩ := hs
      exact h0
  | reopen => simp at hs

omit [DecidableEq V] in
theorem bad_unwind {L : Laws kd x} {c : Cfg K V} {W : K → Option (Val V)} {cur : kd.M} {s s' : Store kd} {m : K → Option V}
    {op : KvOp K V} {d : Nat} {p : Place K V} (h : Bad L c W cur s m) (hs : s.badUnwind c op d p = some s')
    (hp : Harmless c (.unwind op d p) ∨ ∃ t, p = .table t) : Bad L c W cur s' m := by
  have hw := bad_work h d
  have hq : ∃ b, s.unwind c op d p = some (s', b) ∧ (p = .search ∨ p = .store ∨ ∃ t, p = .table t) := by
    cases p with
    | lookup => simp [badUnwind] at hs
    | merge => simp [badUnwind] at hs
    | search =>
      simp only [badUnwind, Option.map_eq_some_iff] at hs
      obtain ⟨⟨s1, b⟩, e, rfl⟩ := hs
      exact ⟨b, e, .inl rfl⟩
    | store =>
      simp only [badUnwind, Option.map_eq_some_iff] at hs
      obtain ⟨⟨s1, b⟩, e, rfl⟩ := hs
      exact ⟨b, e, .inr (.inl rfl)⟩
    | table t =>
      simp only [badUnwind, Option.map_eq_some_iff] at hs
      obtain ⟨⟨s1, b⟩, e, rfl⟩ := hs
      exact ⟨b, e, .inr (.inr ⟨t, rfl⟩)⟩
  obtain ⟨b, hs, hpl⟩ := hq
  clear h
  simp only [unwind] at hs
  generalize work d s = w at *
  obtain ⟨i, q, hi⟩ := hw.inv
  have hwr : ∀ k data, (p = .store → ∃ v, data = some v ∧ ∀ e t, c.sizes.entry (k, e) ≤ c.sizes.entry (k, ⟨some v, t⟩)) →
      (w.unwindWrite c k data p).map (fun s => (s, false)) = some (s', b) → Bad L c W cur s' m := by
    intro k data hst hs
    simp only [Option.map_eq_some_iff, Prod.mk.injEq] at hs
    obtain ⟨s2, e, rfl, -⟩ := hs
    cases p with
    | search =>
      simp only [unwindWrite] at e
      split at e
      · cases e
      · simp only [Option.some.injEq] at e
        subst e
        exact ⟨⟨i, True, inv_tick hi hi.used⟩, hw.cur, Nat.succ_ne_zero _, hw.mem⟩
    | store =>
      obtain ⟨v, rfl, hv⟩ := hst rfl
      simp only [unwindWrite] at e
      split at e
      · cases e
      · obtain ⟨u, k1, k2, -⟩ := inv_stash hi k (some v)
        rw [k1] at e
        simp only [Option.map_some, Option.some.injEq] at e
        subst e
        exact ⟨⟨i, True, inv_tick hi (usage_grows hi (fun e => hv e _) k2)⟩, hw.cur, Nat.succ_ne_zero _, hw.mem⟩
    | table t =>
      simp only [unwindWrite, Option.bind_eq_some_iff] at e
      obtain ⟨s1, e1, e2⟩ := e
      split at e2
      · simp only [Option.some.injEq] at e2
        subst e2
        exact bad_lose (bad_stash hw e1) t
      · cases e2
    | lookup => simp [unwindWrite] at e
    | merge => simp [unwindWrite] at e
  have hget : ∀ k, w.unwindGet k p = some (s', b) → Bad L c W cur s' m := by
    intro k hs
    rcases hpl with rfl | rfl | ⟨t, rfl⟩
    · simp only [unwindGet] at hs
      split at hs
      · cases hs
      · simp only [Option.some.injEq, Prod.mk.injEq] at hs
        obtain ⟨rfl, -⟩ := hs
        exact hw
    · simp [unwindGet] at hs
    · simp [unwindGet] at hs
  have hmin : w.unwindMin p = some (s', b) → Bad L c W cur s' m := by
    intro hs
    rcases hpl with rfl | rfl | ⟨t, rfl⟩ <;> simp [unwindMin] at hs
  have hfl : ∀ t, w.unwindFlush t = some (s', b) → Bad L c W cur s' m := by
    intro t hs
    simp only [unwindFlush] at hs
    split at hs
    · cases hs
    · simp only [Option.some.injEq, Prod.mk.injEq] at hs
      obtain ⟨rfl, -⟩ := hs
      exact bad_lose hw t
  have hlen : w.unwindLen c p = some (s', b) → Bad L c W cur s' m := by
    intro hs
    rcases hpl with rfl | rfl | ⟨t, rfl⟩
    · simp [unwindLen] at hs
    · simp [unwindLen] at hs
    · exact hfl t hs
  cases op with
  | insert k v =>
    refine hwr k (some v) (fun hst => ?_) hs
    subst hst
    rcases hp with hp | ⟨t, hp⟩
    · exact ⟨v, rfl, hp⟩
    · cases hp
  | remove k =>
    refine hwr k none (fun hst => ?_) hs
    subst hst
    rcases hp with hp | ⟨t, hp⟩
    · obtain ⟨_, _, h, _⟩ := frame_store hp; cases h
    · cases hp
  | get k => exact hget k hs
  | containsKey k => exact hget k hs
  | min => exact hmin hs
  | max => exact hmin hs
  | len => exact hlen hs
  | isEmpty => exact hlen hs
  | iter => exact hlen hs
  | hold =>
    rcases hpl with rfl | rfl | ⟨t, rfl⟩
    · exact hlen hs
    · exact hlen hs
    · exact hlen hs
  | flush =>
    rcases hpl with rfl | rfl | ⟨t, rfl⟩
    · simp at hs
    · simp at hs
    · exact hfl t hs
  | reopen =>
    rcases hpl with rfl | rfl | ⟨t, rfl⟩
    · simp at hs
    · simp at hs
    · exact hfl t hs
  | lenHint => simp at hs
  | release => simp at hs
  | clear => simp at hs

/-- The events that are considered once the mutex is poisoned: all calls but `reopen`, harmless panics, and panics while a
table is written. -/
def Later (c : Cfg K V) : UEv K V → Prop
  | .unwind _ _ (.table _) => True
  | e => Harmless c e

theorem bad_runU {L : Laws kd x} {c : Cfg K V} {W : K → Option (Val V)} {cur : kd.M} : ∀ (es : List (UEv K V))
    {s s' : Store kd} {b : Bool} {pre : List (KvOp K V)} {rs : List (Option (KvRes K V))}, (∀ e ∈ es, Later c e) →
    Bad L c W cur s (contents pre) → runU c (s, true) es = some ((s', b), rs) →
    b = true ∧ Bad L c W cur s' (contents (pre ++ returned es rs))
  | [], s, s', b, pre, rs, hp, h, hr => by
    simp only [runU, Option.some.injEq, Prod.mk.injEq] at hr
    obtain ⟨⟨rfl, rfl⟩, rfl⟩ := hr
    exact ⟨rfl, by simpa [returned] using h⟩
  | .call op d :: es, s, s', b, pre, rs, hp, h, hr => by
    obtain ⟨s1, r, rs', h1, h2, rfl⟩ := runU_cons hr
    simp only [eventU, Option.map_eq_some_iff, Prod.mk.injEq] at h1
    obtain ⟨⟨s2, r2⟩, h1, rfl, rfl⟩ := h1
    have hb := bad_step h h1
    cases r2 with
    | none => exact bad_runU es (fun e he => hp e (List.mem_cons_of_mem _ he)) hb h2
    | some a =>
      have hb' : Bad L c W cur s2 (contents (pre ++ [op])) := by rw [contents_snoc]; exact hb
      have := bad_runU es (fun e he => hp e (List.mem_cons_of_mem _ he)) hb' h2
      simpa [returned] using this
  | .unwind op d p :: es, s, s', b, pre, rs, hp, h, hr => by
    obtain ⟨s1, r, rs', h1, h2, rfl⟩ := runU_cons hr
    simp only [eventU, Option.map_eq_some_iff, Prod.mk.injEq] at h1
    obtain ⟨s2, h1, rfl, rfl⟩ := h1
    have hh : Harmless c (.unwind op d p) ∨ ∃ t, p = .table t := by
      have := hp _ List.mem_cons_self
      cases p with
      | table t => exact .inr ⟨t, rfl⟩
      | _ => exact .inl this
    have hb := bad_unwind h h1 hh
    exact bad_runU es (fun e he => hp e (List.mem_cons_of_mem _ he)) hb h2
  | .restart :: es, s, s', b, pre, rs, hp, h, hr => absurd (hp _ List.mem_cons_self) (by simp [Later, Harmless])

/-! ### Dropping the map and opening it again -/

theorem open_get {c : Cfg K V} {f : Nat} {tr : List (Disk kd)} {D : Disk kd} {o : Store kd} (h : openDir f tr D = some o)
    (k : K) (d : Nat) : ∃ o', o.step c (.get k) d = some (o', .val ((kd.get D.md k).bind (·.data))) := by
  unfold openDir at h
  split at h
  · cases h
  · split at h
    · simp only [Option.some.injEq] at h
      subst h
      have hwk : ∀ (d : Nat) (s : Store kd), s.job = none → s.next = none → s.mem = [] →
          (work d s).next = none ∧ (work d s).mem = [] ∧ (work d s).cur = s.cur := by
        intro d
        induction d with
        | zero => intro s h1 h2 h3; exact ⟨h2, h3, rfl⟩
        | succ d ih => intro s h1 h2 h3; rw [work, deliver_none h1]; exact ih _ h1 h2 h3
      obtain ⟨a1, a2, a3⟩ := hwk d ⟨[], 0, D.md, none, none, false, false, _, 0, f, D, tr⟩ rfl rfl rfl
      simp only [step]
      rw [a2, SL.find_nil]
      simp only
      unfold tryReplace
      rw [a1]
      simp only [Option.map_some]
      rw [a3]
      exact ⟨_, rfl⟩
    · cases h

theorem bad_open {L : Laws kd x} {c : Cfg K V} {W : K → Option (Val V)} {cur : kd.M} {s : Store kd} {m : K → Option V}
    (h : Bad L c W cur s m) : ∃ o i, openDir s.fresh s.trace s.disk = some o ∧ Sound L c o (look [] W) i ∧
      ∀ k d, ∃ o', o.step c (.get k) d = some (o', .val ((kd.get cur k).bind (·.data))) := by
  obtain ⟨i, q, hi⟩ := h.inv
  have ht : s.disk.time = some s.clock := by
    rcases hi.time with h1 | ⟨-, h2⟩
    · exact h1
    · exact absurd h2 h.clock
  obtain ⟨o, e, k1, k2, k3, -⟩ := hi.disk.open c ht hi.dirNew s.trace
  refine ⟨o, i, e, ⟨_, k1, k2, by rw [k3], fun _ _ h => h⟩, fun k d => ?_⟩
  have := open_get (c := c) e k d
  rwa [hi.md, h.cur] at this

omit [DecidableEq V] in
/-- A panic while the table is written: everything in memory is gone. -/
theorem table_unwind {L : Laws kd x} {c : Cfg K V} {s s' : Store kd} {g : Ghost K V} {op : KvOp K V} {d : Nat}
    {t : Table K V} {b : Bool} (h : Inv L c s g) (hh : s.Hand) (hs : s.unwind c op d (.table t) = some (s', b)) :
    b = false ∧ s'.mem = [] ∧ s'.Hand ∧ ∃ g', Inv L c s' g' ∧ g'.W = g.W := by
  have hw := inv_work d h
  have hhw := hand_work d hh
  simp only [unwind] at hs
  generalize work d s = w at *
  have hwr : ∀ k data, (w.unwindWrite c k data (.table t)).map (fun s => (s, false)) = some (s', b) →
      b = false ∧ s'.mem = [] ∧ s'.Hand ∧ ∃ g', Inv L c s' g' ∧ g'.W = g.W := by
    intro k data hs
    simp only [Option.map_eq_some_iff, Prod.mk.injEq] at hs
    obtain ⟨s2, e, rfl, rfl⟩ := hs
    simp only [unwindWrite, Option.bind_eq_some_iff] at e
    obtain ⟨s1, e1, e2⟩ := e
    obtain ⟨u, k1, k2, k3⟩ := inv_stash hw k data
    rw [e1] at k1
    simp only [Option.some.injEq] at k1
    subst k1
    split at e2
    · simp only [Option.some.injEq] at e2
      subst e2
      exact ⟨rfl, rfl, hhw, _, inv_lose k3 t, rfl⟩
    · cases e2
  have hfl : w.unwindFlush t = some (s', b) → b = false ∧ s'.mem = [] ∧ s'.Hand ∧ ∃ g', Inv L c s' g' ∧ g'.W = g.W := by
    intro hs
    simp only [unwindFlush] at hs
    split at hs
    · cases hs
    · simp only [Option.some.injEq, Prod.mk.injEq] at hs
      obtain ⟨rfl, rfl⟩ := hs
      exact ⟨rfl, rfl, hhw, _, inv_lose hw t, rfl⟩
  cases op with
  | insert k v => exact hwr k (some v) hs
  | remove k => exact hwr k none hs
  | len => exact hfl hs
  | isEmpty => exact hfl hs
  | iter => exact hfl hs
  | hold => exact hfl hs
  | flush => exact hfl hs
  | reopen => exact hfl hs
  | get k => simp [unwindGet] at hs
  | containsKey k => simp [unwindGet] at hs
  | min => simp [unwindMin] at hs
  | max => simp [unwindMin] at hs
  | lenHint => simp at hs
  | release => simp at hs
  | clear => simp at hs

/-- What follows a panic with the mutex held, for any strategy. -/
theorem poisoned {L : Laws kd x} (hL : ∀ l, L.good l) {c : Cfg K V} {es ps : List (UEv K V)} {op : KvOp K V} {d : Nat}
    {s1 s : Store kd} {b1 b : Bool} {r1 r2 : List (Option (KvRes K V))} (hes : ∀ e ∈ es, Harmless c e)
    (hps : ∀ e ∈ ps, Later c e) (h1 : runU c (new kd, false) (es ++ [.unwind op d .lookup]) = some ((s1, b1), r1))
    (h2 : runU c (s1, b1) ps = some ((s, b), r2)) :
    b1 = true ∧ b = true ∧ Sound L c s1 (contents (unhurt es)) (fun a y => .insert a y ∈ unhurt es) ∧
    ∃ W, Bad L c W s1.cur s1 (contents (unhurt es)) ∧ look s1.mem W = contents (unhurt es) ∧
      Bad L c W s1.cur s (contents (unhurt es ++ returned ps r2)) := by
  obtain ⟨⟨s0, b0⟩, r0, r0', e1, e2, -⟩ := runU_append es h1
  obtain ⟨rfl, hs0⟩ := sound_runU hL es hes (sound_new L c) e1
  obtain ⟨⟨s2, b2⟩, r, rs', h3, h4, -⟩ := runU_cons e2
  simp only [runU, Option.some.injEq, Prod.mk.injEq] at h4
  obtain ⟨⟨rfl, rfl⟩, -⟩ := h4
  simp only [eventU, Option.map_eq_some_iff, Prod.mk.injEq] at h3
  obtain ⟨⟨s3, b3⟩, h3, ⟨rfl, rfl⟩, -⟩ := h3
  obtain ⟨k1, k2, k3⟩ := sound_unwind hL hs0 (.inr rfl) h3
  have hb := k3.2 rfl
  subst hb
  simp only [List.nil_append] at k1
  obtain ⟨g, j1, j2, j3, j4⟩ := id k1
  have hbad : Bad L c g.W s2.cur s2 (contents (unhurt es)) := by
    refine ⟨⟨g.ins, g.cleared, j1⟩, rfl, k2 rfl, fun k e he => ?_⟩
    rw [← j3]
    unfold look
    rw [he]
  obtain ⟨hb, hbad'⟩ := bad_runU ps hps hbad h2
  exact ⟨rfl, hb, k1, g.W, hbad, j3, hbad'⟩

omit [DecidableEq V] in
theorem bad_answers {L : Laws kd x} {c : Cfg K V} {W : K → Option (Val V)} {cur : kd.M} {s s' : Store kd} {m : K → Option V}
    {op : KvOp K V} {d : Nat} {r : Option (KvRes K V)} (h : Bad L c W cur s m) (hs : s.bad c op d = some (s', r)) :
    (∀ k, op = .get k → r = none ∨ r = some (.val (m k))) ∧
    (∀ k, op = .containsKey k → r = none ∨ r = some (.bool (m k).isSome)) ∧
    (op ∈ [.lenHint, .len, .isEmpty, .min, .max, .iter, .hold, .clear] → r = none) := by
  have hw := bad_work h d
  simp only [bad] at hs
  generalize work d s = w at *
  have hfl : (w.badFlush c).map (fun p => (p.1, (none : Option (KvRes K V)))) = some (s', r) → r = none := by
    intro e
    simp only [Option.map_eq_some_iff, Prod.mk.injEq] at e
    obtain ⟨_, _, _, rfl⟩ := e
    rfl
  refine ⟨?_, ?_, ?_⟩
  · rintro k rfl
    simp only [badGet, Option.some.injEq, Prod.mk.injEq] at hs
    obtain ⟨-, rfl⟩ := hs
    cases hf : SL.find k w.mem with
    | none => exact .inl rfl
    | some e => right; simp [hw.mem k e hf]
  · rintro k rfl
    simp only [badGet, Option.some.injEq, Prod.mk.injEq] at hs
    obtain ⟨-, rfl⟩ := hs
    cases hf : SL.find k w.mem with
    | none => exact .inl rfl
    | some e => right; simp [hw.mem k e hf]
  · intro hop
    simp only [List.mem_cons, List.not_mem_nil, or_false] at hop
    rcases hop with rfl | rfl | rfl | rfl | rfl | rfl | rfl | rfl
    · simp only [Option.some.injEq, Prod.mk.injEq] at hs; exact hs.2.symm
    · exact hfl hs
    · exact hfl hs
    · simp only [Option.some.injEq, Prod.mk.injEq] at hs; exact hs.2.symm
    · simp only [Option.some.injEq, Prod.mk.injEq] at hs; exact hs.2.symm
    · exact hfl hs
    · exact hfl hs
    · simp only at hs
      split at hs
      · simp only [Option.map_eq_some_iff, Prod.mk.injEq] at hs
        obtain ⟨_, _, _, rfl⟩ := hs
        rfl
      · simp only [Option.some.injEq, Prod.mk.injEq] at hs; exact hs.2.symm

/-- After a panic with the mutex held, for any strategy (see `C88_poisoned`). -/
theorem poisoned_calls {L : Laws kd x} (hL : ∀ l, L.good l) {c : Cfg K V} {es ps : List (UEv K V)} {op : KvOp K V} {d : Nat}
    {s1 s : Store kd} {b1 b : Bool} {r1 r2 : List (Option (KvRes K V))} (hes : ∀ e ∈ es, Harmless c e)
    (hps : ∀ e ∈ ps, Later c e) (h1 : runU c (new kd, false) (es ++ [.unwind op d .lookup]) = some ((s1, b1), r1))
    (h2 : runU c (s1, b1) ps = some ((s, b), r2)) :
    (∀ op d t r, eventU c (s, b) (.call op d) = some (t, r) →
      (∀ k, op = .get k → r = none ∨ r = some (.val (contents (unhurt es ++ returned ps r2) k))) ∧
      (∀ k, op = .containsKey k → r = none ∨ r = some (.bool (contents (unhurt es ++ returned ps r2) k).isSome)) ∧
      (op ∈ [.lenHint, .len, .isEmpty, .min, .max, .iter, .hold, .clear] → r = none)) ∧
    ∃ o1 o, eventU c (s1, b1) .restart = some ((o1, false), none) ∧ eventU c (s, b) .restart = some ((o, false), none) ∧
      ∀ k d, ∃ a, (∃ t, o1.step c (.get k) d = some (t, .val a)) ∧ ∃ t, o.step c (.get k) d = some (t, .val a) := by
  obtain ⟨rfl, rfl, -, W, k1, k2, k3⟩ := poisoned hL hes hps h1 h2
  constructor
  · intro op d t r h
    simp only [eventU, Option.map_eq_some_iff, Prod.mk.injEq] at h
    obtain ⟨⟨s', r'⟩, h, rfl, rfl⟩ := h
    exact bad_answers k3 h
  · obtain ⟨o1, i1, e1, -, g1⟩ := bad_open k1
    obtain ⟨o, i, e, -, g⟩ := bad_open k3
    exact ⟨o1, o, by simp [eventU, e1], by simp [eventU, e], fun k d => ⟨_, g1 k d, g k d⟩⟩

end Store

open Store

variable [LinearOrder K] [DecidableEq V]

/-! ### C88 -/

/-- C88 with `LeveledStrategy`, for panics in the in-memory tree and while an iterator is read: such a call has no effect
on the contents, and `get`, `contains_key`, `iter`, `len` and `is_empty` are exact afterwards.  A panic in
`BTreeMap::insert` is covered if the new version of the key is not smaller, serialized, than any other. -/
theorem C88_leveled_partial (c : Cfg K V) (p : Leveled.Params) (es : List (UEv K V)) (hes : ∀ e ∈ es, Harmless c e)
    {s : Store (Leveled.kind c p)} {b : Bool} {rs : List (Option (KvRes K V))}
    (hr : runU c (new (Leveled.kind c p), false) es = some ((s, b), rs)) :
    b = false ∧ (∀ k d, ∃ s', s.step c (.get k) d = some (s', .val (contents (unhurt es) k))) ∧
    ∀ (op : KvOp K V) d s' r, op.Reads → s.step c op d = some (s', r) → op.Answer (contents (unhurt es)) r := by
  have hL : ∀ l, (Leveled.laws c p).good l := fun _ => trivial
  obtain ⟨h1, h2⟩ := sound_runU hL es hes (sound_new (Leveled.laws c p) c) hr
  simp only [List.nil_append] at h2
  exact ⟨h1, sound_reads hL h2⟩

/-- C88 with `SizeTieredStrategy`, for the same panics, and as far as C35 holds without panics: a live key has its latest
value, and any value found was inserted for its key. -/
theorem C88_sizeTiered_partial (c : Cfg K V) (p : SizeTiered.Params) (es : List (UEv K V)) (hes : ∀ e ∈ es, Harmless c e)
    {s : Store (SizeTiered.kind c p)} {b : Bool} {rs : List (Option (KvRes K V))}
    (hr : runU c (new (SizeTiered.kind c p), false) es = some ((s, b), rs)) :
    b = false ∧ ∀ k d, ∃ s' o, s.step c (.get k) d = some (s', .val o) ∧
      (∀ v, contents (unhurt es) k = some v → o = some v) ∧ ∀ v, o = some v → .insert k v ∈ unhurt es := by
  have hL : ∀ l, (SizeTiered.laws c p).good l := fun _ => trivial
  obtain ⟨h1, h2⟩ := sound_runU hL es hes (sound_new (SizeTiered.laws c p) c) hr
  simp only [List.nil_append] at h2
  refine ⟨h1, fun k d => ?_⟩
  obtain ⟨g, j1, j2, j3, j4⟩ := h2
  obtain ⟨⟨s1, o, e1⟩, _⟩ := get_returns j1 k d
  obtain ⟨W', k1, k2, k3, k4, _⟩ := inv_step j1 j2 (fun l _ => hL l) e1
  obtain ⟨a1, a2⟩ := get_weak k1 k
  have ho : o = s1.found k := by
    have : KvRes.val o = KvRes.val (s1.found k) := k4
    simpa using this
  have hc : Lsm.look s1.mem (Ghost.after g (.get k) W').W = contents (unhurt es) := k3.trans j3
  refine ⟨s1, o, e1, fun v hv => ?_, fun v hv => ?_⟩
  · rw [ho]; exact a1 v ((congrFun hc k).trans hv)
  · rcases a2 v (ho ▸ hv) with h | h
    · exact j4 _ _ h
    · cases h

/-- C88, a panic of a comparison or hash function while tables are looked at, with either strategy: until the map is
dropped, `len_hint`, `len`, `is_empty`, `min`, `max`, `iter` and `clear` panic; a lookup panics or its answer is right.
Dropping the map and opening it again gives what it would have given right after the first panic, so every write in
between is lost, no matter which calls returned. -/
theorem C88_poisoned (c : Cfg K V) (p : Leveled.Params) (q : SizeTiered.Params) (es ps : List (UEv K V)) (op : KvOp K V)
    (d : Nat) (hes : ∀ e ∈ es, Harmless c e) (hps : ∀ e ∈ ps, Later c e) (kd : Kind K V)
    (hk : kd = Leveled.kind c p ∨ kd = SizeTiered.kind c q) {s1 s : Store kd} {b1 b : Bool}
    {r1 r2 : List (Option (KvRes K V))}
    (h1 : runU c (new kd, false) (es ++ [.unwind op d .lookup]) = some ((s1, b1), r1))
    (h2 : runU c (s1, b1) ps = some ((s, b), r2)) :
    (∀ op d t r, eventU c (s, b) (.call op d) = some (t, r) →
      (∀ k, op = .get k → r = none ∨ r = some (.val (contents (unhurt es ++ returned ps r2) k))) ∧
      (∀ k, op = .containsKey k → r = none ∨ r = some (.bool (contents (unhurt es ++ returned ps r2) k).isSome)) ∧
      (op ∈ [.lenHint, .len, .isEmpty, .min, .max, .iter, .hold, .clear] → r = none)) ∧
    ∃ o1 o, eventU c (s1, b1) .restart = some ((o1, false), none) ∧ eventU c (s, b) .restart = some ((o, false), none) ∧
      ∀ k d, ∃ a, (∃ t, o1.step c (.get k) d = some (t, .val a)) ∧ ∃ t, o.step c (.get k) d = some (t, .val a) := by
  rcases hk with rfl | rfl
  · exact poisoned_calls (L := Leveled.laws c p) (fun _ => trivial) hes hps h1 h2
  · exact poisoned_calls (L := SizeTiered.laws c q) (fun _ => trivial) hes hps h1 h2

/-- C88, nothing that had been flushed is lost, with `LeveledStrategy`: if nothing was in memory at the panic, then the map
opened later has the contents from before the panic. -/
theorem C88_flushed (c : Cfg K V) (p : Leveled.Params) (es ps : List (UEv K V)) (op : KvOp K V)
    (d : Nat) (hes : ∀ e ∈ es, Harmless c e) (hps : ∀ e ∈ ps, Later c e) {s1 s : Store (Leveled.kind c p)} {b1 b : Bool}
    {r1 r2 : List (Option (KvRes K V))}
    (h1 : runU c (new (Leveled.kind c p), false) (es ++ [.unwind op d .lookup]) = some ((s1, b1), r1))
    (h2 : runU c (s1, b1) ps = some ((s, b), r2)) (hm : s1.mem = []) :
    ∃ o, eventU c (s, b) .restart = some ((o, false), none) ∧
      (∀ k d, ∃ t, o.step c (.get k) d = some (t, .val (contents (unhurt es) k))) ∧
      ∀ (op : KvOp K V) d t r, op.Reads → o.step c op d = some (t, r) → op.Answer (contents (unhurt es)) r := by
  have hL : ∀ l, (Leveled.laws c p).good l := fun _ => trivial
  obtain ⟨rfl, rfl, -, W, k1, k2, k3⟩ := poisoned hL hes hps h1 h2
  obtain ⟨o, i, e, g, -⟩ := bad_open k3
  rw [hm] at k2
  rw [k2] at g
  exact ⟨o, by simp [eventU, e], sound_reads hL g⟩

/-- C88, a panic of the hash function while the in-memory tree is written as a table, with `LeveledStrategy`: the map can
be used further, and answers as if it had been dropped without `flush` and opened again before that call; everything
that was in memory is lost. -/
theorem C88_table (c : Cfg K V) (p : Leveled.Params) (es : List (UEv K V)) (op : KvOp K V) (d : Nat) (t : Table K V)
    (hes : ∀ e ∈ es, Harmless c e) {s0 s1 : Store (Leveled.kind c p)} {b0 b1 : Bool} {r0 : List (Option (KvRes K V))}
    {r : Option (KvRes K V)} (h0 : runU c (new (Leveled.kind c p), false) es = some ((s0, b0), r0))
    (h1 : eventU c (s0, b0) (.unwind op d (.table t)) = some ((s1, b1), r)) :
    b1 = false ∧ ∀ o, eventU c (s0, b0) .restart = some ((o, false), none) →
      ∀ k d, ∃ a, (∃ s', s1.step c (.get k) d = some (s', .val a)) ∧ ∃ o', o.step c (.get k) d = some (o', .val a) := by
  have hL : ∀ l, (Leveled.laws c p).good l := fun _ => trivial
  obtain ⟨rfl, hs⟩ := sound_runU hL es hes (sound_new (Leveled.laws c p) c) h0
  obtain ⟨g, j1, j2, -, -⟩ := hs
  simp only [eventU, Option.map_eq_some_iff, Prod.mk.injEq] at h1
  obtain ⟨⟨s', b'⟩, h1, ⟨rfl, rfl⟩, -⟩ := h1
  obtain ⟨rfl, k1, k2, g', k3, k4⟩ := table_unwind j1 j2 h1
  refine ⟨rfl, fun o ho k d => ?_⟩
  simp only [eventU, Option.map_eq_some_iff, Prod.mk.injEq, and_true] at ho
  obtain ⟨o', ho, rfl⟩ := ho
  have ht : s0.disk.time = some s0.clock := by
    rcases j1.time with h | ⟨h, -⟩
    · exact h
    · unfold openDir at ho; rw [h] at ho; cases ho
  obtain ⟨o2, e, i1, i2, i3, -⟩ := j1.disk.open c ht j1.dirNew s0.trace
  rw [ho] at e
  simp only [Option.some.injEq] at e
  subst e
  have a1 : Sound (Leveled.laws c p) c s1 (look [] g.W) g'.ins := ⟨g', k3, k2, by rw [k1, k4], fun _ _ h => h⟩
  have a2 : Sound (Leveled.laws c p) c o' (look [] g.W) g.ins := ⟨_, i1, i2, by rw [i3], fun _ _ h => h⟩
  exact ⟨_, (sound_reads hL a1).1 k d, (sound_reads hL a2).1 k d⟩

/-- C88 does not hold of the code, with either strategy.  (1) A comparison panics in `get`: the `flush` that follows panics,
and an entry whose `insert` had returned is lost.  (2) A hash function panics in `flush`: an entry whose `insert` had
returned is lost, and `get` does not notice.  (3) A comparison panics in `BTreeMap::insert` during `remove`: the next
`insert` of the key panics because `in_memory_usage` underflows. -/
theorem C88_violated :
    ((runU Example.cfg (new (Leveled.kind Example.cfg Example.leveled), false)
      [.call (.insert 1 10) 0, .call .flush 0, .call (.insert 2 20) 0, .unwind (.get 1) 0 .lookup, .call (.get 2) 0,
        .call .flush 0, .call (.get 2) 0, .restart, .call (.get 2) 0, .call (.get 1) 0]).map (·.2) =
      some [some .unit, some .unit, some .unit, none, some (.val (some 20)), none, none, none, some (.val none),
        some (.val (some 10))] ∧
    (runU Example.cfg (new (SizeTiered.kind Example.cfg Example.tiered), false)
      [.call (.insert 1 10) 0, .call .flush 0, .call (.insert 2 20) 0, .unwind (.get 1) 0 .lookup, .call (.get 2) 0,
        .call .flush 0, .call (.get 2) 0, .restart, .call (.get 2) 0, .call (.get 1) 0]).map (·.2) =
      some [some .unit, some .unit, some .unit, none, some (.val (some 20)), none, none, none, some (.val none),
        some (.val (some 10))]) ∧
    (∀ t ∈ Example.junk, (runU Example.cfg (new (Leveled.kind Example.cfg Example.leveled), false)
      [.call (.insert 1 10) 0, .unwind .flush 0 (.table t), .call (.get 1) 0]).map (·.2) =
      some [some .unit, none, some (.val none)]) ∧
    runU Example.cfg (new (Leveled.kind Example.cfg Example.leveled), false)
      [.call (.insert 1 10) 0, .unwind (.remove 1) 0 .store, .call (.insert 1 11) 0] = none := by
  refine ⟨⟨by decide +kernel, by decide +kernel⟩, ?_, by decide +kernel⟩
  intro t ht
  have : Example.junk = [Example.junk.head (by decide +kernel)] := by decide +kernel
  rw [this] at ht
  simp only [List.mem_singleton] at ht
  subst ht
  decide +kernel

namespace Example

/-- Panics in memory and in an iterator, in the middle of a history with compactions. -/
def hurts : List (UEv Nat Nat) :=
  [.call (.insert 1 10) 0, .unwind (.insert 1 11) 0 .search, .call (.insert 2 20) 0, .unwind (.insert 2 21) 0 .store,
    .call (.insert 3 30) 0, .call (.remove 2) 0, .unwind .len 0 .merge, .call (.insert 4 40) 1, .unwind (.remove 4) 0 .search,
    .call (.insert 5 50) 0, .unwind .min 1 .merge, .unwind (.containsKey 5) 0 .search, .call (.insert 6 60) 0,
    .call (.insert 7 70) 2]

end Example

/-- The hypotheses of the theorems above, with both strategies: there are such events, and the contents are as they
should be; a panic in a lookup can follow, with entries in memory and without, and calls and panics after it. -/
example : (∀ e ∈ Example.hurts, Harmless Example.small e) ∧
    ((runU Example.small (new (Leveled.kind Example.small Example.leveled), false)
      (Example.hurts ++ [.call .iter 0, .call (.get 2) 0])).map (fun q => (q.1.2, q.2.drop 14)) =
      some (false, [some (.list [(1, 10), (3, 30), (4, 40), (5, 50), (6, 60), (7, 70)]), some (.val none)])) ∧
    ((runU Example.small (new (SizeTiered.kind Example.small Example.tiered), false)
      (Example.hurts ++ [.call .iter 0, .call (.get 3) 0])).map (fun q => (q.1.2, q.2.drop 14)) =
      some (false, [some (.list [(1, 10), (3, 30), (4, 40), (5, 50), (6, 60), (7, 70)]), some (.val (some 30))])) ∧
    ((runU Example.small (new (Leveled.kind Example.small Example.leveled), false)
      (Example.hurts ++ [.unwind (.get 1) 0 .lookup])).map (fun q => (q.1.2, q.1.1.mem.length))).isSome ∧
    ((runU Example.small (new (Leveled.kind Example.small Example.leveled), false)
      (Example.hurts ++ [.call .flush 0, .unwind .len 0 .lookup])).map (fun q => (q.1.2, q.1.1.mem.length)) = some (true, 0)) ∧
    ((runU Example.small (new (Leveled.kind Example.small Example.leveled), false)
      (Example.hurts ++ [.call .flush 0, .unwind .len 0 .lookup, .call (.insert 8 80) 0, .call (.insert 1 12) 0,
        .unwind (.insert 9 90) 0 .search, .call (.get 1) 0, .call (.get 3) 0, .call .min 0, .call .iter 0, .call (.get 1) 0,
        .restart, .call .iter 0])).map
        (fun q => q.2.drop 16) = some [some .unit, some .unit, none, some (.val (some 12)), none, none, none, none, none,
          some (.list [(1, 10), (3, 30), (4, 40), (5, 50), (6, 60), (7, 70)])]) := by
  refine ⟨?_, by decide +kernel, by decide +kernel, by decide +kernel, by decide +kernel, by decide +kernel⟩
  intro e he
  simp only [Example.hurts, List.mem_cons, List.not_mem_nil, or_false] at he
  rcases he with rfl | rfl | rfl | rfl | rfl | rfl | rfl | rfl | rfl | rfl | rfl | rfl | rfl | rfl <;>
    first | trivial | (intro e t; obtain ⟨o, _⟩ := e; cases o <;> simp [Sizes.entry, Sizes.value, Example.small])

end Verif.Lsm
