/-
I/O errors in the LSM map: for every call, where an operation on the files can fail, and the state in which the map
is left when it does.  The calls that do not fail are those of Verif/Lsm/Store.lean.

A failing operation is taken to have no effect on the files that are named by the metadata.  What it can leave behind
besides (a directory with part of a table in it, which no metadata names) is not modelled, nor is a file that is
overwritten in part: in this file the answers of the process that goes on are of interest.
-/
import Verif.Lsm.StoreRun
import Verif.Spec.KvFault

namespace Verif.Lsm

open Verif Verif.Spec

namespace Store

variable {K V : Type} {kd : Kind K V}

/-- size_tiered.rs:350-382, leveled.rs:243-292 `try_replace_metadata` and the write of the metadata after it: the
metadata has been replaced before the first directory is deleted. -/
def tryReplaceErr (s : Store kd) : List (Fault × Store kd) :=
  match s.next with
  | none => []
  | some m =>
    let cur := kd.replace s.cur m
    let old := ((kd.tabs s.cur).filter fun t => t.id ∉ (kd.tabs cur).map (·.id)).map (·.id)
    let s := { s with cur := cur, next := none }
    ((List.range old.length).filterMap fun n => (removeDirs (old.take n) s).map fun s => (.delete, s)) ++
      ((removeDirs old s).map fun s => (Fault.relist, s)).toList

/-- size_tiered.rs:415-433, leveled.rs:491-509. -/
def startErr (s : Store kd) : List (Fault × Store kd) :=
  if s.busy ∨ s.locks ≠ 0 then [] else s.tryReplaceErr

/-- map.rs:90-101 and size_tiered.rs:407-434, leveled.rs:483-510 `try_compact`.  `in_memory_usage` is reset first;
the tree is taken out of the map when the first entry is to be written. -/
def tryCompactErr [LinearOrder K] (c : Cfg K V) (s : Store kd) : List (Fault × Store kd) :=
  (.create, { s with usage := 0 }) ::
  (.fill, { s with usage := 0, mem := [], fresh := s.fresh + 1 }) ::
  match build c.sizes (c.block s.mem.length) s.mem s.fresh with
  | none => []
  | some t =>
    (.list, put { s with usage := 0, mem := [], fresh := s.fresh + 1, cur := kd.push s.cur t }
      { s.disk with dirs := s.disk.dirs ++ [t] }) :: (s.pushTable t).startErr

/-- size_tiered.rs:436-450, leveled.rs:512-526 `flush` of the strategy. -/
def settleErr (s : Store kd) : List (Fault × Store kd) :=
  if s.handle then
    match s.join with
    | none => []
    | some s => tryReplaceErr { s with handle := false }
  else []

/-- map.rs:476-481 `flush`. -/
def flushErr [LinearOrder K] (c : Cfg K V) (s : Store kd) : List (Fault × Store kd) :=
  match s.mem with
  | [] => s.settleErr
  | _ :: _ =>
    s.tryCompactErr c ++
      match s.tryCompact c with
      | none => []
      | some s => s.settleErr

/-- map.rs:129-150 `insert`, 178-199 `remove`.  The counter of the logical time is incremented before it is
written. -/
def writeErr [LinearOrder K] (c : Cfg K V) (s : Store kd) (k : K) (data : Option V) : List (Fault × Store kd) :=
  (.clock, { s with clock := s.clock + 1 }) ::
  let (s, time) := s.tick
  match s.usageAfter c k ⟨data, time⟩ with
  | none => []
  | some u =>
    let s := { s with usage := u, mem := SL.ins k ⟨data, time⟩ s.mem }
    if c.maxMem < u then s.tryCompactErr c else []

/-- size_tiered.rs:498-522, leveled.rs:601-626 and map.rs:376-379 `clear`: memory and metadata are emptied before the
first directory is deleted. -/
def clearErr (s : Store kd) : List (Fault × Store kd) :=
  let s := { s with mem := [] }
  match (if s.handle then s.join else some s) with
  | none => []
  | some s =>
    let s := { s with handle := false, cur := kd.empty, next := none }
    let old := s.disk.dirs.map (·.id)
    ((List.range old.length).filterMap fun n => (removeDirs (old.take n) s).map fun s => (.delete, s)) ++
      ((removeDirs old s).map fun s => (Fault.relist, s)).toList

/-- size_tiered.rs:538-551, 583-611, leveled.rs:642-667, 723-767 `iter` of the strategy, when reading the first entry
of a table fails: `metadata_lock_count` has been incremented, and there is no iterator yet that would decrement it
when it is dropped. -/
def iterErr (s : Store kd) : List (Fault × Store kd) :=
  s.tryReplaceErr ++
    match s.tryReplace with
    | none => []
    | some s => [(.read, { s with locks := s.locks + 1 })]

/-- The lookup of the strategy (size_tiered.rs:452-472, leveled.rs:528-566), when taking over a compaction or reading a
table fails. -/
def getErr (s : Store kd) : List (Fault × Store kd) :=
  s.tryReplaceErr ++
    match s.tryReplace with
    | none => []
    | some s => [(.read, s)]

/-- map.rs:511-514 `iter`. -/
def iterAllErr [LinearOrder K] (c : Cfg K V) (s : Store kd) : List (Fault × Store kd) :=
  s.flushErr c ++
    match s.flush c with
    | none => []
    | some s => s.iterErr

/-- Everything that can fail in a call, and the state in which the map is left.  A `reopen` fails here if its `flush`
does.  `min` and `max` (size_tiered.rs:524-536, leveled.rs:628-640) can also fail after the iterator was made, which
is then dropped; `len` and `is_empty` (map.rs:316-343) do not notice that.  -/
def stepErr [LinearOrder K] (c : Cfg K V) (s : Store kd) : KvOp K V → List (Fault × Store kd)
  | .insert k v => s.writeErr c k (some v)
  | .remove k => s.writeErr c k none
  | .get k | .containsKey k =>
    match SL.find k s.mem with
    | some _ => []
    | none => s.getErr
  | .lenHint => s.tryReplaceErr
  | .len | .isEmpty | .iter | .hold => s.iterAllErr c
  | .min | .max => s.iterErr ++ s.getErr
  | .flush | .reopen => s.flushErr c
  | .clear => s.clearErr
  | .release => []

/-- The compaction thread meets an I/O error: size_tiered.rs:339-346, leveled.rs:433-440.  It stops without storing
a result. -/
def die (s : Store kd) : Store kd := { s with job := none, busy := false }

end Store

variable {K V : Type} [LinearOrder K]

/-- The events `es` can happen to the map `s`, which becomes `s'`. -/
def Runs [DecidableEq V] {kd : Kind K V} (c : Cfg K V) : Store kd → List (Ev K V) → Store kd → Prop
  | s, [], s' => s = s'
  | s, .done op d r :: es, s' => ∃ s1, s.step c op d = some (s1, r) ∧ Runs c s1 es s'
  | s, .failed op d f :: es, s' => ∃ s1, (f, s1) ∈ (Store.work d s).stepErr c op ∧ Runs c s1 es s'
  | s, .died :: es, s' => Runs c s.die es s'

theorem runs_append [DecidableEq V] {kd : Kind K V} {c : Cfg K V} : ∀ {es es' : List (Ev K V)} {s s' : Store kd},
    Runs c s (es ++ es') s' ↔ ∃ s1, Runs c s es s1 ∧ Runs c s1 es' s'
  | [], es', s, s' => by simp [Runs]
  | .done op d r :: es, es', s, s' => by
    simp only [List.cons_append, Runs, runs_append (es := es)]
    constructor
    · rintro ⟨s1, h1, s2, h2, h3⟩; exact ⟨s2, ⟨s1, h1, h2⟩, h3⟩
    · rintro ⟨s2, ⟨s1, h1, h2⟩, h3⟩; exact ⟨s1, h1, s2, h2, h3⟩
  | .failed op d f :: es, es', s, s' => by
    simp only [List.cons_append, Runs, runs_append (es := es)]
    constructor
    · rintro ⟨s1, h1, s2, h2, h3⟩; exact ⟨s2, ⟨s1, h1, h2⟩, h3⟩
    · rintro ⟨s2, ⟨s1, h1, h2⟩, h3⟩; exact ⟨s1, h1, s2, h2, h3⟩
  | .died :: es, es', s, s' => by simp only [List.cons_append, Runs, runs_append (es := es)]

namespace Store

variable {kd : Kind K V} {x : Bool}

/-! ### The part of the state on which the answers of the process depend -/

/-- The state with the counters and the parts of the files set right that errors put out of step. -/
def fix (c : Cfg K V) (s : Store kd) : Store kd :=
  { s with usage := memSize c.sizes s.mem, locks := 0, disk := ⟨s.cur, s.disk.dirs, some s.clock⟩, trace := [] }

/-- The invariant between calls when some calls have failed. -/
def Core (L : Laws kd x) (c : Cfg K V) (s : Store kd) (g : Ghost K V) : Prop := Inv L c (fix c s) g

theorem inv_fix {L : Laws kd x} {c : Cfg K V} {s : Store kd} {g : Ghost K V} (h : Inv L c s g) : Inv L c (fix c s) g :=
  ⟨h.memSorted, h.memTime, h.memNew, h.curTime, h.inv, h.sees, h.ids, h.job, h.next, fun h' => absurd rfl h', h.files, h.dirIds,
    h.dirNew, rfl, .inl rfl, le_rfl, fun _ => rfl, h.vals, h.memVals⟩

omit [LinearOrder K] in
theorem fix_deliver (c : Cfg K V) (s : Store kd) : fix c (fix c s).deliver = fix c s.deliver := by
  obtain ⟨mem, usage, cur, next, job, busy, handle, clock, locks, fresh, disk, trace⟩ := s
  cases job with
  | none => rfl
  | some j =>
    unfold deliver fix
    simp only
    cases kd.compact j fresh with
    | none => rfl
    | some p => rfl

theorem core_deliver {L : Laws kd x} {c : Cfg K V} {s : Store kd} {g : Ghost K V} (h : Core L c s g) :
    Core L c s.deliver g := by
  unfold Core at *
  rw [← fix_deliver]
  exact inv_fix (inv_deliver h)

theorem core_work {L : Laws kd x} {c : Cfg K V} {g : Ghost K V} (n : Nat) : ∀ {s : Store kd}, Core L c s g →
    Core L c (work n s) g := by
  induction n with
  | zero => intro s h; exact h
  | succ n ih => intro s h; exact ih (core_deliver h)

theorem core_die {L : Laws kd x} {c : Cfg K V} {s : Store kd} {g : Ghost K V} (h : Core L c s g) : Core L c s.die g :=
  ⟨h.memSorted, h.memTime, h.memNew, h.curTime, h.inv, h.sees, h.ids, fun _ h' => by simp [fix, die] at h', h.next,
    fun h' => absurd rfl h', h.files, h.dirIds, h.dirNew, rfl, .inl rfl, le_rfl, fun _ => rfl, h.vals, h.memVals⟩

/-- More directories do no harm. -/
theorem core_dirs {L : Laws kd x} {c : Cfg K V} {s s' : Store kd} {g : Ghost K V} (h : Core L c s g)
    (h1 : s'.mem = s.mem) (h2 : s'.cur = s.cur) (h3 : s'.next = s.next) (h4 : s'.job = s.job) (h5 : s'.busy = s.busy)
    (h6 : s'.clock = s.clock) (h7 : s'.fresh = s.fresh) (h8 : ∀ t ∈ s.disk.dirs, t ∈ s'.disk.dirs)
    (h9 : (s'.disk.dirs.map (·.id)).Nodup) (h10 : ∀ t ∈ s'.disk.dirs, t.id < s'.fresh) : Core L c s' g := by
  obtain ⟨mem, usage, cur, next, job, busy, handle, clock, locks, fresh, disk, trace⟩ := s
  obtain ⟨mem', usage', cur', next', job', busy', handle', clock', locks', fresh', disk', trace'⟩ := s'
  simp only at h1 h2 h3 h4 h5 h6 h7
  subst h1 h2 h3 h4 h5 h6 h7
  refine ⟨h.memSorted, h.memTime, h.memNew, h.curTime, h.inv, h.sees, h.ids, h.job, ?_, fun h' => absurd rfl h', ?_,
    h9, h10, rfl, .inl rfl, le_rfl, fun _ => rfl, h.vals, h.memVals⟩
  · intro m hm
    obtain ⟨S, j, f, new, k1, k2, k3, k4, k5, k6⟩ := h.next m hm
    exact ⟨S, j, f, new, k1, k2, k3, k4, fun u hu => h8 u (k5 u hu), k6⟩
  · intro t ht; exact h8 t (h.files t ht)

theorem core_tryReplace {L : Laws kd x} {c : Cfg K V} {s : Store kd} {g : Ghost K V} (h : Core L c s g) :
    ∃ s', s.tryReplace = some s' ∧ Core L c s' g ∧ s'.mem = s.mem ∧ s'.next = none ∧ s'.job = s.job ∧
      s'.busy = s.busy ∧ s'.handle = s.handle ∧ s'.locks = s.locks ∧
      ∀ f s'', (f, s'') ∈ s.tryReplaceErr → Core L c s'' g ∧ s''.mem = s.mem ∧ s''.next = none ∧ s''.job = s.job ∧
        s''.handle = s.handle ∧ s''.locks = s.locks ∧ s''.cur = s'.cur := by
  obtain ⟨s1, e1, i1, m1, _, n1, j1, b1, hd1, c1, l1, f1⟩ := inv_tryReplace h
  unfold tryReplaceErr
  unfold tryReplace at e1 ⊢
  cases hn : s.next with
  | none => exact ⟨s, rfl, h, rfl, hn, rfl, rfl, rfl, rfl, by simp⟩
  | some m =>
    have hn' : (fix c s).next = some m := hn
    rw [hn'] at e1
    simp only [Option.map_eq_some_iff] at e1 ⊢
    obtain ⟨s2, e2, rfl⟩ := e1
    have hcur : (fix c s).cur = s.cur := rfl
    rw [hcur] at e2
    generalize hold : ((kd.tabs s.cur).filter fun t => t.id ∉ (kd.tabs (kd.replace s.cur m)).map (·.id)).map (·.id) = is at *
    have hsub : ∀ i ∈ is, i ∈ s.disk.dirs.map (·.id) := by
      intro i hi
      rw [← hold] at hi
      obtain ⟨t, ht, rfl⟩ := List.mem_map.1 hi
      exact List.mem_map.2 ⟨t, h.files t (List.mem_filter.1 ht).1, rfl⟩
    have hnd : is.Nodup := by
      rw [← hold]; exact List.Nodup.sublist (List.Sublist.map _ List.filter_sublist) h.ids
    obtain ⟨tr2, rfl, _⟩ := removeDirs_some e2
    -- what is left when only the directories `js` were deleted
    have hpart : ∀ js : List Nat, (∀ j ∈ js, j ∈ is) → ∀ s3, removeDirs js { s with cur := kd.replace s.cur m, next := none } = some s3 →
        Core L c s3 g ∧ s3.mem = s.mem ∧ s3.next = none ∧ s3.job = s.job ∧ s3.busy = s.busy ∧ s3.handle = s.handle ∧
        s3.locks = s.locks ∧ s3.cur = kd.replace s.cur m := by
      intro js hjs s3 h3
      obtain ⟨tr, rfl, _⟩ := removeDirs_some h3
      refine ⟨?_, rfl, rfl, rfl, rfl, rfl, rfl, rfl⟩
      refine core_dirs (inv_fix i1) rfl rfl rfl rfl rfl rfl rfl ?_ ?_ ?_
      · intro t ht
        have ht' : t ∈ s.disk.dirs.filter fun t => decide (t.id ∉ is) := ht
        obtain ⟨h7, h8⟩ := List.mem_filter.1 ht'
        refine List.mem_filter.2 ⟨h7, ?_⟩
        simp only [decide_eq_true_eq] at h8 ⊢
        exact fun hc => h8 (hjs _ hc)
      · exact List.Nodup.sublist (List.Sublist.map _ List.filter_sublist) h.dirIds
      · intro t ht; exact h.dirNew t (List.mem_filter.1 ht).1
    obtain ⟨s4, e4⟩ := removeDirs_isSome (s := { s with cur := kd.replace s.cur m, next := none }) hnd hsub
    obtain ⟨a1, a2, a3, a4, a5, a6, a7, a8⟩ := hpart is (fun _ h => h) s4 e4
    refine ⟨s4.writeMeta, ⟨s4, e4, rfl⟩, a1, a2, a3, a4, a5, a6, a7, ?_⟩
    intro f s'' hm
    rcases List.mem_append.1 hm with hm | hm
    · obtain ⟨n, _, hm⟩ := List.mem_filterMap.1 hm
      simp only [Option.map_eq_some_iff, Prod.mk.injEq] at hm
      obtain ⟨s5, e5, rfl, rfl⟩ := hm
      obtain ⟨b1, b2, b3, b4, b5, b6, b7, b8⟩ := hpart _ (fun j hj => List.mem_of_mem_take hj) s5 e5
      exact ⟨b1, b2, b3, b4, b6, b7, b8.trans a8.symm⟩
    · rw [e4] at hm
      simp only [Option.map_some, Option.toList_some, List.mem_singleton, Prod.mk.injEq] at hm
      obtain ⟨rfl, rfl⟩ := hm
      exact ⟨a1, a2, a3, a4, a6, a7, rfl⟩

theorem core_pushTable {L : Laws kd x} (hL : ∀ l, L.good l) {c : Cfg K V} {s : Store kd} {g : Ghost K V} (h : Core L c s g)
    (hm : s.mem ≠ []) : ∃ t, build c.sizes (c.block s.mem.length) s.mem s.fresh = some t ∧
      Core L c (s.pushTable t) { g with W := addW s.mem g.W } := by
  obtain ⟨t, h1, _, h2⟩ := inv_pushTable (s := fix c s) h hm (hL _)
  have h3 := inv_fix h2
  exact ⟨t, h1, h3⟩

/-- What is left by a call in which `f` failed: if the new table was being written, everything in memory is lost;
otherwise the contents are `now`, and the writes that reached tables are the same as before unless memory is empty. -/
def Left (f : Fault) (W : K → Option (Val V)) (now : K → Option V) (s' : Store kd) (W' : K → Option (Val V)) : Prop :=
  if f = .fill then s'.mem = [] ∧ W' = W else look s'.mem W' = now ∧ (s'.mem = [] ∨ W' = W)

omit [LinearOrder K] in
theorem repl_ne_fill {s s' : Store kd} {f : Fault} (h : (f, s') ∈ s.tryReplaceErr) : f ≠ .fill := by
  unfold tryReplaceErr at h
  cases hn : s.next with
  | none => rw [hn] at h; simp at h
  | some m =>
    rw [hn] at h
    rintro rfl
    simp only [List.mem_append, List.mem_filterMap, Option.map_eq_some_iff, Prod.mk.injEq, Option.mem_toList,
      reduceCtorEq, false_and, and_false, exists_false, or_self] at h

theorem core_tryCompact {L : Laws kd x} (hL : ∀ l, L.good l) {c : Cfg K V} {s : Store kd} {g : Ghost K V}
    (h : Core L c s g) (hh : s.Hand) (hm : s.mem ≠ []) :
    (∃ s', s.tryCompact c = some s' ∧ Core L c s' { g with W := addW s.mem g.W } ∧ s'.Hand ∧ s'.mem = []) ∧
    ∀ f s', (f, s') ∈ s.tryCompactErr c → ∃ W', Core L c s' { g with W := W' } ∧ s'.Hand ∧
      Left f g.W (look s.mem g.W) s' W' := by
  obtain ⟨t, h1, hI⟩ := core_pushTable hL h hm
  unfold tryCompact tryCompactErr
  rw [h1]
  simp only
  obtain ⟨s', k1, k2, k3, k5, k6, k7, k8, k9, kE⟩ := core_tryReplace hI
  have hpm : (s.pushTable t).mem = [] := rfl
  constructor
  · unfold start
    split
    · exact ⟨_, rfl, hI, hh, rfl⟩
    · rename_i hb
      rw [k1]
      simp only
      have hb0 : s.busy = false := by
        simp only [pushTable, writeMeta, put, not_or, Bool.not_eq_true, not_not, ne_eq] at hb; exact hb.1
      have hj : s'.job = none := by
        rw [k6]
        cases hj : s.job with
        | none => exact hj
        | some j =>
          have : (fix c s).busy = true := (h.job j hj).2.1
          have : s.busy = true := this
          rw [hb0] at this; simp at this
      cases hp : kd.plan s'.cur with
      | none => exact ⟨s', rfl, k2, fun _ => ⟨hj, k5⟩, k3.trans hpm⟩
      | some j =>
        refine ⟨_, rfl, ?_, fun hc => by simp at hc, k3.trans hpm⟩
        refine ⟨k2.memSorted, k2.memTime, k2.memNew, k2.curTime, k2.inv, k2.sees, k2.ids, ?_, k2.next,
          fun h' => absurd rfl h', k2.files, k2.dirIds, k2.dirNew, rfl, .inl rfl, le_rfl, fun _ => rfl, k2.vals, k2.memVals⟩
        intro j' hj'
        simp only [fix, Option.some.injEq] at hj'
        subst hj'
        exact ⟨k5, rfl, s'.cur, k2.inv, .refl _, hp⟩
  · intro f s'' hf
    simp only [List.mem_cons, Prod.mk.injEq] at hf
    rcases hf with ⟨rfl, rfl⟩ | ⟨rfl, rfl⟩ | ⟨rfl, rfl⟩ | hf
    · refine ⟨g.W, ?_, hh, by simp [Left]⟩
      exact ⟨h.memSorted, h.memTime, h.memNew, h.curTime, h.inv, h.sees, h.ids, h.job, h.next, fun h' => absurd rfl h', h.files,
        h.dirIds, h.dirNew, rfl, .inl rfl, le_rfl, fun _ => rfl, h.vals, h.memVals⟩
    · refine ⟨g.W, ?_, hh, by simp [Left]⟩
      refine ⟨by simp [fix, SL.Sorted], by simp [fix], by simp [fix], h.curTime, h.inv, h.sees, h.ids, h.job, h.next,
        fun h' => absurd rfl h', h.files,
        h.dirIds, ?_, rfl, .inl rfl, le_rfl, fun _ => rfl, h.vals, by simp [fix]⟩
      intro t ht; have := h.dirNew t ht; simp only [fix] at this ⊢; omega
    · exact ⟨addW s.mem g.W, hI, hh, by simp [Left, put, look_addW]⟩
    · unfold startErr at hf
      split at hf
      · simp at hf
      · rename_i hb
        obtain ⟨e1, e2, e3, e4, e5, e6, e7⟩ := kE f s'' hf
        have hb0 : s.busy = false := by
          simp only [pushTable, writeMeta, put, not_or, Bool.not_eq_true, not_not, ne_eq] at hb; exact hb.1
        refine ⟨_, e1, fun _ => ⟨?_, e3⟩, ?_⟩
        · rw [e4]
          cases hj : s.job with
          | none => exact hj
          | some j =>
            have : (fix c s).busy = true := (h.job j hj).2.1
            have : s.busy = true := this
            rw [hb0] at this; simp at this
        · unfold Left
          rw [if_neg (repl_ne_fill hf), e2, hpm, look_addW]
          exact ⟨rfl, .inl rfl⟩

theorem core_join {L : Laws kd x} {c : Cfg K V} {s s' : Store kd} {g : Ghost K V} (h : Core L c s g)
    (hj : s.join = some s') : Core L c { s' with handle := false } g ∧ s'.job = none ∧ s'.mem = s.mem ∧ s'.cur = s.cur := by
  unfold join at hj
  simp only at hj
  split at hj
  · simp at hj
  · rename_i hs
    simp only [Option.some.injEq] at hj
    subst hj
    obtain ⟨h1, h2, h3, _, h5, h6⟩ := work_frame 2 s
    have h' := core_work 2 h
    refine ⟨?_, by simpa using hs, h1, h3⟩
    exact ⟨h'.memSorted, h'.memTime, h'.memNew, h'.curTime, h'.inv, h'.sees, h'.ids, h'.job, h'.next, fun h' => absurd rfl h',
      h'.files, h'.dirIds, h'.dirNew, rfl, .inl rfl, le_rfl, fun _ => rfl, h'.vals, h'.memVals⟩

theorem core_settle {L : Laws kd x} {c : Cfg K V} {s : Store kd} {g : Ghost K V} (h : Core L c s g) (hh : s.Hand) :
    (∀ s', s.settle = some s' → Core L c s' g ∧ s'.Hand ∧ s'.mem = s.mem) ∧
    ∀ f s', (f, s') ∈ s.settleErr → f ≠ .fill ∧ Core L c s' g ∧ s'.Hand ∧ s'.mem = s.mem := by
  unfold settle settleErr
  split
  · cases hj : s.join with
    | none => simp
    | some s1 =>
      simp only
      obtain ⟨h1, h2, h3, h4⟩ := core_join h hj
      obtain ⟨s2, k1, k2, k3, k5, k6, k7, k8, k9, kE⟩ := core_tryReplace h1
      constructor
      · intro s' hs'
        rw [k1] at hs'
        simp only [Option.some.injEq] at hs'
        subst hs'
        exact ⟨k2, fun _ => ⟨k6.trans h2, k5⟩, k3.trans h3⟩
      · intro f s' hf
        obtain ⟨e1, e2, e3, e4, e5, e6, e7⟩ := kE f s' hf
        exact ⟨repl_ne_fill hf, e1, fun _ => ⟨e4.trans h2, e3⟩, e2.trans h3⟩
  · simp only [Option.some.injEq, List.not_mem_nil, false_implies, implies_true, and_true]
    rintro s' rfl
    exact ⟨h, hh, rfl⟩

theorem core_flush {L : Laws kd x} (hL : ∀ l, L.good l) {c : Cfg K V} {s : Store kd} {g : Ghost K V}
    (h : Core L c s g) (hh : s.Hand) :
    (∀ s', s.flush c = some s' → Core L c s' { g with W := addW s.mem g.W } ∧ s'.Hand ∧ s'.mem = []) ∧
    ∀ f s', (f, s') ∈ s.flushErr c → ∃ W', Core L c s' { g with W := W' } ∧ s'.Hand ∧
      Left f g.W (look s.mem g.W) s' W' := by
  unfold flush flushErr
  cases hm : s.mem with
  | nil =>
    simp only
    obtain ⟨h1, h2⟩ := core_settle h hh
    constructor
    · intro s' hs'
      obtain ⟨k1, k2, k3⟩ := h1 s' hs'
      exact ⟨by rw [addW_nil]; exact k1, k2, k3.trans hm⟩
    · intro f s' hf
      obtain ⟨k1, k2, k3, k4⟩ := h2 f s' hf
      refine ⟨g.W, k2, k3, ?_⟩
      unfold Left
      rw [if_neg k1, k4, hm]
      exact ⟨rfl, .inl rfl⟩
  | cons e l =>
    have hne : s.mem ≠ [] := by rw [hm]; simp
    simp only
    rw [← hm]
    obtain ⟨⟨s1, k1, k2, k3, k4⟩, kE⟩ := core_tryCompact hL h hh hne
    rw [k1]
    simp only
    obtain ⟨h1, h2⟩ := core_settle k2 k3
    constructor
    · intro s' hs'
      obtain ⟨j1, j2, j3⟩ := h1 s' hs'
      exact ⟨j1, j2, j3.trans k4⟩
    · intro f s' hf
      rcases List.mem_append.1 hf with hf | hf
      · exact kE f s' hf
      · obtain ⟨j1, j2, j3, j4⟩ := h2 f s' hf
        refine ⟨_, j2, j3, ?_⟩
        unfold Left
        rw [if_neg j1, j4, k4, look_addW]
        exact ⟨rfl, .inl rfl⟩

theorem core_noted {L : Laws kd x} {c : Cfg K V} {s : Store kd} {g : Ghost K V} (h : Core L c s g)
    (k : K) (data : Option V) (u : Nat) :
    Core L c (s.noted k data u) ⟨g.W, fun a y => g.ins a y ∨ (a = k ∧ data = some y), g.cleared⟩ :=
  have h' := inv_fix (inv_noted (k := k) (data := data) h le_rfl (fun _ => rfl))
  h'

theorem core_write {L : Laws kd x} (hL : ∀ l, L.good l) {c : Cfg K V} {s : Store kd} {g : Ghost K V}
    (h : Core L c s g) (hh : s.Hand) (k : K) (data : Option V) :
    (∀ s', s.write c k data = some s' → ∃ W',
      Core L c s' ⟨W', fun a y => g.ins a y ∨ (a = k ∧ data = some y), g.cleared⟩ ∧ s'.Hand ∧
      (look s'.mem W' = fun y => if y = k then data else look s.mem g.W y) ∧ (s'.mem = [] ∨ W' = g.W)) ∧
    ∀ f s', (f, s') ∈ s.writeErr c k data → ∃ W',
      Core L c s' ⟨W', fun a y => g.ins a y ∨ (a = k ∧ data = some y), g.cleared⟩ ∧ s'.Hand ∧
      Left f g.W (if f = .clock then look s.mem g.W else fun y => if y = k then data else look s.mem g.W y) s' W' := by
  have hlook : ∀ u, look (s.noted k data u).mem g.W = fun y => if y = k then data else look s.mem g.W y := by
    intro u; funext y; exact look_ins h.memSorted _ _ _ _
  have hne : ∀ u, (s.noted k data u).mem ≠ [] := by
    intro u he
    have : (k, (⟨data, s.clock⟩ : Val V)) ∈ SL.ins k ⟨data, s.clock⟩ s.mem := mem_ins_key
    have he' : SL.ins k ⟨data, s.clock⟩ s.mem = [] := he
    rw [he'] at this; simp at this
  have hclock : ∀ s' : Store kd, s' = { s with clock := s.clock + 1 } → Core L c s' ⟨g.W, fun a y => g.ins a y ∨ (a = k ∧ data = some y), g.cleared⟩ := by
    rintro s' rfl
    refine ⟨h.memSorted, ?_, h.memNew, ?_, h.inv, h.sees, h.ids, h.job, h.next, fun h' => absurd rfl h', h.files,
      h.dirIds, h.dirNew, rfl, .inl rfl, le_rfl, fun _ => rfl, fun a v y h1 h2 => .inl (h.vals a v y h1 h2),
      fun e h1 y h2 => .inl (h.memVals e h1 y h2)⟩
    · intro e he; have := h.memTime e he; simp only [fix] at this ⊢; omega
    · intro t ht; have := h.curTime t ht; simp only [fix] at this ⊢; omega
  cases hu : s.usageAfter c k ⟨data, s.clock⟩ with
  | none =>
    have hu' : usageAfter c ({ s with
      clock := s.clock + 1, disk := { s.disk with time := some (s.clock + 1) },
      trace := s.trace ++ [{ s.disk with time := some (s.clock + 1) }] } : Store kd) k ⟨data, s.clock⟩ = none := hu
    constructor
    · intro s' hs'
      unfold write at hs'
      rw [tick_eq] at hs'
      simp only [hu'] at hs'
      simp at hs'
    · intro f s' hf
      unfold writeErr at hf
      rw [tick_eq] at hf
      simp only [hu', List.mem_singleton, Prod.mk.injEq] at hf
      obtain ⟨rfl, rfl⟩ := hf
      exact ⟨g.W, hclock _ rfl, hh, by simp [Left]⟩
  | some u =>
    have hu' : usageAfter c ({ s with
      clock := s.clock + 1, disk := { s.disk with time := some (s.clock + 1) },
      trace := s.trace ++ [{ s.disk with time := some (s.clock + 1) }] } : Store kd) k ⟨data, s.clock⟩ = some u := hu
    have hI := core_noted h k data u
    have hH : (s.noted k data u).Hand := hh
    obtain ⟨⟨s1, k1, k2, k3, k4⟩, kE⟩ := core_tryCompact hL hI hH (hne u)
    constructor
    · rw [write_eq hu]
      intro s' hs'
      split at hs'
      · rw [k1] at hs'
        simp only [Option.some.injEq] at hs'
        subst hs'
        exact ⟨_, k2, k3, by rw [k4, look_addW]; exact hlook u, .inl k4⟩
      · simp only [Option.some.injEq] at hs'
        subst hs'
        exact ⟨g.W, hI, hH, hlook u, .inr rfl⟩
    · intro f s' hf
      unfold writeErr at hf
      rw [tick_eq] at hf
      simp only [hu', List.mem_cons, Prod.mk.injEq] at hf
      rcases hf with ⟨rfl, rfl⟩ | hf
      · exact ⟨g.W, hclock _ rfl, hh, by simp [Left]⟩
      · split at hf
        · have hf' : (f, s') ∈ (s.noted k data u).tryCompactErr c := hf
          obtain ⟨W', j1, j2, j3⟩ := kE f s' hf'
          have hfc : f ≠ .clock := by
            rintro rfl
            clear j3
            unfold tryCompactErr at hf'
            simp only [List.mem_cons, Prod.mk.injEq, reduceCtorEq, false_and, false_or] at hf'
            split at hf'
            · simp at hf'
            · simp only [List.mem_cons, Prod.mk.injEq, reduceCtorEq, false_and, false_or] at hf'
              unfold startErr at hf'
              split at hf'
              · simp at hf'
              · unfold tryReplaceErr at hf'
                split at hf'
                · simp at hf'
                · simp only [List.mem_append, List.mem_filterMap, Option.map_eq_some_iff, Prod.mk.injEq, Option.mem_toList,
                    reduceCtorEq, false_and, and_false, exists_false, or_self] at hf'
          refine ⟨W', j1, j2, ?_⟩
          rw [if_neg hfc, ← hlook u]
          exact j3
        · simp at hf

/-- `clear`, whether it fails or not. -/
theorem core_clear {L : Laws kd x} {c : Cfg K V} {s : Store kd} {g : Ghost K V} (h : Core L c s g) (hh : s.Hand) :
    (∀ s', s.clear = some s' → Core L c s' ⟨fun _ => none, g.ins, g.cleared⟩ ∧ s'.Hand ∧ s'.mem = []) ∧
    ∀ f s', (f, s') ∈ s.clearErr → f ≠ .fill ∧ f ≠ .clock ∧ Core L c s' ⟨fun _ => none, g.ins, g.cleared⟩ ∧ s'.Hand ∧ s'.mem = [] := by
  have h0 : Core L c { s with mem := [] } g :=
    ⟨by simp [fix, SL.Sorted], by simp [fix], by simp [fix], h.curTime, h.inv, h.sees, h.ids, h.job, h.next,
      fun h' => absurd rfl h', h.files, h.dirIds, h.dirNew, rfl, .inl rfl, le_rfl, fun _ => rfl, h.vals, by simp [fix]⟩
  unfold clear clearErr
  simp only
  cases hj : (if s.handle = true then ({ s with mem := [] } : Store kd).join else some { s with mem := [] }) with
  | none => simp
  | some s1 =>
    simp only
    have hs1 : Core L c { s1 with handle := false } g ∧ s1.job = none ∧ s1.mem = [] := by
      split at hj
      · obtain ⟨h1, h2, h3, h4⟩ := core_join h0 hj
        exact ⟨h1, h2, h3⟩
      · rename_i hc
        simp only [Option.some.injEq] at hj
        subst hj
        refine ⟨?_, (hh (by simpa using hc)).1, rfl⟩
        exact ⟨h0.memSorted, h0.memTime, h0.memNew, h0.curTime, h0.inv, h0.sees, h0.ids, h0.job, h0.next, fun h' => absurd rfl h',
          h0.files, h0.dirIds, h0.dirNew, rfl, .inl rfl, le_rfl, fun _ => rfl, h0.vals, h0.memVals⟩
    obtain ⟨k1, k2, k3⟩ := hs1
    have ht := L.tabs_empty
    have hpart : ∀ (js : List Nat) (s3 : Store kd), removeDirs js { s1 with handle := false, cur := kd.empty, next := none } = some s3 →
        Core L c s3 ⟨fun _ => none, g.ins, g.cleared⟩ ∧ s3.Hand ∧ s3.mem = [] := by
      intro js s3 h3
      obtain ⟨tr, rfl, _⟩ := removeDirs_some h3
      refine ⟨⟨?_, ?_, ?_, ?_, L.inv_empty, ⟨?_, ?_, ?_⟩, ?_, ?_, ?_, fun h' => absurd rfl h', ?_, ?_, ?_, rfl, .inl rfl,
        le_rfl, fun _ => rfl, ?_, ?_⟩, fun _ => ⟨k2, rfl⟩, k3⟩
      · exact k1.memSorted
      · exact k1.memTime
      all_goals simp only [fix, k3, ht, Ver, k2]
      all_goals try simp
      · exact List.Nodup.sublist (List.Sublist.map _ List.filter_sublist) k1.dirIds
      · intro t h1 _; exact k1.dirNew t h1
    constructor
    · intro s' hs'
      simp only [Option.map_eq_some_iff] at hs'
      obtain ⟨s2, e2, rfl⟩ := hs'
      exact hpart _ s2 e2
    · intro f s' hf
      rcases List.mem_append.1 hf with hm | hm
      · obtain ⟨n, _, hm⟩ := List.mem_filterMap.1 hm
        simp only [Option.map_eq_some_iff, Prod.mk.injEq] at hm
        obtain ⟨s5, e5, rfl, rfl⟩ := hm
        exact ⟨by simp, by simp, hpart _ _ e5⟩
      · simp only [Option.mem_toList, Option.map_eq_some_iff, Prod.mk.injEq] at hm
        obtain ⟨s5, e5, rfl, rfl⟩ := hm
        exact ⟨by simp, by simp, hpart _ _ e5⟩

theorem Core.mono {L : Laws kd x} {c : Cfg K V} {s : Store kd} {g g' : Ghost K V} (h : Core L c s g)
    (hW : g'.W = g.W) (hi : ∀ a y, g.ins a y → g'.ins a y) : Core L c s g' :=
  ⟨h.memSorted, h.memTime, h.memNew, h.curTime, h.inv, hW ▸ h.sees, h.ids, h.job, h.next, fun h' => absurd rfl h', h.files,
    h.dirIds, h.dirNew, rfl, .inl rfl, le_rfl, fun _ => rfl, fun k v y h1 h2 => hi _ _ (h.vals k v y h1 h2),
    fun e he y hy => hi _ _ (h.memVals e he y hy)⟩

theorem core_locks {L : Laws kd x} {c : Cfg K V} {s : Store kd} {g : Ghost K V} (h : Core L c s g) (n : Nat) :
    Core L c { s with locks := n } g := h

variable [DecidableEq V]

/-- Every call that returns a result preserves the invariant, has the specified effect on the contents, and answers
from the state. -/
theorem core_step {L : Laws kd x} (hL : ∀ l, L.good l) {c : Cfg K V} {s s' : Store kd} {g : Ghost K V} {op : KvOp K V}
    {d : Nat} {r : KvRes K V} (h : Core L c s g) (hh : s.Hand) (hop : op ≠ .reopen)
    (hs : s.step c op d = some (s', r)) :
    ∃ W', Core L c s' (Ghost.after g op W') ∧ s'.Hand ∧ look s'.mem W' = op.apply (look s.mem g.W) ∧ Answer s' op r ∧
      (s'.mem = [] ∨ (W' = g.W ∧ ¬ op.Settles)) := by
  have hw : Core L c (work d s) g := core_work d h
  have hhw : (work d s).Hand := hand_work d hh
  obtain ⟨f1, f2, f3, f4, f5, f6⟩ := work_frame d s
  have rd : ∀ s2, (work d s).tryReplace = some s2 → Core L c s2 g ∧ s2.Hand ∧ s2.mem = s.mem := by
    intro s2 h2
    obtain ⟨s3, k1, k2, k3, k5, k6, k7, k8, k9, _⟩ := core_tryReplace hw
    rw [h2] at k1
    simp only [Option.some.injEq] at k1
    subst k1
    refine ⟨k2, ?_, k3.trans f1⟩
    intro hb; rw [k8] at hb; exact ⟨k6.trans (hhw hb).1, k5⟩
  have fl : ∀ s2, (work d s).flush c = some s2 → Core L c s2 { g with W := addW s.mem g.W } ∧ s2.Hand ∧ s2.mem = [] := by
    intro s2 h2
    have := (core_flush hL hw hhw).1 s2 h2
    rwa [f1] at this
  have fl' : ∀ s2 s3, (work d s).flush c = some s2 → s2.tryReplace = some s3 →
      Core L c s3 { g with W := addW s.mem g.W } ∧ s3.Hand ∧ s3.mem = [] := by
    intro s2 s3 h2 h3
    obtain ⟨k1, k2, k3⟩ := fl s2 h2
    obtain ⟨s4, j1, j2, j3, j5, j6, j7, j8, j9, _⟩ := core_tryReplace k1
    rw [h3] at j1
    simp only [Option.some.injEq] at j1
    subst j1
    refine ⟨j2, ?_, j3.trans k3⟩
    intro hb; rw [j8] at hb; exact ⟨j6.trans (k2 hb).1, j5⟩
  have same : ∀ W', Core L c s' { g with W := W' } → Core L c s' (Ghost.after g op W') := fun W' hi =>
    hi.mono rfl (fun _ _ h => .inl h)
  cases op with
  | insert k v =>
    simp only [step, Option.map_eq_some_iff, Prod.mk.injEq] at hs
    obtain ⟨s2, h2, rfl, rfl⟩ := hs
    obtain ⟨W', k2, k3, k4, k8⟩ := (core_write hL hw hhw k (some v)).1 _ h2
    refine ⟨W', k2.mono rfl ?_, k3, ?_, rfl, k8.imp id fun h => ⟨h, by simp [KvOp.Settles]⟩⟩
    · rintro a y (h | ⟨rfl, h⟩)
      · exact .inl h
      · right; simp only [Option.some.injEq] at h; rw [h]
    · rw [k4, f1]; rfl
  | remove k =>
    simp only [step, Option.map_eq_some_iff, Prod.mk.injEq] at hs
    obtain ⟨s2, h2, rfl, rfl⟩ := hs
    obtain ⟨W', k2, k3, k4, k8⟩ := (core_write hL hw hhw k none).1 _ h2
    refine ⟨W', k2.mono rfl ?_, k3, ?_, rfl, k8.imp id fun h => ⟨h, by simp [KvOp.Settles]⟩⟩
    · rintro a y (h | ⟨rfl, h⟩)
      · exact .inl h
      · simp at h
    · rw [k4, f1]; rfl
  | get k =>
    simp only [step] at hs
    cases hf : SL.find k (work d s).mem with
    | some e =>
      rw [hf] at hs
      simp only [Option.some.injEq, Prod.mk.injEq] at hs
      obtain ⟨rfl, rfl⟩ := hs
      exact ⟨g.W, same _ hw, hhw, by rw [f1]; rfl, by simp [Answer, found, hf], .inr ⟨rfl, by simp [KvOp.Settles]⟩⟩
    | none =>
      rw [hf] at hs
      simp only [Option.map_eq_some_iff, Prod.mk.injEq] at hs
      obtain ⟨s2, h2, rfl, rfl⟩ := hs
      obtain ⟨k1, k2, k3⟩ := rd _ h2
      refine ⟨g.W, same _ k1, k2, by rw [k3]; rfl, ?_, .inr ⟨rfl, by simp [KvOp.Settles]⟩⟩
      simp only [Answer, found]; rw [k3, ← f1, hf]
  | containsKey k =>
    simp only [step] at hs
    cases hf : SL.find k (work d s).mem with
    | some e =>
      rw [hf] at hs
      simp only [Option.some.injEq, Prod.mk.injEq] at hs
      obtain ⟨rfl, rfl⟩ := hs
      exact ⟨g.W, same _ hw, hhw, by rw [f1]; rfl, by simp [Answer, found, hf], .inr ⟨rfl, by simp [KvOp.Settles]⟩⟩
    | none =>
      rw [hf] at hs
      simp only [Option.map_eq_some_iff, Prod.mk.injEq] at hs
      obtain ⟨s2, h2, rfl, rfl⟩ := hs
      obtain ⟨k1, k2, k3⟩ := rd _ h2
      refine ⟨g.W, same _ k1, k2, by rw [k3]; rfl, ?_, .inr ⟨rfl, by simp [KvOp.Settles]⟩⟩
      simp only [Answer, found]; rw [k3, ← f1, hf]
  | lenHint =>
    simp only [step, Option.bind_eq_some_iff, Option.map_eq_some_iff, Prod.mk.injEq] at hs
    obtain ⟨s2, h2, n, h3, rfl, rfl⟩ := hs
    obtain ⟨k1, k2, k3⟩ := rd _ h2
    exact ⟨g.W, same _ k1, k2, by rw [k3]; rfl, ⟨n, h3, rfl⟩, .inr ⟨rfl, by simp [KvOp.Settles]⟩⟩
  | min =>
    simp only [step, Option.map_eq_some_iff, Prod.mk.injEq] at hs
    obtain ⟨s2, h2, rfl, rfl⟩ := hs
    obtain ⟨k1, k2, k3⟩ := rd _ h2
    exact ⟨g.W, same _ k1, k2, by rw [k3]; rfl, rfl, .inr ⟨rfl, by simp [KvOp.Settles]⟩⟩
  | max =>
    simp only [step, Option.map_eq_some_iff, Prod.mk.injEq] at hs
    obtain ⟨s2, h2, rfl, rfl⟩ := hs
    obtain ⟨k1, k2, k3⟩ := rd _ h2
    exact ⟨g.W, same _ k1, k2, by rw [k3]; rfl, rfl, .inr ⟨rfl, by simp [KvOp.Settles]⟩⟩
  | len =>
    simp only [step, Option.bind_eq_some_iff, Option.map_eq_some_iff, Prod.mk.injEq] at hs
    obtain ⟨s2, h2, s3, h3, rfl, rfl⟩ := hs
    obtain ⟨k1, k2, k4⟩ := fl' s2 _ h2 h3
    exact ⟨_, same _ k1, k2, by rw [k4, look_addW]; rfl, ⟨k4, rfl⟩, .inl k4⟩
  | isEmpty =>
    simp only [step, Option.bind_eq_some_iff, Option.map_eq_some_iff, Prod.mk.injEq] at hs
    obtain ⟨s2, h2, s3, h3, rfl, rfl⟩ := hs
    obtain ⟨k1, k2, k4⟩ := fl' s2 _ h2 h3
    exact ⟨_, same _ k1, k2, by rw [k4, look_addW]; rfl, ⟨k4, rfl⟩, .inl k4⟩
  | iter =>
    simp only [step, Option.bind_eq_some_iff, Option.map_eq_some_iff, Prod.mk.injEq] at hs
    obtain ⟨s2, h2, s3, h3, rfl, rfl⟩ := hs
    obtain ⟨k1, k2, k4⟩ := fl' s2 _ h2 h3
    exact ⟨_, same _ k1, k2, by rw [k4, look_addW]; rfl, ⟨k4, rfl⟩, .inl k4⟩
  | hold =>
    simp only [step, Option.bind_eq_some_iff, Option.map_eq_some_iff, Prod.mk.injEq] at hs
    obtain ⟨s2, h2, s3, h3, rfl, rfl⟩ := hs
    obtain ⟨k1, k2, k4⟩ := fl' s2 s3 h2 h3
    exact ⟨_, same _ (core_locks k1 _), k2, by rw [k4, look_addW]; rfl, ⟨k4, rfl⟩, .inl k4⟩
  | release =>
    simp only [step, Option.some.injEq, Prod.mk.injEq] at hs
    obtain ⟨rfl, rfl⟩ := hs
    exact ⟨g.W, same _ (core_locks hw _), hhw, by simp only; rw [f1]; rfl, rfl, .inr ⟨rfl, by simp [KvOp.Settles]⟩⟩
  | flush =>
    simp only [step, Option.map_eq_some_iff, Prod.mk.injEq] at hs
    obtain ⟨s2, h2, rfl, rfl⟩ := hs
    obtain ⟨k1, k2, k4⟩ := fl _ h2
    exact ⟨_, same _ k1, k2, by rw [k4, look_addW]; rfl, rfl, .inl k4⟩
  | clear =>
    simp only [step, Option.map_eq_some_iff, Prod.mk.injEq] at hs
    obtain ⟨s2, h2, rfl, rfl⟩ := hs
    obtain ⟨k1, k2, k3⟩ := (core_clear hw hhw).1 _ h2
    refine ⟨_, k1.mono rfl (fun _ _ h => .inl h), k2, ?_, rfl, .inl k3⟩
    rw [k3]; rfl
  | reopen => exact absurd rfl hop

omit [DecidableEq V] in
/-- Every call that fails preserves the invariant. -/
theorem core_stepErr {L : Laws kd x} (hL : ∀ l, L.good l) {c : Cfg K V} {s s' : Store kd} {g : Ghost K V} {op : KvOp K V}
    {f : Fault} (h : Core L c s g) (hh : s.Hand) (hs : (f, s') ∈ s.stepErr c op) :
    ∃ W', Core L c s' (Ghost.after g op W') ∧ s'.Hand ∧
      Left f g.W (if f = .clock then look s.mem g.W else op.apply (look s.mem g.W)) s' W' := by
  have same : ∀ W', Core L c s' { g with W := W' } → Core L c s' (Ghost.after g op W') := fun W' hi =>
    hi.mono rfl (fun _ _ h => .inl h)
  have norm : ∀ {W'}, op.apply (look s.mem g.W) = look s.mem g.W → Left f g.W (look s.mem g.W) s' W' →
      Left f g.W (if f = .clock then look s.mem g.W else op.apply (look s.mem g.W)) s' W' := by
    intro W' ha hl; rw [ha, ite_self]; exact hl
  have repl : ∀ {s0 : Store kd} {W0}, Core L c s0 { g with W := W0 } → s0.Hand → look s0.mem W0 = look s.mem g.W →
      (s0.mem = [] ∨ W0 = g.W) → (f, s') ∈ s0.tryReplaceErr →
      ∃ W', Core L c s' { g with W := W' } ∧ s'.Hand ∧ Left f g.W (look s.mem g.W) s' W' := by
    intro s0 W0 h0 hh0 hl0 hm0 hf
    obtain ⟨s1, k1, k2, k3, k5, k6, k7, k8, k9, kE⟩ := core_tryReplace h0
    obtain ⟨e1, e2, e3, e4, e5, e6, e7⟩ := kE f s' hf
    refine ⟨W0, e1, ?_, ?_⟩
    · intro hb; rw [e5] at hb; exact ⟨e4.trans (hh0 hb).1, e3⟩
    · unfold Left; rw [if_neg (repl_ne_fill hf), e2]; exact ⟨hl0, hm0⟩
  have rest : ∀ {s0 : Store kd} {W0} (n : Nat → Nat), Core L c s0 { g with W := W0 } → s0.Hand → look s0.mem W0 = look s.mem g.W →
      (s0.mem = [] ∨ W0 = g.W) → (f, s') ∈ s0.tryReplaceErr ++ (match s0.tryReplace with
        | none => [] | some s => [(Fault.read, { s with locks := n s.locks })]) →
      ∃ W', Core L c s' { g with W := W' } ∧ s'.Hand ∧ Left f g.W (look s.mem g.W) s' W' := by
    intro s0 W0 n h0 hh0 hl0 hm0 hf
    rcases List.mem_append.1 hf with hf | hf
    · exact repl h0 hh0 hl0 hm0 hf
    · obtain ⟨s1, k1, k2, k3, k5, k6, k7, k8, k9, kE⟩ := core_tryReplace h0
      rw [k1] at hf
      simp only [List.mem_singleton, Prod.mk.injEq] at hf
      obtain ⟨rfl, rfl⟩ := hf
      refine ⟨W0, core_locks k2 _, ?_, ?_⟩
      · intro hb
        have hb' : s1.handle = false := hb
        rw [k8] at hb'; exact ⟨k6.trans (hh0 hb').1, k5⟩
      · unfold Left; rw [if_neg (by simp)]; simp only; rw [k3]; exact ⟨hl0, hm0⟩
  have get : (f, s') ∈ s.getErr → ∃ W', Core L c s' { g with W := W' } ∧ s'.Hand ∧ Left f g.W (look s.mem g.W) s' W' :=
    fun hf => rest (fun n => n) (W0 := g.W) h hh rfl (.inr rfl) hf
  have iter : (f, s') ∈ s.iterAllErr c → ∃ W', Core L c s' { g with W := W' } ∧ s'.Hand ∧ Left f g.W (look s.mem g.W) s' W' := by
    intro hf
    unfold iterAllErr at hf
    rcases List.mem_append.1 hf with hf | hf
    · exact (core_flush hL h hh).2 f s' hf
    · cases hfl : s.flush c with
      | none => rw [hfl] at hf; simp at hf
      | some s1 =>
        rw [hfl] at hf
        obtain ⟨k1, k2, k3⟩ := (core_flush hL h hh).1 s1 hfl
        exact rest (fun n => n + 1) k1 k2 (by rw [k3, look_addW]) (.inl k3) hf
  cases op with
  | insert k v =>
    obtain ⟨W', k1, k2, k3⟩ := (core_write hL h hh k (some v)).2 f s' hs
    refine ⟨W', k1.mono rfl ?_, k2, k3⟩
    rintro a y (h | ⟨rfl, h⟩)
    · exact .inl h
    · right; simp only [Option.some.injEq] at h; rw [h]
  | remove k =>
    obtain ⟨W', k1, k2, k3⟩ := (core_write hL h hh k none).2 f s' hs
    refine ⟨W', k1.mono rfl ?_, k2, k3⟩
    rintro a y (h | ⟨rfl, h⟩)
    · exact .inl h
    · simp at h
  | get k =>
    simp only [stepErr] at hs
    split at hs
    · simp at hs
    · obtain ⟨W', k1, k2, k3⟩ := get hs
      exact ⟨W', same _ k1, k2, norm rfl k3⟩
  | containsKey k =>
    simp only [stepErr] at hs
    split at hs
    · simp at hs
    · obtain ⟨W', k1, k2, k3⟩ := get hs
      exact ⟨W', same _ k1, k2, norm rfl k3⟩
  | lenHint =>
    obtain ⟨W', k1, k2, k3⟩ := repl (W0 := g.W) h hh rfl (.inr rfl) hs
    exact ⟨W', same _ k1, k2, norm rfl k3⟩
  | len =>
    obtain ⟨W', k1, k2, k3⟩ := iter hs
    exact ⟨W', same _ k1, k2, norm rfl k3⟩
  | isEmpty =>
    obtain ⟨W', k1, k2, k3⟩ := iter hs
    exact ⟨W', same _ k1, k2, norm rfl k3⟩
  | iter =>
    obtain ⟨W', k1, k2, k3⟩ := iter hs
    exact ⟨W', same _ k1, k2, norm rfl k3⟩
  | hold =>
    obtain ⟨W', k1, k2, k3⟩ := iter hs
    exact ⟨W', same _ k1, k2, norm rfl k3⟩
  | min =>
    rcases List.mem_append.1 hs with hf | hf
    · obtain ⟨W', k1, k2, k3⟩ := rest (fun n => n + 1) (W0 := g.W) h hh rfl (.inr rfl) hf
      exact ⟨W', same _ k1, k2, norm rfl k3⟩
    · obtain ⟨W', k1, k2, k3⟩ := get hf
      exact ⟨W', same _ k1, k2, norm rfl k3⟩
  | max =>
    rcases List.mem_append.1 hs with hf | hf
    · obtain ⟨W', k1, k2, k3⟩ := rest (fun n => n + 1) (W0 := g.W) h hh rfl (.inr rfl) hf
      exact ⟨W', same _ k1, k2, norm rfl k3⟩
    · obtain ⟨W', k1, k2, k3⟩ := get hf
      exact ⟨W', same _ k1, k2, norm rfl k3⟩
  | flush =>
    obtain ⟨W', k1, k2, k3⟩ := (core_flush hL h hh).2 f s' hs
    exact ⟨W', same _ k1, k2, norm rfl k3⟩
  | reopen =>
    obtain ⟨W', k1, k2, k3⟩ := (core_flush hL h hh).2 f s' hs
    exact ⟨W', same _ k1, k2, norm rfl k3⟩
  | clear =>
    obtain ⟨k0, k0', k1, k2, k3⟩ := (core_clear h hh).2 f s' hs
    refine ⟨_, k1.mono rfl (fun _ _ h => .inl h), k2, ?_⟩
    unfold Left
    rw [if_neg k0, if_neg k0', k3]
    exact ⟨rfl, .inl rfl⟩
  | release => simp [stepErr] at hs

end Store

end Verif.Lsm
