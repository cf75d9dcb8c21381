/-
Model of `SizeTieredStrategy` (src/lsm_tree/compaction/size_tiered.rs) and what the LSM map needs to know about it.
Also C46.
-/
import Verif.Lsm.StoreRun

namespace Verif.Lsm

open Verif Verif.Spec

variable {K V : Type}

/-- Rust's order on `Option<u64>`: `None` is less than every `Some`. -/
def optLt : Option Nat → Option Nat → Bool
  | none, some _ => true
  | some a, some b => decide (a < b)
  | _, none => false

/-- The greatest end of the logical time ranges of some tables. -/
def endTime (ts : List (Table K V)) : Option Nat := (ts.map (·.times.2)).max?

theorem endTime_none {ts : List (Table K V)} (h : endTime ts = none) : ts = [] := by
  unfold endTime at h
  simpa using h

theorem endTime_le {ts : List (Table K V)} {n : Nat} (h : endTime ts = some n) :
    (∀ t ∈ ts, t.times.2 ≤ n) ∧ ∃ t ∈ ts, t.times.2 = n := by
  unfold endTime at h
  rw [List.max?_eq_some_iff] at h
  obtain ⟨h1, h2⟩ := h
  refine ⟨fun t ht => h2 _ (List.mem_map.2 ⟨t, ht, rfl⟩), ?_⟩
  obtain ⟨t, ht, he⟩ := List.mem_map.1 h1
  exact ⟨t, ht, he⟩

theorem optLt_endTime {ts : List (Table K V)} {n : Nat} :
    optLt (endTime ts) (some n) = true ↔ ∀ t ∈ ts, t.times.2 < n := by
  cases h : endTime ts with
  | none => rw [endTime_none h]; simp [optLt]
  | some m =>
    obtain ⟨h1, t, ht, he⟩ := endTime_le h
    simp only [optLt, decide_eq_true_eq]
    exact ⟨fun hm t ht => lt_of_le_of_lt (h1 t ht) hm, fun hm => he ▸ hm t ht⟩

theorem Ext.sub' [LinearOrder K] {kd : Kind K V} {good : List (Ent K V) → Prop}
    (hp : ∀ m t, (kd.tabs (kd.push m t)).Perm (t :: kd.tabs m)) {S m : kd.M} (h : Ext kd good S m) :
    ∀ t ∈ kd.tabs S, t ∈ kd.tabs m := by
  induction h with
  | refl => exact fun t h => h
  | push _ _ _ _ ih => exact fun t h => (hp _ _).mem_iff.2 (List.mem_cons_of_mem _ (ih t h))

theorem Ext.split [LinearOrder K] {kd : Kind K V} {good : List (Ent K V) → Prop}
    (hp : ∀ m t, (kd.tabs (kd.push m t)).Perm (t :: kd.tabs m)) {S m : kd.M} (h : Ext kd good S m) :
    ∀ t ∈ kd.tabs m, t ∈ kd.tabs S ∨ (t.Ok ∧ ∀ u ∈ kd.tabs S, u.times.2 < t.times.1) := by
  induction h with
  | refl => exact fun t ht => .inl ht
  | push he h1 h2 h3 ih =>
    intro t ht
    rcases List.mem_cons.1 ((hp _ _).mem_iff.1 ht) with rfl | ht
    · exact .inr ⟨h1, fun u hu => h3 u (he.sub' hp u hu)⟩
    · exact ih t ht

theorem Ext.nodup [LinearOrder K] {kd : Kind K V} {good : List (Ent K V) → Prop}
    (hp : ∀ m t, (kd.tabs (kd.push m t)).Perm (t :: kd.tabs m)) {S m : kd.M} (h : Ext kd good S m) :
    ((kd.tabs m).map (·.id)).Nodup → ((kd.tabs S).map (·.id)).Nodup := by
  induction h with
  | refl => exact fun h => h
  | push he h1 h2 h3 ih =>
    intro hn
    exact ih (List.nodup_cons.1 (((hp _ _).map (·.id)).nodup_iff.1 hn)).2

namespace SizeTiered

/-- The parameters of the strategy (size_tiered.rs:27-31).  The test with the floating-point factors `bucket_low`
and `bucket_high` (lines 66-70) is an arbitrary predicate of the size of the first table of the range, the total
size of the range with the next table, their number, and the size of the next table. -/
structure Params where
  maxCount : Nat
  minSize : Nat
  inBucket : Nat → Nat → Nat → Nat → Bool

/-- size_tiered.rs:59 `sort_by_key` (a stable sort). -/
def insertBySize (t : Table K V) : List (Table K V) → List (Table K V)
  | [] => [t]
  | u :: us => if t.size ≤ u.size then t :: u :: us else u :: insertBySize t us

/-- size_tiered.rs:59. -/
def sortBySize : List (Table K V) → List (Table K V)
  | [] => []
  | t :: ts => insertBySize t (sortBySize ts)

/-- size_tiered.rs:64-88: the loop; the last argument are the tables from index `curr` on, `startSize` is the size of
the table at index `start` if `start < curr`. -/
def rangeLoop (p : Params) : Nat → Nat → Nat → Nat → List (Table K V) → Option (Nat × Nat)
  | start, curr, _, _, [] => if p.maxCount < curr - start then some (start, curr) else none
  | start, curr, startSize, rangeSize, t :: ts =>
    let startSize := if start = curr then t.size else startSize
    if t.size ≤ p.minSize ∨ p.inBucket startSize (rangeSize + t.size) (curr - start + 1) t.size then
      rangeLoop p start (curr + 1) startSize (rangeSize + t.size) ts
    else if p.maxCount < curr + 1 - start then some (start, curr + 1)
    else rangeLoop p (curr + 1) (curr + 1) 0 0 ts

/-- size_tiered.rs:58-89 `get_compaction_range`: the sorted tables and the range. -/
def plan (p : Params) (ts : List (Table K V)) : Option (List (Table K V) × (Nat × Nat)) :=
  (rangeLoop p 0 0 0 0 (sortBySize ts)).map fun r => (sortBySize ts, r)

/-- size_tiered.rs:103-109: the hull of the key ranges. -/
def hull [LinearOrder K] : Option (K × K) → List (Table K V) → Option (K × K)
  | o, [] => o
  | none, t :: ts => hull (some t.range) ts
  | some r, t :: ts => hull (some (mergeRanges r t.range)) ts

/-- size_tiered.rs:110-120: whether tombstones may be dropped. -/
def purge [LinearOrder K] (old rest : List (Table K V)) : Bool :=
  rest.all fun t => optLt (endTime old) (some t.times.1) && !(match hull none old with
    | some r => isIntersecting r t.range
    | none => false)

/-- size_tiered.rs:91-151 `Metadata::compact`. -/
def compact [LinearOrder K] (c : Cfg K V) (job : List (Table K V) × (Nat × Nat)) (f : Nat) :
    Option (List (Table K V) × List (Table K V)) :=
  let old := (job.1.drop job.2.1).take (job.2.2 - job.2.1)
  let rest := job.1.take job.2.1 ++ job.1.drop job.2.2
  let out := (mergeRuns (old.map (·.entries))).filter fun e => !purge old rest || e.2.data.isSome
  match out with
  | [] => some (rest, [])
  | e :: l =>
    match build c.sizes (c.block (old.map (·.entryCount)).sum) (e :: l) f with
    | none => none
    | some t => some (rest ++ [t], [t])

/-- size_tiered.rs:356-368: the metadata after taking over `next`. -/
def replace (cur next : List (Table K V)) : List (Table K V) :=
  next ++ cur.filter fun t => optLt (endTime next) (some t.times.2)

/-- One round of the loop size_tiered.rs:464-469: `res < ret` means a greater logical time. -/
def newer (ret res : Option (Val V)) : Option (Val V) :=
  match res, ret with
  | none, _ => ret
  | some v, none => some v
  | some v, some w => if w.time < v.time then some v else some w

/-- size_tiered.rs:452-472 `get`. -/
def get [LinearOrder K] (ts : List (Table K V)) (k : K) : Option (Val V) :=
  ts.foldl (fun ret t => newer ret (t.get k)) none

/-- The strategy. -/
abbrev kind [LinearOrder K] (c : Cfg K V) (p : Params) : Kind K V where
  M := List (Table K V)
  Job := List (Table K V) × (Nat × Nat)
  empty := []
  tabs ts := ts
  push ts t := ts ++ [t]
  plan := plan p
  compact := compact c
  replace := replace
  get := get
  runs ts := ts.map (·.entries)

/-! ### C46 -/

theorem insertBySize_perm (t : Table K V) : ∀ ts, (insertBySize t ts).Perm (t :: ts)
  | [] => List.Perm.refl _
  | u :: us => by
    unfold insertBySize
    split
    · exact List.Perm.refl _
    · exact ((insertBySize_perm t us).cons u).trans (List.Perm.swap t u us)

theorem sortBySize_perm : ∀ ts : List (Table K V), (sortBySize ts).Perm ts
  | [] => List.Perm.refl _
  | t :: ts => (insertBySize_perm t _).trans ((sortBySize_perm ts).cons t)

theorem insertBySize_sorted (t : Table K V) : ∀ {ts : List (Table K V)},
    ts.Pairwise (fun a b => a.size ≤ b.size) → (insertBySize t ts).Pairwise (fun a b => a.size ≤ b.size)
  | [], _ => by simp [insertBySize]
  | u :: us, h => by
    obtain ⟨h1, h2⟩ := List.pairwise_cons.1 h
    unfold insertBySize
    split
    · rename_i hle
      refine List.pairwise_cons.2 ⟨fun b hb => ?_, h⟩
      rcases List.mem_cons.1 hb with rfl | hb
      · exact hle
      · exact hle.trans (h1 b hb)
    · rename_i hle
      refine List.pairwise_cons.2 ⟨fun b hb => ?_, insertBySize_sorted t h2⟩
      rcases List.mem_cons.1 ((insertBySize_perm t us).mem_iff.1 hb) with rfl | hb
      · omega
      · exact h1 b hb

theorem sortBySize_sorted : ∀ ts : List (Table K V), (sortBySize ts).Pairwise (fun a b => a.size ≤ b.size)
  | [] => List.Pairwise.nil
  | t :: ts => insertBySize_sorted t (sortBySize_sorted ts)

theorem rangeLoop_some (p : Params) : ∀ (ts : List (Table K V)) {start curr startSize rangeSize a b : Nat},
    start ≤ curr → rangeLoop p start curr startSize rangeSize ts = some (a, b) →
    start ≤ a ∧ a ≤ b ∧ b ≤ curr + ts.length ∧ p.maxCount < b - a
  | [], start, curr, ss, rs, a, b, hle, h => by
    simp only [rangeLoop] at h
    split at h
    · simp only [Option.some.injEq, Prod.mk.injEq] at h
      obtain ⟨rfl, rfl⟩ := h
      simp only [List.length_nil]
      omega
    · simp at h
  | t :: ts, start, curr, ss, rs, a, b, hle, h => by
    unfold rangeLoop at h
    generalize (if start = curr then t.size else ss) = sz at h
    simp only at h
    split at h
    · have := rangeLoop_some p ts (by omega) h
      simp only [List.length_cons]; omega
    · split at h
      · simp only [Option.some.injEq, Prod.mk.injEq] at h
        obtain ⟨rfl, rfl⟩ := h
        simp only [List.length_cons]; omega
      · have := rangeLoop_some p ts (le_refl _) h
        simp only [List.length_cons]; omega

/-- **C46.**  Whatever the tables and parameters, the selection either declines or returns a range inside the list
of tables, sorted by size and otherwise unchanged, with more than `max_sstable_count` tables. -/
theorem C46_range (p : Params) (ts sorted : List (Table K V)) (a b : Nat) (h : plan p ts = some (sorted, (a, b))) :
    a ≤ b ∧ b ≤ ts.length ∧ p.maxCount < b - a ∧ sorted.Perm ts ∧ sorted.Pairwise (fun t u => t.size ≤ u.size) := by
  unfold plan at h
  simp only [Option.map_eq_some_iff, Prod.mk.injEq] at h
  obtain ⟨⟨a', b'⟩, h1, rfl, rfl, rfl⟩ := h
  have := rangeLoop_some p _ (le_refl 0) h1
  have hl := (sortBySize_perm ts).length_eq
  refine ⟨this.2.1, by omega, this.2.2.2, sortBySize_perm ts, sortBySize_sorted ts⟩

/-- If all tables are small the whole list is selected as soon as there are more than `max_sstable_count`. -/
theorem C46_small (p : Params) (ts : List (Table K V)) (hs : ∀ t ∈ ts, t.size ≤ p.minSize)
    (hc : p.maxCount < ts.length) : plan p ts = some (sortBySize ts, (0, ts.length)) := by
  have key : ∀ (us : List (Table K V)) (start curr ss rs : Nat), (∀ t ∈ us, t.size ≤ p.minSize) →
      p.maxCount < curr + us.length - start → rangeLoop p start curr ss rs us = some (start, curr + us.length) := by
    intro us
    induction us with
    | nil => intro start curr ss rs _ h; simp only [rangeLoop, List.length_nil, Nat.add_zero] at h ⊢; rw [if_pos h]
    | cons u us ih =>
      intro start curr ss rs h1 h2
      unfold rangeLoop
      simp only
      rw [if_pos (.inl (h1 u (by simp))), ih _ _ _ _ (fun t ht => h1 t (List.mem_cons_of_mem _ ht))
        (by simp only [List.length_cons] at h2; omega)]
      simp only [List.length_cons]; congr 2; omega
  have hl := (sortBySize_perm ts).length_eq
  unfold plan
  rw [key _ 0 0 0 0 (fun t ht => hs t ((sortBySize_perm ts).mem_iff.1 ht)) (by omega)]
  simp [hl]

/-- A table of a given size, for the examples. -/
def ofSize (id size : Nat) : Table Nat Nat := ⟨id, 1, 0, size, (0, 0), (0, 0), [(0, ⟨some 0, 0⟩)]⟩

/-- The hypotheses of `C46_range` are met: of tables of sizes 500, 3, 90, 100, 95 and 98 those of sizes 95, 98, 100 and
500 are selected if the largest in a bucket may be twice the first. -/
example : (plan ⟨2, 2, fun first _ _ size => decide (size ≤ 2 * first)⟩
    [ofSize 0 500, ofSize 1 3, ofSize 2 90, ofSize 3 100, ofSize 4 95, ofSize 5 98]).map
      (fun x => (x.1.map (·.size), x.2)) = some ([3, 90, 95, 98, 100, 500], (2, 6)) := by decide +kernel

/-- And those of `C46_small`. -/
example : plan ⟨2, 10, fun _ _ _ _ => false⟩ [ofSize 0 10, ofSize 1 3, ofSize 2 9] =
    some ([ofSize 1 3, ofSize 2 9, ofSize 0 10], (0, 3)) := by
  rw [C46_small _ _ (by decide) (by decide)]
  decide +kernel

/-! ### What the compaction does -/

variable [LinearOrder K]

theorem hull_some (ts : List (Table K V)) : ∀ r, ∃ r', hull (some r) ts = some r' ∧
    r'.1 ≤ r.1 ∧ r.2 ≤ r'.2 ∧ ∀ t ∈ ts, r'.1 ≤ t.range.1 ∧ t.range.2 ≤ r'.2 := by
  induction ts with
  | nil => intro r; exact ⟨r, rfl, le_refl _, le_refl _, by simp⟩
  | cons t ts ih =>
    intro r
    obtain ⟨r', h1, h2, h3, h4⟩ := ih (mergeRanges r t.range)
    refine ⟨r', h1, h2.trans (min_le_left _ _), (le_max_left _ _).trans h3, ?_⟩
    intro u hu
    rcases List.mem_cons.1 hu with rfl | hu
    · exact ⟨h2.trans (min_le_right _ _), (le_max_right _ _).trans h3⟩
    · exact h4 u hu

theorem hull_none {ts : List (Table K V)} (h : ts ≠ []) : ∃ r', hull none ts = some r' ∧
    ∀ t ∈ ts, r'.1 ≤ t.range.1 ∧ t.range.2 ≤ r'.2 := by
  cases ts with
  | nil => exact absurd rfl h
  | cons t ts =>
    obtain ⟨r', h1, h2, h3, h4⟩ := hull_some ts t.range
    refine ⟨r', h1, ?_⟩
    intro u hu
    rcases List.mem_cons.1 hu with rfl | hu
    · exact ⟨h2, h3⟩
    · exact h4 u hu

/-- If tombstones may be dropped, no key of the compacted tables is in another table. -/
theorem purge_disjoint {old rest : List (Table K V)} (h : purge old rest = true) (ho : ∀ t ∈ old, t.Ok)
    (hr : ∀ t ∈ rest, t.Ok) {k : K} {v v' : Val V} (hv : Ver old k v) (hv' : Ver rest k v') : False := by
  obtain ⟨t, ht, hm⟩ := hv
  obtain ⟨u, hu, hm'⟩ := hv'
  have hne : old ≠ [] := by intro he; rw [he] at ht; simp at ht
  obtain ⟨r, h1, h2⟩ := hull_none hne
  unfold purge at h
  rw [h1, List.all_eq_true] at h
  have h3 := h u hu
  simp only [Bool.and_eq_true, Bool.not_eq_eq_eq_not, Bool.not_true] at h3
  have h4 := (ho t ht)
  have h5 := (hr u hu)
  have : isIntersecting r u.range = true := by
    have h6 := h4.lo_le hm
    have h7 := h4.le_hi hm
    have h8 := h5.lo_le hm'
    have h9 := h5.le_hi hm'
    have h10 := h2 t ht
    rw [((C48_is_intersecting r u.range).2 ((h10.1.trans h6).trans (h7.trans h10.2)) (h8.trans h9))]
    exact ⟨k, ⟨h10.1.trans h6, h7.trans h10.2⟩, h8, h9⟩
  rw [h3.2] at this
  simp at this

/-- The result of a compaction: the tables outside the range and, if it is not empty, a table with the merged
entries, perhaps without tombstones. -/
structure Compacted (S : List (Table K V)) (C new : List (Table K V)) (f : Nat) (old rest : List (Table K V)) :
    Prop where
  perm : S.Perm (old ++ rest)
  eq : C = rest ++ new
  ids : new.map (·.id) = List.range' f new.length
  ok : ∀ t ∈ new, t.Ok
  sub : ∀ k v, Ver new k v → Ver old k v
  newest : ∀ k v, Ver new k v → ∀ v', Ver old k v' → v'.time ≤ v.time
  keep : ∀ k v, Ver old k v → (∀ v', Ver old k v' → v'.time < v.time ∨ v' = v) →
    (v.data.isSome = true ∨ purge old rest = false) → Ver new k v

theorem in_map_entries {ts : List (Table K V)} {e : Ent K V} : In (ts.map (·.entries)) e ↔ Ver ts e.1 e.2 := by
  unfold In Ver
  constructor
  · rintro ⟨r, hr, he⟩
    obtain ⟨t, ht, rfl⟩ := List.mem_map.1 hr
    exact ⟨t, ht, he⟩
  · rintro ⟨t, ht, he⟩
    exact ⟨_, List.mem_map.2 ⟨t, ht, rfl⟩, he⟩

theorem compact_spec {c : Cfg K V} {p : Params} {S : List (Table K V)} {j} {f : Nat} (hok : ∀ t ∈ S, t.Ok)
    (hp : plan p S = some j) : ∃ C new, compact c j f = some (C, new) ∧ ∃ old rest, Compacted S C new f old rest := by
  obtain ⟨sorted, a, b⟩ := j
  obtain ⟨h1, h2, h3, h4, _⟩ := C46_range p S sorted a b hp
  unfold compact
  simp only
  generalize hold : (sorted.drop a).take (b - a) = old
  generalize hrest : sorted.take a ++ sorted.drop b = rest
  have hperm : S.Perm (old ++ rest) := by
    refine h4.symm.trans ?_
    rw [← hold, ← hrest]
    have e1 : sorted = sorted.take a ++ ((sorted.drop a).take (b - a) ++ sorted.drop b) := by
      conv_lhs => rw [← List.take_append_drop a sorted, ← List.take_append_drop (b - a) (sorted.drop a),
        List.drop_drop, Nat.add_sub_cancel' h1]
    conv_lhs => rw [e1]
    rw [← List.append_assoc, ← List.append_assoc]
    exact List.Perm.append_right _ List.perm_append_comm
  have hoold : ∀ t ∈ old, t.Ok := fun t ht => hok t (hperm.mem_iff.2 (List.mem_append_left _ ht))
  have hm := mergeRuns_merged (runs := old.map (·.entries)) (by
    intro r hr
    obtain ⟨t, ht, rfl⟩ := List.mem_map.1 hr
    exact (hoold t ht).sorted)
  generalize hout : (mergeRuns (old.map (·.entries))).filter (fun e => !purge old rest || e.2.data.isSome) = out
  have hs : SL.Sorted out := by rw [← hout]; exact List.Pairwise.filter _ hm.sorted
  have hmem : ∀ e, e ∈ out ↔ e ∈ mergeRuns (old.map (·.entries)) ∧ (!purge old rest || e.2.data.isSome) = true := by
    intro e; rw [← hout]; exact List.mem_filter
  have main : ∀ new : List (Table K V), (∀ k v, Ver new k v ↔ (k, v) ∈ out) → (∀ t ∈ new, t.Ok) →
      new.map (·.id) = List.range' f new.length → Compacted S (rest ++ new) new f old rest := by
    intro new hv hk hi
    refine ⟨hperm, rfl, hi, hk, ?_, ?_, ?_⟩
    · intro k v h
      have := ((hmem _).1 ((hv k v).1 h)).1
      exact in_map_entries.1 (hm.sub _ this)
    · intro k v h v' hv'
      have := ((hmem _).1 ((hv k v).1 h)).1
      exact hm.newest _ this (k, v') (in_map_entries.2 hv') rfl
    · intro k v h hn hd
      rw [hv, hmem]
      obtain ⟨⟨k', v'⟩, h5, h6⟩ := hm.all (k, v) (in_map_entries.2 h)
      simp only at h6
      subst h6
      have h7 := in_map_entries.1 (hm.sub _ h5)
      have h8 := hm.newest _ h5 (k', v) (in_map_entries.2 h) rfl
      have : v' = v := by
        rcases hn v' h7 with h9 | h9
        · simp only at h8; omega
        · exact h9
      subst this
      refine ⟨h5, ?_⟩
      rcases hd with hd | hd <;> simp [hd]
  cases hou : out with
  | nil =>
    refine ⟨rest, [], rfl, old, rest, ?_⟩
    have := main [] (by intro k v; rw [hou]; simp [Ver]) (by simp) (by simp)
    simpa using this
  | cons e l =>
    obtain ⟨t, h5, h6, h7, h8⟩ := build_ok (z := c.sizes) (n := c.block (old.map (·.entryCount)).sum) hs
      (by rw [hou]; simp) f
    rw [hou] at h5
    simp only
    rw [h5]
    refine ⟨_, _, rfl, old, rest, main [t] ?_ ?_ ?_⟩
    · intro k v
      simp [Ver, h7]
    · simpa using h6
    · simp [h8]

/-- `cur` arises from `S` by pushing newer tables: what that says about single tables. -/
theorem ext_split {c : Cfg K V} {p : Params} {good : List (Ent K V) → Prop} {S cur : List (Table K V)}
    (h : Ext (kind c p) good S cur) : ∀ t ∈ cur, t ∈ S ∨ (t.Ok ∧ ∀ u ∈ S, u.times.2 < t.times.1) :=
  Ext.split (kd := kind c p) (fun _ _ => List.perm_append_comm) h

theorem ext_nodup {c : Cfg K V} {p : Params} {good : List (Ent K V) → Prop} {S cur : List (Table K V)}
    (h : Ext (kind c p) good S cur) : (cur.map (·.id)).Nodup → (S.map (·.id)).Nodup :=
  Ext.nodup (kd := kind c p) (fun _ _ => List.perm_append_comm) h

theorem ext_sub {c : Cfg K V} {p : Params} {good : List (Ent K V) → Prop} {S cur : List (Table K V)}
    (h : Ext (kind c p) good S cur) : ∀ t ∈ S, t ∈ cur :=
  Ext.sub' (kd := kind c p) (fun _ _ => List.perm_append_comm) h

theorem ver_append {a b : List (Table K V)} {k : K} {v : Val V} : Ver (a ++ b) k v ↔ Ver a k v ∨ Ver b k v := by
  unfold Ver
  simp only [List.mem_append]
  constructor
  · rintro ⟨t, h | h, h'⟩
    · exact .inl ⟨t, h, h'⟩
    · exact .inr ⟨t, h, h'⟩
  · rintro (⟨t, h, h'⟩ | ⟨t, h, h'⟩)
    · exact ⟨t, .inl h, h'⟩
    · exact ⟨t, .inr h, h'⟩

theorem ver_perm {a b : List (Table K V)} (h : a.Perm b) {k : K} {v : Val V} : Ver a k v ↔ Ver b k v := by
  unfold Ver; simp only [h.mem_iff]

/-- Taking over a compaction: what holds without further conditions. -/
theorem replace_facts {c : Cfg K V} {p : Params} {good : List (Ent K V) → Prop} {S cur C new old rest : List (Table K V)}
    {f : Nat} (hS : ∀ t ∈ S, t.Ok) (he : Ext (kind c p) good S cur) (hok : ∀ t ∈ cur, t.Ok)
    (hc : Compacted S C new f old rest) :
    (∀ t ∈ replace cur C, t.Ok) ∧
    (∀ k v, Ver (replace cur C) k v → Ver cur k v) ∧
    (∀ t ∈ replace cur C, t ∈ cur ∨ t ∈ new) ∧
    (∀ k v, Ver cur k v → (∀ v', Ver cur k v' → v'.time < v.time ∨ v' = v) → v.data.isSome = true →
      Ver (replace cur C) k v) ∧
    (∀ t ∈ cur, t ∉ S → t ∈ replace cur C) := by
  have hsub := ext_sub he
  have hold : ∀ t ∈ old, t ∈ S := fun t ht => hc.perm.mem_iff.2 (List.mem_append_left _ ht)
  have hrest : ∀ t ∈ rest, t ∈ S := fun t ht => hc.perm.mem_iff.2 (List.mem_append_right _ ht)
  have hmem : ∀ t ∈ replace cur C, t ∈ rest ∨ t ∈ new ∨ t ∈ cur := by
    intro t ht
    unfold replace at ht
    rw [hc.eq] at ht
    simp only [List.mem_append, List.mem_filter] at ht
    tauto
  have hCS : ∀ t ∈ C, ∃ u ∈ S, t.times.2 ≤ u.times.2 := by
    intro t ht
    rw [hc.eq] at ht
    rcases List.mem_append.1 ht with ht | ht
    · exact ⟨t, hrest t ht, le_refl _⟩
    · obtain ⟨⟨k, v⟩, hv, hvt⟩ := (hc.ok t ht).timeHiMem
      obtain ⟨u, hu, huv⟩ := hc.sub k v ⟨t, ht, hv⟩
      have := (hS u (hold u hu)).timeHi _ huv
      exact ⟨u, hold u hu, by simp only at hvt this; omega⟩
  have hN : ∀ t ∈ cur, t ∉ S → t ∈ replace cur C := by
    intro t ht hnt
    rcases ext_split he t ht with h | ⟨h1, h2⟩
    · exact absurd h hnt
    · unfold replace
      refine List.mem_append_right _ (List.mem_filter.2 ⟨ht, ?_⟩)
      rw [optLt_endTime]
      intro u hu
      obtain ⟨w, hw, hle⟩ := hCS u hu
      have h3 := h2 w hw
      obtain ⟨e, he, het⟩ := h1.timeLoMem
      have := h1.timeHi e he
      omega
  refine ⟨?_, ?_, ?_, ?_, hN⟩
  · intro t ht
    rcases hmem t ht with h | h | h
    · exact hS t (hrest t h)
    · exact hc.ok t h
    · exact hok t h
  · rintro k v ⟨t, ht, hv⟩
    rcases hmem t ht with h | h | h
    · exact ⟨t, hsub t (hrest t h), hv⟩
    · obtain ⟨u, hu, huv⟩ := hc.sub k v ⟨t, h, hv⟩
      exact ⟨u, hsub u (hold u hu), huv⟩
    · exact ⟨t, h, hv⟩
  · intro t ht
    rcases hmem t ht with h | h | h
    · exact .inl (hsub t (hrest t h))
    · exact .inr h
    · exact .inl h
  · rintro k v ⟨t, ht, hv⟩ hn hd
    by_cases htS : t ∈ S
    · rcases List.mem_append.1 (hc.perm.mem_iff.1 htS) with h | h
      · have := hc.keep k v ⟨t, h, hv⟩ (fun v' ⟨u, hu, huv⟩ => hn v' ⟨u, hsub u (hold u hu), huv⟩) (.inl hd)
        unfold replace
        rw [ver_append, hc.eq, ver_append]
        exact .inl (.inr this)
      · exact ⟨t, by unfold replace; rw [hc.eq]; simp [h], hv⟩
    · exact ⟨t, hN t ht htS, hv⟩

theorem replace_nodup {cur S C new old rest : List (Table K V)} {f : Nat}
    (hsub : ∀ t ∈ S, t ∈ cur) (hnS : (S.map (·.id)).Nodup) (hn : (cur.map (·.id)).Nodup)
    (hnew : ∀ u ∈ new, u.id ∉ cur.map (·.id)) (hc : Compacted S C new f old rest) :
    ((replace cur C).map (·.id)).Nodup := by
  have hrest : ∀ t ∈ rest, t ∈ cur := fun t ht => hsub t (hc.perm.mem_iff.2 (List.mem_append_right _ ht))
  have h1 : (rest.map (·.id)).Nodup := by
    have := (hc.perm.map (·.id)).nodup_iff.1 hnS
    rw [List.map_append] at this
    exact (List.nodup_append.1 this).2.1
  have h2 : ((cur.filter fun t => optLt (endTime C) (some t.times.2)).map (·.id)).Nodup :=
    hn.sublist (List.filter_sublist.map _)
  have h3 : (new.map (·.id)).Nodup := by rw [hc.ids]; exact List.nodup_range'
  have inj : ∀ t ∈ cur, ∀ u ∈ cur, t.id = u.id → t = u := by
    intro t ht u hu he
    exact List.inj_on_of_nodup_map hn ht hu he
  unfold replace
  rw [hc.eq, List.map_append, List.map_append]
  rw [hc.eq] at h2
  refine List.nodup_append.2 ⟨List.nodup_append.2 ⟨h1, h3, ?_⟩, h2, ?_⟩
  · intro i hi j hj hij
    obtain ⟨t, ht, rfl⟩ := List.mem_map.1 hi
    obtain ⟨u, hu, rfl⟩ := List.mem_map.1 hj
    exact hnew u hu (List.mem_map.2 ⟨t, hrest t ht, hij⟩)
  · intro i hi j hj hij
    obtain ⟨u, hu, rfl⟩ := List.mem_map.1 hj
    obtain ⟨hu1, hu2⟩ := List.mem_filter.1 hu
    rcases List.mem_append.1 hi with hi | hi
    · obtain ⟨t, ht, rfl⟩ := List.mem_map.1 hi
      have := inj t (hrest t ht) u hu1 hij
      subst this
      rw [optLt_endTime] at hu2
      have := hu2 t (List.mem_append_left _ ht)
      omega
    · obtain ⟨t, ht, rfl⟩ := List.mem_map.1 hi
      exact hnew t ht (List.mem_map.2 ⟨u, hu1, hij.symm⟩)

theorem get_fold {ts : List (Table K V)} (hok : ∀ t ∈ ts, t.Ok) (k : K) : ∀ (ret : Option (Val V)) {o},
    ts.foldl (fun ret t => newer ret (t.get k)) ret = o →
    (o = none → ret = none ∧ ∀ v, ¬ Ver ts k v) ∧
    (∀ v, o = some v → (ret = some v ∨ Ver ts k v) ∧ (∀ w, ret = some w → w.time ≤ v.time) ∧
      ∀ v', Ver ts k v' → v'.time ≤ v.time) := by
  induction ts with
  | nil =>
    intro ret o h
    simp only [List.foldl_nil] at h
    subst h
    refine ⟨fun h => ⟨h, by simp [Ver]⟩, fun v hv => ⟨.inl hv, ?_, by simp [Ver]⟩⟩
    intro w hw; rw [hv] at hw; simp only [Option.some.injEq] at hw; rw [hw]
  | cons t ts ih =>
    intro ret o h
    simp only [List.foldl_cons] at h
    obtain ⟨h1, h2⟩ := ih (fun u hu => hok u (List.mem_cons_of_mem _ hu)) _ h
    have ht := hok t (by simp)
    have hcons : ∀ v, Ver (t :: ts) k v ↔ (k, v) ∈ t.entries ∨ Ver ts k v := by
      intro v
      unfold Ver
      simp only [List.mem_cons]
      constructor
      · rintro ⟨u, rfl | hu, hm⟩
        · exact .inl hm
        · exact .inr ⟨u, hu, hm⟩
      · rintro (hm | ⟨u, hu, hm⟩)
        · exact ⟨t, .inl rfl, hm⟩
        · exact ⟨u, .inr hu, hm⟩
    have huniq : ∀ {a b : Val V}, (k, a) ∈ t.entries → (k, b) ∈ t.entries → a = b := by
      intro a b ha hb
      have := ht.get_some.2 ha
      rw [ht.get_some.2 hb] at this
      simpa using this.symm
    cases hg : t.get k with
    | none =>
      have hno := ht.get_none.1 hg
      have hr : newer ret none = ret := rfl
      rw [hg, hr] at h1 h2
      refine ⟨fun ho => ⟨(h1 ho).1, fun v hv => ?_⟩, fun v hv => ?_⟩
      · rcases (hcons v).1 hv with h | h
        · exact hno v h
        · exact (h1 ho).2 v h
      · obtain ⟨a1, a2, a3⟩ := h2 v hv
        refine ⟨?_, a2, fun v' hv' => ?_⟩
        · rcases a1 with a1 | a1
          · exact .inl a1
          · exact .inr ((hcons v).2 (.inr a1))
        · rcases (hcons v').1 hv' with h | h
          · exact absurd h (hno v')
          · exact a3 v' h
    | some g =>
      have hgm := ht.get_some.1 hg
      rw [hg] at h1 h2
      have hr : ∃ w, newer ret (some g) = some w ∧ g.time ≤ w.time ∧ (w = g ∨ ret = some w) ∧
          ∀ u, ret = some u → u.time ≤ w.time := by
        cases ret with
        | none => exact ⟨g, rfl, le_refl _, .inl rfl, by simp⟩
        | some r =>
          simp only [newer]
          split
          · exact ⟨g, rfl, le_refl _, .inl rfl, by rintro u hu; simp only [Option.some.injEq] at hu; subst hu; omega⟩
          · refine ⟨r, rfl, by omega, .inr rfl, ?_⟩
            rintro u hu; simp only [Option.some.injEq] at hu; rw [hu]
      obtain ⟨w, w1, w2, w3, w4⟩ := hr
      rw [w1] at h1 h2
      refine ⟨fun ho => absurd (h1 ho).1 (by simp), fun v hv => ?_⟩
      obtain ⟨a1, a2, a3⟩ := h2 v hv
      have hwv := a2 w rfl
      refine ⟨?_, fun u hu => (w4 u hu).trans hwv, fun v' hv' => ?_⟩
      · rcases a1 with a1 | a1
        · simp only [Option.some.injEq] at a1
          subst a1
          rcases w3 with w3 | w3
          · right; rw [hcons, w3]; exact .inl hgm
          · exact .inl w3
        · exact .inr ((hcons v).2 (.inr a1))
      · rcases (hcons v').1 hv' with h | h
        · rw [huniq h hgm]; omega
        · exact a3 v' h

/-- The facts that hold in all histories. -/
def laws (c : Cfg K V) (p : Params) : Laws (kind c p) false where
  good _ := True
  inv ts := ∀ t ∈ ts, t.Ok
  inv_empty := by simp
  tabs_empty := rfl
  inv_ok h := h
  inv_push := by
    intro m t h1 h2 _ _ u hu
    rcases List.mem_append.1 hu with hu | hu
    · exact h1 u hu
    · simp only [List.mem_singleton] at hu; rw [hu]; exact h2
  tabs_push m t := List.perm_append_comm
  compact_new := by
    intro S j f C new hi hp hc
    obtain ⟨C', new', h1, old, rest, h2⟩ := compact_spec (c := c) (f := f) hi hp
    rw [show compact c j f = some (C, new) from hc] at h1
    simp only [Option.some.injEq, Prod.mk.injEq] at h1
    obtain ⟨rfl, rfl⟩ := h1
    refine ⟨h2.ids, fun t ht => ?_⟩
    rw [h2.eq] at ht
    rcases List.mem_append.1 ht with ht | ht
    · exact .inl (h2.perm.mem_iff.2 (List.mem_append_right _ ht))
    · exact .inr ht
  replace := by
    intro S j f C new cur W hi hp hc he hcur hnd hnew hs
    obtain ⟨C', new', h1, old, rest, h2⟩ := compact_spec (c := c) (f := f) hi hp
    rw [show compact c j f = some (C, new) from hc] at h1
    simp only [Option.some.injEq, Prod.mk.injEq] at h1
    obtain ⟨rfl, rfl⟩ := h1
    obtain ⟨r1, r2, r3, r4, r5⟩ := replace_facts hi he hcur h2
    refine ⟨r1, ⟨?_, ?_, by simp⟩, r2, r3, replace_nodup (ext_sub he) (ext_nodup he hnd) hnd hnew h2⟩
    · exact fun k v hv => hs.old k v (r2 k v hv)
    · intro k w hw hd
      refine r4 k w (hs.live k w hw hd) (fun v' hv' => ?_) hd
      obtain ⟨w', hw', h3⟩ := hs.old k v' hv'
      rw [hw] at hw'
      simp only [Option.some.injEq] at hw'
      subst hw'
      exact h3
  get_some := by
    intro m k v hi hg
    obtain ⟨h1, h2⟩ := get_fold hi k none hg
    obtain ⟨a, b, c⟩ := h2 v rfl
    exact ⟨a.resolve_left (by simp), c⟩
  get_none := by
    intro m k hi hg
    obtain ⟨h1, h2⟩ := get_fold hi k none hg
    exact (h1 rfl).2
  runs_sorted := by
    intro m hi r hr
    obtain ⟨t, ht, rfl⟩ := List.mem_map.1 hr
    exact (hi t ht).sorted
  runs_in := fun _ e => in_map_entries

theorem laws_total (c : Cfg K V) (p : Params) : (laws c p : Laws (kind c p) false).Total := by
  intro S j hi hp f
  obtain ⟨C, new, h, _⟩ := compact_spec (c := c) (f := f) hi hp
  exact ⟨_, h⟩

/-- The newest entry of the list is an insertion. -/
def NewestIsValue (l : List (Ent K V)) : Prop :=
  ∃ e ∈ l, e.2.data.isSome = true ∧ ∀ e' ∈ l, e'.2.time ≤ e.2.time

/-- The invariant of histories in which the newest entry of every table written is an insertion. -/
structure Clean (ts : List (Table K V)) : Prop where
  ok : ∀ t ∈ ts, t.Ok
  uniq : ∀ k v v', Ver ts k v → Ver ts k v' → v.time = v'.time → v = v'
  top : ts = [] ∨ ∃ k v, Ver ts k v ∧ v.data.isSome = true ∧ ∀ t ∈ ts, t.times.2 ≤ v.time

theorem ver_time {ts : List (Table K V)} (h : ∀ t ∈ ts, t.Ok) {k : K} {v : Val V} (hv : Ver ts k v) {n : Nat}
    (hn : ∀ t ∈ ts, t.times.2 ≤ n) : v.time ≤ n := by
  obtain ⟨t, ht, hm⟩ := hv
  have h1 := (h t ht).timeHi _ hm
  have h2 := hn t ht
  simp only at h1
  omega

theorem clean_push {ts : List (Table K V)} {t : Table K V} (h : Clean ts) (ht : t.Ok) (hg : NewestIsValue t.entries)
    (hnew : ∀ u ∈ ts, u.times.2 < t.times.1) : Clean (ts ++ [t]) := by
  have hv : ∀ k v, Ver (ts ++ [t]) k v ↔ Ver ts k v ∨ (k, v) ∈ t.entries := by
    intro k v; rw [ver_append]; simp [Ver]
  have hlt : ∀ k v, Ver ts k v → ∀ e ∈ t.entries, v.time < e.2.time := by
    rintro k v ⟨u, hu, hm⟩ e he
    have h1 := (h.ok u hu).timeHi _ hm
    have h2 := hnew u hu
    have h3 := ht.timeLo e he
    simp only at h1
    omega
  refine ⟨?_, ?_, .inr ?_⟩
  · intro u hu
    rcases List.mem_append.1 hu with hu | hu
    · exact h.ok u hu
    · simp only [List.mem_singleton] at hu; rw [hu]; exact ht
  · intro k v v' h1 h2 h3
    rcases (hv k v).1 h1 with h1 | h1 <;> rcases (hv k v').1 h2 with h2 | h2
    · exact h.uniq k v v' h1 h2 h3
    · have := hlt k v h1 _ h2; simp only at this; omega
    · have := hlt k v' h2 _ h1; simp only at this; omega
    · have := ht.get_some.2 h1
      rw [ht.get_some.2 h2] at this
      simpa using this.symm
  · obtain ⟨⟨k, v⟩, h1, h2, h3⟩ := hg
    refine ⟨k, v, (hv k v).2 (.inr h1), h2, ?_⟩
    intro u hu
    rcases List.mem_append.1 hu with hu | hu
    · have h4 := hnew u hu
      have h5 := ht.timeLo _ h1
      simp only at h5
      omega
    · simp only [List.mem_singleton] at hu
      subst hu
      obtain ⟨e, he, hee⟩ := ht.timeHiMem
      rw [← hee]
      exact h3 e he

/-- Taking over a compaction in a clean history. -/
theorem clean_replace {c : Cfg K V} {p : Params} {good : List (Ent K V) → Prop} {S cur C new old rest : List (Table K V)}
    {f : Nat} {W : K → Option (Val V)} (hS : Clean S) (he : Ext (kind c p) good S cur) (hcur : Clean cur)
    (hc : Compacted S C new f old rest) (hs : Sees true cur W) :
    Clean (replace cur C) ∧ Sees true (replace cur C) W := by
  obtain ⟨r1, r2, r3, r4, r5⟩ := replace_facts hS.ok he hcur.ok hc
  have hsub := ext_sub he
  have hold : ∀ t ∈ old, t ∈ S := fun t ht => hc.perm.mem_iff.2 (List.mem_append_left _ ht)
  have hrest : ∀ t ∈ rest, t ∈ S := fun t ht => hc.perm.mem_iff.2 (List.mem_append_right _ ht)
  have hnew : ∀ v w k, Ver cur k v → Ver cur k w → (∀ t ∈ cur, t.times.2 ≤ v.time) → w.time < v.time ∨ w = v := by
    intro v w k hv hw hn
    rcases Nat.lt_or_eq_of_le (ver_time hcur.ok hw hn) with h | h
    · exact .inl h
    · exact .inr (hcur.uniq k w v hw hv h)
  -- no table of the snapshot ends later than the compacted ones
  have htop : ∀ t ∈ S, optLt (endTime C) (some t.times.2) = true → False := by
    intro t ht hlt
    rcases hS.top with h | ⟨k, v, h1, h2, h3⟩
    · rw [h] at ht; simp at ht
    · have hvC : Ver C k v := by
        obtain ⟨u, hu, hm⟩ := h1
        rw [hc.eq, ver_append]
        rcases List.mem_append.1 (hc.perm.mem_iff.1 hu) with hu' | hu'
        · right
          refine hc.keep k v ⟨u, hu', hm⟩ (fun v' ⟨w, hw, hwm⟩ => ?_) (.inl h2)
          have hvw : Ver S k v' := ⟨w, hold w hw, hwm⟩
          rcases Nat.lt_or_eq_of_le (ver_time hS.ok hvw h3) with h | h
          · exact .inl h
          · exact .inr (hS.uniq k v' v hvw ⟨u, hu, hm⟩ h)
        · exact .inl ⟨u, hu', hm⟩
      obtain ⟨u, hu, hm⟩ := hvC
      rw [optLt_endTime] at hlt
      have h4 := hlt u hu
      have hokC : u.Ok := by
        rw [hc.eq] at hu
        rcases List.mem_append.1 hu with hu | hu
        · exact hS.ok u (hrest u hu)
        · exact hc.ok u hu
      have h5 := hokC.timeHi _ hm
      have h6 := h3 t ht
      simp only at h5
      omega
  refine ⟨⟨r1, fun k v v' h1 h2 => hcur.uniq k v v' (r2 k v h1) (r2 k v' h2), ?_⟩, ?_, ?_, ?_⟩
  · rcases hcur.top with h | ⟨k, v, h1, h2, h3⟩
    · left
      have hSe : S = [] := List.eq_nil_iff_forall_not_mem.2 fun t ht => by
        have := hsub t ht; rw [h] at this; simp at this
      have hp := hc.perm
      rw [hSe] at hp
      have hoe := List.append_eq_nil_iff.1 hp.symm.eq_nil
      have hne : new = [] := List.eq_nil_iff_forall_not_mem.2 fun t ht => by
        obtain ⟨⟨k, v⟩, hm, _⟩ := (hc.ok t ht).timeHiMem
        obtain ⟨u, hu, _⟩ := hc.sub k v ⟨t, ht, hm⟩
        rw [hoe.1] at hu; simp at hu
      rw [hc.eq, hoe.2, hne, h]; rfl
    · right
      refine ⟨k, v, r4 k v h1 (fun v' hv' => hnew v v' k h1 hv' h3) h2, h2, ?_⟩
      intro t ht
      obtain ⟨⟨k', v'⟩, hm, hmt⟩ := (r1 t ht).timeHiMem
      have := ver_time hcur.ok (r2 k' v' ⟨t, ht, hm⟩) h3
      simp only at hmt
      omega
  · exact fun k v hv => hs.old k v (r2 k v hv)
  · intro k w hw hd
    refine r4 k w (hs.live k w hw hd) (fun v' hv' => ?_) hd
    obtain ⟨w', hw', h3⟩ := hs.old k v' hv'
    rw [hw] at hw'
    simp only [Option.some.injEq] at hw'
    subst hw'
    exact h3
  · intro _ k w hw hd
    have hmax : ∀ v', Ver cur k v' → v'.time < w.time ∨ v' = w := by
      intro v' hv'
      obtain ⟨w', hw', h3⟩ := hs.old k v' hv'
      rw [hw] at hw'
      simp only [Option.some.injEq] at hw'
      subst hw'
      exact h3
    rcases hs.dead rfl k w hw hd with ⟨t, ht, hm⟩ | hno
    · by_cases htS : t ∈ S
      · rcases List.mem_append.1 (hc.perm.mem_iff.1 htS) with hto | htr
        · cases hpg : purge old rest with
          | false =>
            left
            have := hc.keep k w ⟨t, hto, hm⟩ (fun v' ⟨u, hu, huv⟩ => hmax v' ⟨u, hsub u (hold u hu), huv⟩) (.inr hpg)
            unfold replace
            rw [ver_append, hc.eq, ver_append]
            exact .inl (.inr this)
          | true =>
            by_cases hin : Ver (replace cur C) k w
            · exact .inl hin
            · right
              intro v hv
              -- where could a version of `k` be?
              have hv0 := hv
              unfold replace at hv
              rw [ver_append, hc.eq, ver_append] at hv
              rcases hv with (hv | hv) | ⟨u, hu, hum⟩
              · exact purge_disjoint hpg (fun t ht => hS.ok t (hold t ht)) (fun t ht => hS.ok t (hrest t ht))
                  ⟨t, hto, hm⟩ hv
              · have h1 := hc.newest k v hv w ⟨t, hto, hm⟩
                rcases hmax v (r2 k v hv0) with h2 | h2
                · omega
                · exact hin (h2 ▸ hv0)
              · obtain ⟨hu1, hu2⟩ := List.mem_filter.1 hu
                by_cases huS : u ∈ S
                · rw [← hc.eq] at hu2
                  exact htop u huS hu2
                · rcases ext_split he u hu1 with h | ⟨h1, h2⟩
                  · exact huS h
                  · have h3 := h2 t htS
                    have h4 := (hS.ok t htS).timeHi _ hm
                    have h5 := h1.timeLo _ hum
                    simp only at h4 h5
                    rcases hmax v ⟨u, hu1, hum⟩ with h6 | h6
                    · omega
                    · rw [h6] at h5; omega
        · left
          exact ⟨t, by unfold replace; rw [hc.eq]; simp [htr], hm⟩
      · exact .inl ⟨t, r5 t ht htS, hm⟩
    · exact .inr fun v hv => hno v (r2 k v hv)

/-- The facts that hold in clean histories. -/
def cleanLaws (c : Cfg K V) (p : Params) : Laws (kind c p) true where
  good := NewestIsValue
  inv ts := Clean ts
  inv_empty := ⟨by simp, by simp [Ver], .inl rfl⟩
  tabs_empty := rfl
  inv_ok h := h.ok
  inv_push := fun h1 h2 h3 h4 => clean_push h1 h2 h3 h4
  tabs_push m t := List.perm_append_comm
  compact_new := fun h hp hc => (laws c p).compact_new h.ok hp hc
  replace := by
    intro S j f C new cur W hi hp hc he hcur hnd hnew hs
    obtain ⟨C', new', h1, old, rest, h2⟩ := compact_spec (c := c) (f := f) hi.ok hp
    rw [show compact c j f = some (C, new) from hc] at h1
    simp only [Option.some.injEq, Prod.mk.injEq] at h1
    obtain ⟨rfl, rfl⟩ := h1
    obtain ⟨r1, r2, r3, r4, r5⟩ := replace_facts hi.ok he hcur.ok h2
    obtain ⟨q1, q2⟩ := clean_replace hi he hcur h2 hs
    exact ⟨q1, q2, r2, r3, replace_nodup (ext_sub he) (ext_nodup he hnd) hnd hnew h2⟩
  get_some := fun hi hg => (laws c p).get_some hi.ok hg
  get_none := fun hi hg => (laws c p).get_none hi.ok hg
  runs_sorted := fun hi => (laws c p).runs_sorted hi.ok
  runs_in := fun _ e => in_map_entries

theorem cleanLaws_total (c : Cfg K V) (p : Params) : (cleanLaws c p : Laws (kind c p) true).Total := by
  intro S j hi hp f
  obtain ⟨C, new, h, _⟩ := compact_spec (c := c) (f := f) hi.ok hp
  exact ⟨_, h⟩

end SizeTiered

end Verif.Lsm
