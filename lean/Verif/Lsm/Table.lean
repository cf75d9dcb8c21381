/-
Model of `src/lsm_tree/sstable.rs`: versions, key ranges, the table builder and tables, with the contents of a
table as a list of entries.  The byte layout of the files is modelled in `Lsm/Bytes.lean`.
-/
import Verif.Lib.SortedList

namespace Verif.Lsm

open Verif

/-- sstable.rs:39-43 `SSTableValue`: a value or a tombstone, with the logical time of the write. -/
structure Val (V : Type) where
  data : Option V
  time : Nat
  deriving DecidableEq, Repr

/-- An entry of a table (`Entry<T, SSTableValue<U>>`). -/
abbrev Ent (K V : Type) := K × Val V

/-- The serialized sizes of keys and values (`bincode::serialized_size`); arbitrary in all theorems. -/
structure Sizes (K V : Type) where
  key : K → Nat
  val : V → Nat

variable {K V : Type}

/-- The serialized size of an `SSTableValue`: the tag of the option, the value if any, and a `u64`. -/
def Sizes.value (z : Sizes K V) (v : Val V) : Nat :=
  match v.data with
  | none => 9
  | some x => 9 + z.val x

/-- The serialized size of an entry. -/
def Sizes.entry (z : Sizes K V) (e : Ent K V) : Nat := z.key e.1 + z.value e.2

/-- sstable.rs:20-28 `merge_ranges`. -/
def mergeRanges [LinearOrder K] (r₁ r₂ : K × K) : K × K := (min r₁.1 r₂.1, max r₁.2 r₂.2)

/-- sstable.rs:30-37 `is_intersecting`. -/
def isIntersecting [LinearOrder K] (r₁ r₂ : K × K) : Bool := decide (max r₁.1 r₂.1 ≤ min r₁.2 r₂.2)

/-- sstable.rs:65-73, 235-240: an `SSTable` with its summary (`entry_count`, `tombstone_count`, `size`,
`key_range`, `logical_time_range`); `id` stands for its path and `entries` for the contents of `data.dat`. -/
structure Table (K V : Type) where
  id : Nat
  entryCount : Nat
  tombCount : Nat
  size : Nat
  range : K × K
  times : Nat × Nat
  entries : List (Ent K V)
  deriving DecidableEq

/-- sstable.rs:75-94 `SSTableBuilder`: the counters, and the entries appended so far.  `blockBytes` is the
serialized size of the entries of `index_block`, `blockIndex` their number. -/
structure Builder (K V : Type) where
  entryCount : Nat
  tombCount : Nat
  size : Nat
  range : Option (K × K)
  times : Option (Nat × Nat)
  blockIndex : Nat
  blockSize : Nat
  blockBytes : Nat
  entries : List (Ent K V)

/-- sstable.rs:101-135 `new`; `blockSize` is the rounded-up square root of the hint (line 126). -/
def Builder.new (blockSize : Nat) : Builder K V := ⟨0, 0, 0, none, none, 0, blockSize, 0, []⟩

/-- sstable.rs:147-150: the key range after one more key. -/
def addKey (o : Option (K × K)) (k : K) : Option (K × K) :=
  match o with
  | some (start, _) => some (start, k)
  | none => some (k, k)

/-- sstable.rs:151-158: the logical time range after one more entry. -/
def addTime (o : Option (Nat × Nat)) (t : Nat) : Option (Nat × Nat) :=
  match o with
  | some (start, stop) => some (min start t, max stop t)
  | none => some (t, t)

/-- sstable.rs:137-186 `append`. -/
def Builder.append (z : Sizes K V) (b : Builder K V) (e : Ent K V) : Builder K V :=
  let b := { b with
    entryCount := b.entryCount + 1
    tombCount := if e.2.data.isNone then b.tombCount + 1 else b.tombCount
    range := addKey b.range e.1
    times := addTime b.times e.2.time
    size := b.size + (8 + z.entry e)
    blockIndex := b.blockIndex + 1
    blockBytes := b.blockBytes + (z.key e.1 + 8)
    entries := b.entries ++ [e] }
  if b.blockIndex = b.blockSize then
    { b with size := b.size + (8 + (8 + b.blockBytes)), blockIndex := 0, blockBytes := 0 }
  else b

/-- sstable.rs:188-232 `flush` and 243-260 `SSTable::new`: the table; `none` is the panic on an empty builder. -/
def Builder.flush (b : Builder K V) (id : Nat) : Option (Table K V) :=
  match b.range, b.times with
  | some r, some t => some ⟨id, b.entryCount, b.tombCount, b.size, r, t, b.entries⟩
  | _, _ => none

variable [LinearOrder K]

/-- sstable.rs:285-326 `get`.  The key range is tested first.  The filter and the two-level index are modelled in
`Lsm/Bytes.lean`, where the lookup through them is shown to be this lookup. -/
def Table.get (t : Table K V) (k : K) : Option (Val V) :=
  if k < t.range.1 ∨ t.range.2 < k then none else (SL.find k t.entries).map (·.2)

/-! ### What a table satisfies -/

/-- The summary of a table agrees with its (non-empty, ascending) entries. -/
structure Table.Ok (t : Table K V) : Prop where
  sorted : SL.Sorted t.entries
  first : (t.entries.head?).map (·.1) = some t.range.1
  last : (t.entries.getLast?).map (·.1) = some t.range.2
  count : t.entryCount = t.entries.length
  tombs : t.tombCount = t.entries.countP (fun e => e.2.data.isNone)
  timeLo : ∀ e ∈ t.entries, t.times.1 ≤ e.2.time
  timeHi : ∀ e ∈ t.entries, e.2.time ≤ t.times.2
  timeLoMem : ∃ e ∈ t.entries, e.2.time = t.times.1
  timeHiMem : ∃ e ∈ t.entries, e.2.time = t.times.2

theorem Table.Ok.ne_nil {t : Table K V} (h : t.Ok) : t.entries ≠ [] := by
  intro e; have := h.first; simp [e] at this

theorem Table.Ok.lo_le {t : Table K V} (h : t.Ok) {e : Ent K V} (he : e ∈ t.entries) : t.range.1 ≤ e.1 := by
  have h1 := h.first
  cases hl : t.entries with
  | nil => rw [hl] at he; simp at he
  | cons a l =>
    rw [hl] at he h1
    have hs := h.sorted; rw [hl] at hs
    simp only [List.head?_cons, Option.map_some, Option.some.injEq] at h1
    rw [← h1]
    rcases List.mem_cons.1 he with rfl | hm
    · exact le_rfl
    · exact le_of_lt ((List.pairwise_cons.1 hs).1 _ hm)

theorem Table.Ok.le_hi {t : Table K V} (h : t.Ok) {e : Ent K V} (he : e ∈ t.entries) : e.1 ≤ t.range.2 := by
  have h1 := h.last
  rcases List.eq_nil_or_concat t.entries with hl | ⟨l, a, hl⟩
  · rw [hl] at he; simp at he
  · rw [List.concat_eq_append] at hl
    rw [hl] at he h1
    have hs := h.sorted; rw [hl] at hs
    simp only [List.getLast?_append, List.getLast?_singleton, Option.some_or, Option.map_some, Option.some.injEq] at h1
    rw [← h1]
    rcases List.mem_append.1 he with hm | hm
    · exact le_of_lt ((SL.sorted_append.1 hs).2.2 _ hm a (by simp))
    · simp at hm; rw [hm]

theorem Table.Ok.hi_mem {t : Table K V} (h : t.Ok) : ∃ e ∈ t.entries, e.1 = t.range.2 := by
  have := h.last
  simp only [Option.map_eq_some_iff] at this
  obtain ⟨e, he, h1⟩ := this
  exact ⟨e, List.mem_of_getLast? he, h1⟩

theorem Table.Ok.lo_mem {t : Table K V} (h : t.Ok) : ∃ e ∈ t.entries, e.1 = t.range.1 := by
  have := h.first
  simp only [Option.map_eq_some_iff] at this
  obtain ⟨e, he, h1⟩ := this
  exact ⟨e, List.mem_of_head? he, h1⟩

theorem Table.Ok.range_le {t : Table K V} (h : t.Ok) : t.range.1 ≤ t.range.2 := by
  obtain ⟨e, he, h1⟩ := h.lo_mem
  rw [← h1]; exact h.le_hi he

theorem Table.Ok.get_eq {t : Table K V} (h : t.Ok) (k : K) : t.get k = (SL.find k t.entries).map (·.2) := by
  unfold Table.get
  split
  · rename_i hk
    have : SL.find k t.entries = none := by
      rw [SL.find_eq_none]
      rintro e he rfl
      rcases hk with hk | hk
      · exact absurd (h.lo_le he) (not_le.2 hk)
      · exact absurd (h.le_hi he) (not_le.2 hk)
    rw [this]; rfl
  · rfl

theorem Table.Ok.get_some {t : Table K V} (h : t.Ok) {k : K} {v : Val V} :
    t.get k = some v ↔ (k, v) ∈ t.entries := by
  rw [h.get_eq]
  constructor
  · intro h1
    simp only [Option.map_eq_some_iff] at h1
    obtain ⟨e, he, rfl⟩ := h1
    have := SL.find_some_key he
    rw [← this]; exact SL.find_some_mem he
  · intro h1
    rw [SL.find_of_mem h.sorted h1]; rfl

theorem Table.Ok.get_none {t : Table K V} (h : t.Ok) {k : K} :
    t.get k = none ↔ ∀ v, (k, v) ∉ t.entries := by
  constructor
  · intro h1 v hv
    rw [(h.get_some).2 hv] at h1; simp at h1
  · intro h1
    cases hg : t.get k with
    | none => rfl
    | some v => exact absurd ((h.get_some).1 hg) (h1 v)

/-! ### Building a table -/

/-- What the counters of a builder say about its entries. -/
structure Builder.Ok (b : Builder K V) : Prop where
  count : b.entryCount = b.entries.length
  tombs : b.tombCount = b.entries.countP (fun e => e.2.data.isNone)
  first : b.range.map (·.1) = b.entries.head?.map (·.1)
  last : b.range.map (·.2) = b.entries.getLast?.map (·.1)
  times : match b.times with
    | none => b.entries = []
    | some (lo, hi) => (∀ e ∈ b.entries, lo ≤ e.2.time ∧ e.2.time ≤ hi) ∧ (∃ e ∈ b.entries, e.2.time = lo) ∧
        ∃ e ∈ b.entries, e.2.time = hi

omit [LinearOrder K] in
theorem Builder.ok_new (n : Nat) : (Builder.new n : Builder K V).Ok := ⟨rfl, rfl, rfl, rfl, rfl⟩

omit [LinearOrder K] in
theorem Builder.append_entries (z : Sizes K V) (b : Builder K V) (e : Ent K V) :
    (b.append z e).entries = b.entries ++ [e] := by
  simp only [Builder.append]; split <;> rfl

omit [LinearOrder K] in
theorem Builder.append_size_pos (z : Sizes K V) (b : Builder K V) (e : Ent K V) : 0 < (b.append z e).size := by
  simp only [Builder.append]; split <;> simp only <;> omega

omit [LinearOrder K] in
theorem Builder.append_range (z : Sizes K V) (b : Builder K V) (e : Ent K V) :
    (b.append z e).range = addKey b.range e.1 := by
  simp only [Builder.append]; split <;> rfl

omit [LinearOrder K] in
theorem Builder.append_times (z : Sizes K V) (b : Builder K V) (e : Ent K V) :
    (b.append z e).times = addTime b.times e.2.time := by
  simp only [Builder.append]; split <;> rfl

omit [LinearOrder K] in
theorem Builder.ok_append {z : Sizes K V} {b : Builder K V} (h : b.Ok) (e : Ent K V) : (b.append z e).Ok := by
  refine ⟨?_, ?_, ?_, ?_, ?_⟩
  · rw [Builder.append_entries, List.length_append, ← h.count]
    simp only [Builder.append]; split <;> rfl
  · rw [Builder.append_entries, List.countP_append, ← h.tombs]
    have : (b.append z e).tombCount = if e.2.data.isNone then b.tombCount + 1 else b.tombCount := by
      simp only [Builder.append]; split <;> rfl
    rw [this]
    cases hd : e.2.data <;> simp [hd]
  · rw [Builder.append_entries, Builder.append_range]
    have h1 := h.first
    cases hr : b.range <;> cases hl : b.entries <;> rw [hr, hl] at h1 <;> simp [addKey] at h1 ⊢
    exact h1
  · rw [Builder.append_entries, Builder.append_range]
    cases hr : b.range <;> simp [addKey]
  · rw [Builder.append_entries, Builder.append_times]
    have ht := h.times
    cases hb : b.times with
    | none => rw [hb] at ht; simp only at ht; rw [ht]; simp [addTime]
    | some p =>
      obtain ⟨lo, hi⟩ := p
      rw [hb] at ht
      simp only at ht
      obtain ⟨h1, h2, h3⟩ := ht
      simp only [addTime, List.mem_append, List.mem_singleton]
      refine ⟨?_, ?_, ?_⟩
      · rintro x (hx | rfl)
        · have := h1 x hx; omega
        · omega
      · by_cases hc : lo ≤ e.2.time
        · obtain ⟨x, hx, hxe⟩ := h2
          exact ⟨x, .inl hx, by omega⟩
        · exact ⟨e, .inr rfl, by omega⟩
      · by_cases hc : e.2.time ≤ hi
        · obtain ⟨x, hx, hxe⟩ := h3
          exact ⟨x, .inl hx, by omega⟩
        · exact ⟨e, .inr rfl, by omega⟩

/-- The builder after appending a list of entries. -/
def Builder.appendAll (z : Sizes K V) (b : Builder K V) (l : List (Ent K V)) : Builder K V :=
  l.foldl (Builder.append z) b

omit [LinearOrder K] in
theorem Builder.appendAll_entries (z : Sizes K V) (l : List (Ent K V)) :
    ∀ b : Builder K V, (b.appendAll z l).entries = b.entries ++ l := by
  induction l with
  | nil => intro b; simp [Builder.appendAll]
  | cons e l ih =>
    intro b
    have := ih (b.append z e)
    simp only [Builder.appendAll, List.foldl_cons] at this ⊢
    rw [this, Builder.append_entries, List.append_assoc]; rfl

omit [LinearOrder K] in
theorem Builder.ok_appendAll {z : Sizes K V} (l : List (Ent K V)) :
    ∀ {b : Builder K V}, b.Ok → (b.appendAll z l).Ok := by
  induction l with
  | nil => intro b h; exact h
  | cons e l ih => intro b h; exact ih (Builder.ok_append h e)

omit [LinearOrder K] in
/-- The table that `flush` builds from a non-empty builder. -/
theorem Builder.flush_some {b : Builder K V} (h : b.Ok) (hn : b.entries ≠ []) (id : Nat) :
    ∃ t, b.flush id = some t ∧ t.entries = b.entries ∧ t.id = id := by
  have h1 := h.first
  have h2 := h.times
  cases ht : b.times with
  | none => rw [ht] at h2; exact absurd h2 hn
  | some p =>
    unfold Builder.flush
    cases hr : b.range with
    | none => rw [hr] at h1; cases hl : b.entries <;> simp [hl] at h1 hn
    | some r => rw [ht]; exact ⟨_, rfl, rfl, rfl⟩

theorem Builder.flush_ok {b : Builder K V} (h : b.Ok) (hs : SL.Sorted b.entries) {id : Nat} {t : Table K V}
    (ht : b.flush id = some t) : t.Ok ∧ t.entries = b.entries ∧ t.id = id := by
  unfold Builder.flush at ht
  cases hr : b.range with
  | none => rw [hr] at ht; simp at ht
  | some r =>
    cases hm : b.times with
    | none => rw [hr, hm] at ht; simp at ht
    | some p =>
      rw [hr, hm] at ht
      simp only [Option.some.injEq] at ht
      subst ht
      have h1 := h.first
      have h3 := h.last
      have h2 := h.times
      rw [hr] at h1 h3
      rw [hm] at h2
      obtain ⟨lo, hi⟩ := p
      simp only at h2
      exact ⟨⟨hs, h1.symm, h3.symm, h.count, h.tombs, fun e he => (h2.1 e he).1, fun e he => (h2.1 e he).2, h2.2.1,
        h2.2.2⟩, rfl, rfl⟩

/-- Building a table from entries (map.rs:92-99: the entries of the in-memory tree). -/
def build (z : Sizes K V) (blockSize : Nat) (l : List (Ent K V)) (id : Nat) : Option (Table K V) :=
  ((Builder.new blockSize).appendAll z l).flush id

theorem build_ok {z : Sizes K V} {n : Nat} {l : List (Ent K V)} (hs : SL.Sorted l) (hn : l ≠ []) (id : Nat) :
    ∃ t, build z n l id = some t ∧ t.Ok ∧ t.entries = l ∧ t.id = id := by
  have ho : ((Builder.new n : Builder K V).appendAll z l).Ok := Builder.ok_appendAll l (Builder.ok_new n)
  have he : ((Builder.new n : Builder K V).appendAll z l).entries = l := by
    rw [Builder.appendAll_entries]; rfl
  obtain ⟨t, h1, h2, h3⟩ := Builder.flush_some ho (by rw [he]; exact hn) id
  obtain ⟨h4, h5, h6⟩ := Builder.flush_ok ho (by rw [he]; exact hs) h1
  exact ⟨t, h1, h4, h5.trans he, h6⟩

end Verif.Lsm
