/-
Property C42: the files of an SSTable.

Model of `src/lsm_tree/sstable.rs` at the level of bytes: `data.dat`, `index.dat`, `summary.dat` and `filter.dat`, the
binary search in the summary, and the reads with their offsets.  The encoding is that of `Bp/Bytes.lean`.  The filter
(crate `probabilistic_collections`) is any data structure without false negatives; `binary_search_by_key` is any
function with the contract of the standard library.
-/
import Verif.Bp.Bytes
import Verif.Lsm.Table

namespace Verif.Lsm.File

open Verif Verif.Bp

variable {K V : Type}

/-! ### The model -/

/-- `BloomFilter<T>`: `new`, `insert`, `contains`, and its serialization. -/
structure Filter (K : Type) where
  T : Type
  new : Nat → T
  insert : T → K → T
  has : T → K → Bool
  codec : Codec T
  /-- no false negatives -/
  has_insert : ∀ f k, has (insert f k) k = true
  has_mono : ∀ f k k', has f k = true → has (insert f k') k = true
  /-- a filter can be read back -/
  reads : ∀ f, codec.Reads f

/-- `SSTableValue<U>` (sstable.rs:39-43). -/
def valCodec (cv : Codec V) : Codec (Val V) where
  enc v := (opt cv).enc v.data ++ u64.enc v.time
  dec bs := ((opt cv).dec bs).bind fun (d, r) => (u64.dec r).map fun (t, r) => (⟨d, t⟩, r)

/-- `Entry<T, SSTableValue<U>>`, and the pair that `append` writes (sstable.rs:163): the same bytes. -/
abbrev entCodec (ck : Codec K) (cv : Codec V) : Codec (Ent K V) := both ck (valCodec cv)

/-- `Vec<(T, u64)>`. -/
abbrev idxCodec (ck : Codec K) : Codec (List (K × Nat)) := boxed (both ck u64)

/-- sstable.rs:65-73 `SSTableSummary`. -/
structure Summary (K : Type) where
  entryCount : Nat
  tombCount : Nat
  size : Nat
  range : K × K
  times : Nat × Nat
  index : List (K × Nat)

/-- The derived `Serialize` of the summary. -/
def sumCodec (ck : Codec K) : Codec (Summary K) where
  enc s := u64.enc s.entryCount ++ (u64.enc s.tombCount ++ (u64.enc s.size ++ ((both ck ck).enc s.range ++
    ((both u64 u64).enc s.times ++ (idxCodec ck).enc s.index))))
  dec bs := (u64.dec bs).bind fun (a, r) => (u64.dec r).bind fun (b, r) => (u64.dec r).bind fun (c, r) =>
    ((both ck ck).dec r).bind fun (d, r) => ((both u64 u64).dec r).bind fun (e, r) =>
    ((idxCodec ck).dec r).map fun (f, r) => (⟨a, b, c, d, e, f⟩, r)

/-- `WriteBytesExt::write_u64::<BigEndian>`. -/
def be64 (n : Nat) : List UInt8 := (encInt' 8 n).reverse

/-- A length and that many bytes (sstable.rs:164-166, 176-178, 198-200). -/
def record (bs : List UInt8) : List UInt8 := be64 bs.length ++ bs

/-- sstable.rs:75-94 `SSTableBuilder`; the files are the bytes written to the streams so far. -/
structure Builder (F : Filter K) where
  entryCount : Nat
  tombCount : Nat
  size : Nat
  range : Option (K × K)
  times : Option (Nat × Nat)
  index : List (K × Nat)
  blockIndex : Nat
  blockSize : Nat
  block : List (K × Nat)
  filter : F.T
  indexOff : Nat
  indexFile : List UInt8
  dataOff : Nat
  dataFile : List UInt8

/-- sstable.rs:101-135 `new`; `blockSize` is the rounded-up square root of the hint (line 126). -/
def Builder.new (F : Filter K) (blockSize hint : Nat) : Builder F :=
  ⟨0, 0, 0, none, none, [], 0, blockSize, [], F.new hint, 0, [], 0, []⟩

/-- sstable.rs:171-183: write the index block. -/
def Builder.writeBlock (ck : Codec K) {F : Filter K} (b : Builder F) : Option (Builder F) :=
  match b.block with
  | [] => none
  | (k, _) :: _ =>
    let bytes := (idxCodec ck).enc b.block
    some { b with
      index := b.index ++ [(k, b.indexOff)]
      indexFile := b.indexFile ++ record bytes
      indexOff := b.indexOff + (8 + bytes.length)
      size := b.size + (8 + bytes.length)
      blockIndex := 0
      block := [] }

/-- sstable.rs:142-169: the first part of `append`. -/
def Builder.note (ck : Codec K) (cv : Codec V) {F : Filter K} (b : Builder F) (e : Ent K V) : Builder F :=
  let bytes := (entCodec ck cv).enc e
  { b with
    entryCount := b.entryCount + 1
    tombCount := if e.2.data.isNone then b.tombCount + 1 else b.tombCount
    range := addKey b.range e.1
    times := addTime b.times e.2.time
    filter := F.insert b.filter e.1
    block := b.block ++ [(e.1, b.dataOff)]
    dataFile := b.dataFile ++ record bytes
    dataOff := b.dataOff + (8 + bytes.length)
    size := b.size + (8 + bytes.length)
    blockIndex := b.blockIndex + 1 }

/-- sstable.rs:137-186 `append`; `none` is the panic of `index_block[0]`. -/
def Builder.append (ck : Codec K) (cv : Codec V) {F : Filter K} (b : Builder F) (e : Ent K V) : Option (Builder F) :=
  let b := b.note ck cv e
  if b.blockIndex = b.blockSize then b.writeBlock ck else some b

/-- The files of a table directory. -/
structure Files where
  data : List UInt8
  index : List UInt8
  summary : List UInt8
  filter : List UInt8

/-- sstable.rs:193-201: the last index block; unlike in `append` its bytes are not counted in `size`. -/
def Builder.lastBlock (ck : Codec K) {F : Filter K} (b : Builder F) : List (K × Nat) × List UInt8 :=
  match b.block with
  | [] => (b.index, b.indexFile)
  | (k, _) :: _ => (b.index ++ [(k, b.indexOff)], b.indexFile ++ record ((idxCodec ck).enc b.block))

/-- sstable.rs:188-232 `flush`; `none` is the panic on an empty builder. -/
def Builder.flush (ck : Codec K) {F : Filter K} (b : Builder F) : Option Files :=
  let (index, indexFile) := b.lastBlock ck
  match b.range, b.times with
  | some r, some t => some ⟨b.dataFile, indexFile, (sumCodec ck).enc ⟨b.entryCount, b.tombCount, b.size, r, t, index⟩,
      F.codec.enc b.filter⟩
  | _, _ => none

/-- A builder appended to, entry by entry. -/
def Builder.appendAll (ck : Codec K) (cv : Codec V) {F : Filter K} : List (Ent K V) → Builder F → Option (Builder F)
  | [], b => some b
  | e :: es, b => (b.append ck cv e).bind (appendAll ck cv es)

/-- The files written for a list of entries. -/
def write (ck : Codec K) (cv : Codec V) (F : Filter K) (blockSize hint : Nat) (l : List (Ent K V)) : Option Files :=
  ((Builder.new F blockSize hint).appendAll ck cv l).bind (·.flush ck)

/-- sstable.rs:235-240 `SSTable`, with the files it refers to. -/
structure Handle (F : Filter K) where
  files : Files
  summary : Summary K
  filter : F.T

/-- sstable.rs:243-260 `SSTable::new`; `none` is a failed read. -/
def Handle.open (ck : Codec K) (F : Filter K) (f : Files) : Option (Handle F) :=
  match (sumCodec ck).dec f.summary, F.codec.dec f.filter with
  | some (s, _), some (b, _) => some ⟨f, s, b⟩
  | _, _ => none

/-- sstable.rs:267-275: the binary search, with a bound on its rounds; `none` is an index out of bounds, or no
end within the bound. -/
def floorLoop [LinearOrder K] (index : List (K × Nat)) (k : K) : Nat → Int → Int → Option Int
  | 0, lo, hi => if lo ≤ hi then none else some hi
  | n + 1, lo, hi =>
    if lo ≤ hi then
      let mid := (lo + hi) / 2
      if mid < 0 then none
      else match index[mid.toNat]? with
        | none => none
        | some e => if e.1 ≤ k then floorLoop index k n (mid + 1) hi else floorLoop index k n lo (mid - 1)
    else some hi

/-- sstable.rs:262-283 `floor_offset`; the outer `none` is a panic. -/
def floorOffset [LinearOrder K] (index : List (K × Nat)) (k : K) : Option (Option Nat) :=
  match floorLoop index k (index.length + 1) 0 ((index.length : Int) - 1) with
  | none => none
  | some hi => if hi = -1 then some none else some (some hi.toNat)

/-- `ReadBytesExt::read_u64::<BigEndian>`, then `read_exact` of that many bytes (sstable.rs:303-306, 317-320,
355-372): the bytes and what follows; `none` is an unexpected end of the file. -/
def readRecord (bs : List UInt8) : Option (List UInt8 × List UInt8) :=
  if bs.length < 8 then none
  else match decInt 8 (bs.take 8).reverse with
    | none => none
    | some (n, _) =>
      let bs := bs.drop 8
      if bs.length < n then none else some (bs.take n, bs.drop n)

/-- `binary_search_by_key`: what the standard library promises for slices sorted by the key. -/
structure Search (K : Type) [LinearOrder K] where
  run : List (K × Nat) → K → Option Nat
  found : ∀ {l k i}, SL.Sorted l → run l k = some i → ∃ e, l[i]? = some e ∧ e.1 = k
  missing : ∀ {l k}, SL.Sorted l → run l k = none → ∀ e ∈ l, e.1 ≠ k

/-- sstable.rs:285-326 `get`; the outer `none` is an error or a panic. -/
def Handle.get [LinearOrder K] (ck : Codec K) (cv : Codec V) {F : Filter K} (search : Search K) (t : Handle F) (k : K) :
    Option (Option (Val V)) :=
  if k < t.summary.range.1 ∨ t.summary.range.2 < k then some none
  else if ! F.has t.filter k then some none
  else match floorOffset t.summary.index k with
    | none => none
    | some none => some none
    | some (some i) =>
      match t.summary.index[i]? with
      | none => none
      | some (_, off) =>
        match readRecord (t.files.index.drop off) with
        | none => none
        | some (bytes, _) =>
          match (idxCodec ck).dec bytes with
          | none => none
          | some (block, _) =>
            match search.run block k with
            | none => some none
            | some j =>
              match block[j]? with
              | none => none
              | some (_, off) =>
                match readRecord (t.files.data.drop off) with
                | none => none
                | some (bytes, _) =>
                  match (entCodec ck cv).dec bytes with
                  | none => none
                  | some (e, _) => some (some e.2)

/-- sstable.rs:341-375 `SSTableDataIter::next`, called until it returns `None`, with a bound on the calls; `none` is an
error or no end within the bound.  The end of the file is where less than 8 bytes are left (lines 355-361). -/
def scanFrom (ck : Codec K) (cv : Codec V) : Nat → List UInt8 → Option (List (Ent K V))
  | 0, bs => if bs.length < 8 then some [] else none
  | n + 1, bs =>
    if bs.length < 8 then some []
    else match readRecord bs with
      | none => none
      | some (bytes, rest) =>
        match (entCodec ck cv).dec bytes with
        | none => none
        | some (e, _) => (scanFrom ck cv n rest).map (e :: ·)

/-- sstable.rs:328-334 `data_iter`, to its end. -/
def Handle.scan (ck : Codec K) (cv : Codec V) {F : Filter K} (t : Handle F) : Option (List (Ent K V)) :=
  scanFrom ck cv t.files.data.length t.files.data

/-! ### Reading what was written -/

theorem length_be64 (n : Nat) : (be64 n).length = 8 := by simp [be64, length_encInt]

theorem length_record (bs : List UInt8) : (record bs).length = 8 + bs.length := by simp [record, length_be64]

theorem readRecord_record {bs rest : List UInt8} (h : bs.length < 2 ^ 64) :
    readRecord (record bs ++ rest) = some (bs, rest) := by
  have h8 : ((be64 bs.length ++ (bs ++ rest)).take 8) = be64 bs.length := by
    rw [List.take_append_of_le_length (by rw [length_be64])]
    exact List.take_of_length_le (by rw [length_be64])
  have hd : ((be64 bs.length ++ (bs ++ rest)).drop 8) = bs ++ rest := by
    conv_lhs => rw [← length_be64 bs.length]
    exact List.drop_left
  have hdec : decInt 8 (encInt' 8 bs.length) = some (bs.length, []) := by
    have := decInt_encInt 8 bs.length (by simpa using h) []
    simpa using this
  unfold readRecord record
  rw [List.append_assoc, h8, hd]
  simp only [be64, List.reverse_reverse, hdec]
  have : ¬ ((encInt' 8 bs.length).reverse ++ (bs ++ rest)).length < 8 := by
    simp [length_encInt]
  simp [length_encInt]

theorem reads_val {cv : Codec V} {v : Val V} (ht : v.time < 2 ^ 64) (hd : ∀ y, v.data = some y → cv.Reads y) :
    (valCodec cv).Reads v := fun rest => by
  have h : (opt cv).Reads v.data := by
    cases hv : v.data with
    | none => exact reads_none cv
    | some y => exact reads_some (hd y hv)
  show ((opt cv).dec (((opt cv).enc v.data ++ u64.enc v.time) ++ rest)).bind _ = _
  rw [List.append_assoc, h]
  simp only [Option.bind_some]
  rw [reads_u64 ht]
  rfl

/-- What is assumed of keys, values and times: they can be read back. -/
def Readable (ck : Codec K) (cv : Codec V) (e : Ent K V) : Prop :=
  ck.Reads e.1 ∧ e.2.time < 2 ^ 64 ∧ ∀ y, e.2.data = some y → cv.Reads y

theorem reads_ent {ck : Codec K} {cv : Codec V} {e : Ent K V} (h : Readable ck cv e) : (entCodec ck cv).Reads e :=
  reads_both h.1 (reads_val h.2.1 h.2.2)

theorem reads_summary {ck : Codec K} {s : Summary K} (h1 : s.entryCount < 2 ^ 64) (h2 : s.tombCount < 2 ^ 64)
    (h3 : s.size < 2 ^ 64) (h4 : ck.Reads s.range.1) (h5 : ck.Reads s.range.2) (h6 : s.times.1 < 2 ^ 64)
    (h7 : s.times.2 < 2 ^ 64) (h8 : s.index.length < 2 ^ 64) (h9 : ∀ e ∈ s.index, ck.Reads e.1 ∧ e.2 < 2 ^ 64) :
    (sumCodec ck).Reads s := fun rest => by
  have r1 := reads_u64 h1
  have r2 := reads_u64 h2
  have r3 := reads_u64 h3
  have r4 : (both ck ck).Reads s.range := reads_both h4 h5
  have r5 : (both u64 u64).Reads s.times := reads_both (reads_u64 h6) (reads_u64 h7)
  have r6 : (idxCodec ck).Reads s.index := reads_boxed h8 fun e he => reads_both (h9 e he).1 (reads_u64 (h9 e he).2)
  simp only [sumCodec, List.append_assoc]
  rw [r1]; simp only [Option.bind_some]
  rw [r2]; simp only [Option.bind_some]
  rw [r3]; simp only [Option.bind_some]
  rw [r4]; simp only [Option.bind_some]
  rw [r5]; simp only [Option.bind_some]
  rw [r6]; rfl

/-! ### Offsets -/

/-- The bytes of an entry in `data.dat`. -/
abbrev dataRec (ck : Codec K) (cv : Codec V) (e : Ent K V) : List UInt8 := record ((entCodec ck cv).enc e)

/-- The bytes of an index block in `index.dat`. -/
abbrev idxRec (ck : Codec K) (b : List (K × Nat)) : List UInt8 := record ((idxCodec ck).enc b)

/-- The keys with the offsets of their entries. -/
def keyed (ck : Codec K) (cv : Codec V) : Nat → List (Ent K V) → List (K × Nat)
  | _, [] => []
  | off, e :: es => (e.1, off) :: keyed ck cv (off + (dataRec ck cv e).length) es

/-- The first keys of index blocks with the offsets of the blocks. -/
def toc (ck : Codec K) : Nat → List (List (K × Nat)) → List (K × Nat)
  | _, [] => []
  | off, [] :: bs => toc ck (off + (idxRec ck []).length) bs
  | off, (x :: b) :: bs => (x.1, off) :: toc ck (off + (idxRec ck (x :: b)).length) bs

theorem keyed_snoc (ck : Codec K) (cv : Codec V) (e : Ent K V) : ∀ (l : List (Ent K V)) (off : Nat),
    keyed ck cv off (l ++ [e]) = keyed ck cv off l ++ [(e.1, off + (l.flatMap (dataRec ck cv)).length)]
  | [], off => by simp [keyed]
  | x :: l, off => by
    simp only [List.cons_append, keyed, keyed_snoc ck cv e l, List.flatMap_cons, List.length_append]
    rw [Nat.add_assoc]

theorem toc_snoc (ck : Codec K) (x : K × Nat) (b : List (K × Nat)) : ∀ (bs : List (List (K × Nat))) (off : Nat),
    toc ck off (bs ++ [x :: b]) = toc ck off bs ++ [(x.1, off + (bs.flatMap (idxRec ck)).length)]
  | [], off => by simp [toc]
  | [] :: bs, off => by
    simp only [List.cons_append, toc, toc_snoc ck x b bs, List.flatMap_cons, List.length_append]
    rw [Nat.add_assoc]
  | (y :: c) :: bs, off => by
    simp only [List.cons_append, toc, toc_snoc ck x b bs, List.flatMap_cons, List.length_append]
    rw [Nat.add_assoc]

theorem keyed_mem {ck : Codec K} {cv : Codec V} {x : K × Nat} : ∀ {l : List (Ent K V)} {off : Nat},
    x ∈ keyed ck cv off l → ∃ A e B, l = A ++ e :: B ∧ e.1 = x.1 ∧ x.2 = off + (A.flatMap (dataRec ck cv)).length
  | [], off, h => by simp [keyed] at h
  | e :: l, off, h => by
    simp only [keyed, List.mem_cons] at h
    rcases h with rfl | h
    · exact ⟨[], e, l, rfl, rfl, by simp⟩
    · obtain ⟨A, e', B, h1, h2, h3⟩ := keyed_mem h
      refine ⟨e :: A, e', B, by rw [h1]; rfl, h2, ?_⟩
      rw [h3, List.flatMap_cons, List.length_append, Nat.add_assoc]

theorem keyed_keys (ck : Codec K) (cv : Codec V) : ∀ (l : List (Ent K V)) (off : Nat),
    (keyed ck cv off l).map (·.1) = l.map (·.1)
  | [], _ => rfl
  | e :: l, off => by simp [keyed, keyed_keys ck cv l]

theorem toc_get {ck : Codec K} {x : K × Nat} : ∀ {bs : List (List (K × Nat))} {off i : Nat}, (∀ b ∈ bs, b ≠ []) →
    (toc ck off bs)[i]? = some x → ∃ A y b B, bs = A ++ (y :: b) :: B ∧ A.length = i ∧ y.1 = x.1 ∧
      x.2 = off + (A.flatMap (idxRec ck)).length
  | [], off, i, _, h => by simp [toc] at h
  | [] :: bs, off, i, hn, h => absurd rfl (hn [] (by simp))
  | (y :: b) :: bs, off, 0, hn, h => by
    simp only [toc, List.getElem?_cons_zero, Option.some.injEq] at h
    subst h
    exact ⟨[], y, b, bs, rfl, rfl, rfl, by simp⟩
  | (y :: b) :: bs, off, i + 1, hn, h => by
    simp only [toc, List.getElem?_cons_succ] at h
    obtain ⟨A, z, c, B, h1, h2, h3, h4⟩ := toc_get (fun b hb => hn b (List.mem_cons_of_mem _ hb)) h
    refine ⟨(y :: b) :: A, z, c, B, by rw [h1]; rfl, by simp [h2], h3, ?_⟩
    rw [h4, List.flatMap_cons, List.length_append, Nat.add_assoc]

theorem toc_length {ck : Codec K} : ∀ {bs : List (List (K × Nat))} {off : Nat}, (∀ b ∈ bs, b ≠ []) →
    (toc ck off bs).length = bs.length
  | [], _, _ => rfl
  | [] :: bs, _, hn => absurd rfl (hn [] (by simp))
  | (y :: b) :: bs, off, hn => by
    simp [toc, toc_length fun b hb => hn b (List.mem_cons_of_mem _ hb)]

/-! ### What the builder has written -/

/-- After appending `l`: the files and the counters. -/
structure Builder.Wrote (ck : Codec K) (cv : Codec V) {F : Filter K} (b : Builder F) (l : List (Ent K V))
    (bs : List (List (K × Nat))) : Prop where
  data : b.dataFile = l.flatMap (dataRec ck cv)
  dataOff : b.dataOff = b.dataFile.length
  index : b.indexFile = bs.flatMap (idxRec ck)
  indexOff : b.indexOff = b.indexFile.length
  toc : b.index = toc ck 0 bs
  ne : ∀ x ∈ bs, x ≠ []
  all : bs.flatten ++ b.block = keyed ck cv 0 l
  filter : ∀ e ∈ l, F.has b.filter e.1 = true
  size : b.size = b.dataFile.length + b.indexFile.length
  count : b.entryCount = l.length
  tombs : b.tombCount = l.countP (fun e => e.2.data.isNone)
  first : b.range.map (·.1) = l.head?.map (·.1)
  last : b.range.map (·.2) = l.getLast?.map (·.1)
  times : match b.times with
    | none => l = []
    | some (lo, hi) => (∀ e ∈ l, lo ≤ e.2.time ∧ e.2.time ≤ hi) ∧ (∃ e ∈ l, e.2.time = lo) ∧ ∃ e ∈ l, e.2.time = hi

theorem wrote_new (ck : Codec K) (cv : Codec V) (F : Filter K) (blockSize hint : Nat) :
    (Builder.new F blockSize hint).Wrote ck cv [] [] :=
  ⟨rfl, rfl, rfl, rfl, rfl, by simp, rfl, by simp, rfl, rfl, rfl, rfl, rfl, rfl⟩

theorem wrote_block {ck : Codec K} {cv : Codec V} {F : Filter K} {b b' : Builder F} {l : List (Ent K V)}
    {bs : List (List (K × Nat))} (h : b.Wrote ck cv l bs) (hb : b.writeBlock ck = some b') :
    b'.Wrote ck cv l (bs ++ [b.block]) := by
  unfold Builder.writeBlock at hb
  cases hk : b.block with
  | nil => rw [hk] at hb; simp at hb
  | cons x c =>
    rw [hk] at hb
    simp only [Option.some.injEq] at hb
    subst hb
    have hidx : b.indexFile ++ record ((idxCodec ck).enc (x :: c)) = (bs ++ [x :: c]).flatMap (idxRec ck) := by
      rw [List.flatMap_append, h.index]; simp
    refine ⟨h.data, h.dataOff, hidx, ?_, ?_, ?_, ?_, h.filter, ?_, h.count, h.tombs, h.first, h.last, h.times⟩
    · simp only [List.length_append, length_record]; rw [h.indexOff]
    · simp only; rw [toc_snoc, h.toc, h.indexOff, h.index]; simp
    · intro y hy
      rcases List.mem_append.1 hy with hy | hy
      · exact h.ne y hy
      · simp at hy; rw [hy]; simp
    · rw [← h.all, hk]; simp
    · simp only [List.length_append, length_record]; rw [h.size]; omega

theorem wrote_append {ck : Codec K} {cv : Codec V} {F : Filter K} {b : Builder F} {l : List (Ent K V)}
    {bs : List (List (K × Nat))} (h : b.Wrote ck cv l bs) (e : Ent K V) :
    ∃ b' bs', b.append ck cv e = some b' ∧ b'.Wrote ck cv (l ++ [e]) bs' := by
  unfold Builder.append
  simp only
  generalize hb1 : b.note ck cv e = b1
  have h1 : b1.Wrote ck cv (l ++ [e]) bs := by
    subst hb1
    unfold Builder.note
    refine ⟨?_, ?_, h.index, h.indexOff, h.toc, h.ne, ?_, ?_, ?_, ?_, ?_, ?_, ?_, ?_⟩
    · simp only; rw [List.flatMap_append, h.data]; simp
    · simp only [List.length_append, length_record]; rw [h.dataOff]
    · simp only; rw [keyed_snoc, ← h.all, h.dataOff, h.data]; simp
    · intro x hx
      rcases List.mem_append.1 hx with hx | hx
      · exact F.has_mono _ _ _ (h.filter x hx)
      · simp at hx; rw [hx]; exact F.has_insert _ _
    · simp only [List.length_append, length_record]; rw [h.size]; omega
    · simp only [List.length_append, List.length_singleton]; rw [h.count]
    · simp only; rw [List.countP_append, ← h.tombs]
      cases hd : e.2.data <;> simp [hd]
    · have := h.first
      cases hr : b.range <;> cases hl : l <;> rw [hr, hl] at this <;> simp [addKey] at this ⊢
      exact this
    · cases hr : b.range <;> simp [addKey]
    · have ht := h.times
      cases hb : b.times with
      | none => rw [hb] at ht; simp only at ht; rw [ht]; simp [addTime]
      | some p =>
        obtain ⟨lo, hi⟩ := p
        rw [hb] at ht
        simp only at ht
        obtain ⟨k1, k2, k3⟩ := ht
        simp only [addTime, List.mem_append, List.mem_singleton]
        refine ⟨?_, ?_, ?_⟩
        · rintro x (hx | rfl)
          · have := k1 x hx; omega
          · omega
        · by_cases hc : lo ≤ e.2.time
          · obtain ⟨x, hx, hxe⟩ := k2
            exact ⟨x, .inl hx, by omega⟩
          · exact ⟨e, .inr rfl, by omega⟩
        · by_cases hc : e.2.time ≤ hi
          · obtain ⟨x, hx, hxe⟩ := k3
            exact ⟨x, .inl hx, by omega⟩
          · exact ⟨e, .inr rfl, by omega⟩
  split
  · cases hw : b1.writeBlock ck with
    | none =>
      have : b1.block = b.block ++ [(e.1, b.dataOff)] := by subst hb1; rfl
      unfold Builder.writeBlock at hw
      rw [this] at hw
      cases hbb : b.block <;> simp [hbb] at hw
    | some b' => exact ⟨b', _, rfl, wrote_block h1 hw⟩
  · exact ⟨b1, bs, rfl, h1⟩

theorem wrote_appendAll {ck : Codec K} {cv : Codec V} {F : Filter K} : ∀ (l' : List (Ent K V)) {b : Builder F}
    {l : List (Ent K V)} {bs : List (List (K × Nat))}, b.Wrote ck cv l bs →
    ∃ b' bs', b.appendAll ck cv l' = some b' ∧ b'.Wrote ck cv (l ++ l') bs'
  | [], b, l, bs, h => ⟨b, bs, rfl, by simpa using h⟩
  | e :: l', b, l, bs, h => by
    obtain ⟨b1, bs1, e1, h1⟩ := wrote_append h e
    obtain ⟨b2, bs2, e2, h2⟩ := wrote_appendAll l' h1
    refine ⟨b2, bs2, ?_, by rw [List.append_assoc] at h2; exact h2⟩
    simp [Builder.appendAll, e1, e2]

/-- The files of a table with the entries `l`. -/
structure Holds (ck : Codec K) (cv : Codec V) (F : Filter K) (l : List (Ent K V)) (f : Files) (s : Summary K)
    (bf : F.T) (bs : List (List (K × Nat))) : Prop where
  data : f.data = l.flatMap (dataRec ck cv)
  index : f.index = bs.flatMap (idxRec ck)
  summary : f.summary = (sumCodec ck).enc s
  filter : f.filter = F.codec.enc bf
  toc : s.index = toc ck 0 bs
  ne : ∀ x ∈ bs, x ≠ []
  all : bs.flatten = keyed ck cv 0 l
  has : ∀ e ∈ l, F.has bf e.1 = true
  count : s.entryCount = l.length
  tombs : s.tombCount = l.countP (fun e => e.2.data.isNone)
  first : l.head?.map (·.1) = some s.range.1
  last : l.getLast?.map (·.1) = some s.range.2
  timeIn : ∀ e ∈ l, s.times.1 ≤ e.2.time ∧ e.2.time ≤ s.times.2
  timeLo : ∃ e ∈ l, e.2.time = s.times.1
  timeHi : ∃ e ∈ l, e.2.time = s.times.2
  size : s.size ≤ f.data.length + f.index.length

/-- The summary that `flush` writes. -/
def Builder.Sums {F : Filter K} (b : Builder F) (s : Summary K) : Prop :=
  s.entryCount = b.entryCount ∧ s.tombCount = b.tombCount ∧ s.size = b.size ∧ some s.range = b.range ∧ some s.times = b.times

theorem write_holds (ck : Codec K) (cv : Codec V) (F : Filter K) (blockSize hint : Nat) {l : List (Ent K V)}
    (hl : l ≠ []) : ∃ f s bf bs b, write ck cv F blockSize hint l = some f ∧ Holds ck cv F l f s bf bs ∧
      (Builder.new F blockSize hint).appendAll ck cv l = some b ∧ b.Sums s := by
  obtain ⟨b, bs, e1, h⟩ := wrote_appendAll l (wrote_new ck cv F blockSize hint)
  rw [List.nil_append] at h
  unfold write
  simp only [e1, Option.bind_some]
  unfold Builder.flush
  have h1 := h.first
  have h2 := h.times
  cases ht : b.times with
  | none => rw [ht] at h2; exact absurd h2 hl
  | some t =>
    rw [ht] at h2
    obtain ⟨lo, hi⟩ := t
    simp only at h2
    cases hr : b.range with
    | none => rw [hr] at h1; cases hll : l <;> simp [hll] at h1 hl
    | some r =>
      have h3 := h.last
      rw [hr] at h1 h3
      simp only
      cases hb : b.block with
      | nil =>
        refine ⟨⟨b.dataFile, b.indexFile, _, _⟩, ⟨b.entryCount, b.tombCount, b.size, r, (lo, hi), b.index⟩, b.filter, bs, b, ?_,
          ⟨h.data, h.index, rfl, rfl, h.toc, h.ne, ?_, h.filter, h.count, h.tombs, h1.symm, h3.symm, h2.1, h2.2.1, h2.2.2,
            le_of_eq h.size⟩, rfl, rfl, rfl, rfl, hr.symm, ht.symm⟩
        · simp [Builder.lastBlock, hb]
        · rw [← h.all, hb]; simp
      | cons x c =>
        refine ⟨⟨b.dataFile, b.indexFile ++ record ((idxCodec ck).enc b.block), _, _⟩,
          ⟨b.entryCount, b.tombCount, b.size, r, (lo, hi), b.index ++ [(x.1, b.indexOff)]⟩, b.filter,
          bs ++ [x :: c], b, ?_, ⟨h.data, ?_, rfl, rfl, ?_, ?_, ?_, h.filter, h.count, h.tombs, h1.symm, h3.symm, h2.1,
            h2.2.1, h2.2.2, ?_⟩, rfl, rfl, rfl, rfl, hr.symm, ht.symm⟩
        · simp [Builder.lastBlock, hb]
        · simp only; rw [hb, List.flatMap_append, h.index]; simp
        · simp only; rw [toc_snoc, h.toc, h.indexOff, h.index]; simp
        · intro y hy
          rcases List.mem_append.1 hy with hy | hy
          · exact h.ne y hy
          · simp at hy; rw [hy]; simp
        · rw [← h.all, hb]; simp
        · simp only [List.length_append]; rw [h.size]; omega

/-! ### The binary search -/

section
variable [LinearOrder K]

theorem sorted_get {l : List (K × Nat)} (h : SL.Sorted l) {i j : Nat} {a b : K × Nat} (hi : l[i]? = some a)
    (hj : l[j]? = some b) (hij : i < j) : a.1 < b.1 := by
  obtain ⟨hi', rfl⟩ := List.getElem?_eq_some_iff.1 hi
  obtain ⟨hj', rfl⟩ := List.getElem?_eq_some_iff.1 hj
  exact List.pairwise_iff_getElem.1 h i j hi' hj' hij

theorem floorLoop_spec {l : List (K × Nat)} (hs : SL.Sorted l) (k : K) : ∀ (n : Nat) {lo hi : Int}, 0 ≤ lo →
    hi < l.length → lo ≤ hi + 1 → hi + 1 - lo ≤ n → (∀ (j : Nat) e, l[j]? = some e → (j : Int) < lo → e.1 ≤ k) →
    (∀ (j : Nat) e, l[j]? = some e → hi < (j : Int) → k < e.1) →
    ∃ r, floorLoop l k n lo hi = some r ∧ -1 ≤ r ∧ r < l.length ∧
      (∀ (j : Nat) e, l[j]? = some e → (j : Int) ≤ r → e.1 ≤ k) ∧
      ∀ (j : Nat) e, l[j]? = some e → r < (j : Int) → k < e.1
  | 0, lo, hi, h0, h1, h2, h3, h4, h5 => by
    have : ¬ lo ≤ hi := by omega
    refine ⟨hi, by simp [floorLoop, this], by omega, h1, fun j e hj hr => h4 j e hj (by omega), h5⟩
  | n + 1, lo, hi, h0, h1, h2, h3, h4, h5 => by
    unfold floorLoop
    by_cases hc : lo ≤ hi
    · simp only [if_pos hc]
      generalize hm : (lo + hi) / 2 = mid
      have hm1 : lo ≤ mid := by omega
      have hm2 : mid ≤ hi := by omega
      rw [if_neg (by omega)]
      have hlt : mid.toNat < l.length := by omega
      rw [List.getElem?_eq_getElem hlt]
      simp only
      have hg : l[mid.toNat]? = some l[mid.toNat] := List.getElem?_eq_getElem hlt
      split
      · rename_i hk
        refine floorLoop_spec hs k n (by omega) h1 (by omega) (by omega) (fun j e hj hr => ?_) h5
        rcases Nat.lt_or_ge j mid.toNat with hlt' | hge
        · exact le_of_lt ((sorted_get hs hj hg hlt').trans_le hk)
        · have : j = mid.toNat := by omega
          subst this
          rw [hg] at hj
          simp only [Option.some.injEq] at hj
          rw [← hj]; exact hk
      · rename_i hk
        refine floorLoop_spec hs k n h0 (by omega) (by omega) (by omega) h4 (fun j e hj hr => ?_)
        rcases Nat.lt_or_ge mid.toNat j with hlt' | hge
        · exact (not_le.1 hk).trans (sorted_get hs hg hj hlt')
        · have : j = mid.toNat := by omega
          subst this
          rw [hg] at hj
          simp only [Option.some.injEq] at hj
          rw [← hj]; exact not_le.1 hk
    · refine ⟨hi, by simp [hc], by omega, h1, fun j e hj hr => h4 j e hj (by omega), h5⟩

/-- `floor_offset` finds the last index whose key is not above `k`. -/
theorem floorOffset_spec {l : List (K × Nat)} (hs : SL.Sorted l) (k : K) :
    (floorOffset l k = some none ∧ ∀ e ∈ l, k < e.1) ∨
    ∃ i e, floorOffset l k = some (some i) ∧ l[i]? = some e ∧ e.1 ≤ k ∧ ∀ j e', l[j]? = some e' → i < j → k < e'.1 := by
  obtain ⟨r, h1, h2, h3, h4, h5⟩ := floorLoop_spec hs k (l.length + 1) (lo := 0) (hi := (l.length : Int) - 1) (by omega)
    (by omega) (by omega) (by omega) (fun j e _ h => by omega) (fun j e hj h => by
      have := (List.getElem?_eq_some_iff.1 hj).1; omega)
  unfold floorOffset
  rw [h1]
  simp only
  by_cases hr : r = -1
  · left
    refine ⟨by rw [if_pos hr], fun e he => ?_⟩
    obtain ⟨j, hj, rfl⟩ := List.getElem_of_mem he
    exact h5 j _ (List.getElem?_eq_getElem hj) (by omega)
  · right
    have hlt : r.toNat < l.length := by omega
    refine ⟨r.toNat, l[r.toNat], by rw [if_neg hr], List.getElem?_eq_getElem hlt, ?_, ?_⟩
    · exact h4 r.toNat _ (List.getElem?_eq_getElem hlt) (by omega)
    · intro j e' hj hij
      exact h5 j e' hj (by omega)

/-! ### The lookup and the scan -/

theorem sorted_of_keys {α β : Type} {l : List (K × α)} {l' : List (K × β)} (h : l.map (·.1) = l'.map (·.1))
    (hs : SL.Sorted l') : SL.Sorted l := by
  have h2 : (l.map (·.1)).Pairwise (· < ·) := by rw [h]; exact List.pairwise_map.2 hs
  exact List.pairwise_map.1 h2

theorem toc_sorted {ck : Codec K} : ∀ {bs : List (List (K × Nat))} {off : Nat}, SL.Sorted bs.flatten →
    SL.Sorted (toc ck off bs) ∧ ∀ e ∈ toc ck off bs, ∃ x ∈ bs.flatten, x.1 = e.1
  | [], off, h => ⟨List.Pairwise.nil, by simp [toc]⟩
  | [] :: bs, off, h => by
    simp only [List.flatten_cons, List.nil_append] at h ⊢
    simp only [toc]
    exact toc_sorted (bs := bs) h
  | (x :: b) :: bs, off, h => by
    simp only [List.flatten_cons] at h ⊢
    obtain ⟨h1, h2, h3⟩ := SL.sorted_append.1 h
    obtain ⟨i1, i2⟩ := toc_sorted (ck := ck) (off := off + (idxRec ck (x :: b)).length) h2
    refine ⟨List.pairwise_cons.2 ⟨fun e he => ?_, i1⟩, fun e he => ?_⟩
    · obtain ⟨y, hy, hye⟩ := i2 e he
      rw [← hye]
      exact h3 x (by simp) y hy
    · simp only [toc, List.mem_cons] at he
      rcases he with rfl | he
      · exact ⟨x, by simp, rfl⟩
      · obtain ⟨y, hy, hye⟩ := i2 e he
        exact ⟨y, List.mem_append_right _ hy, hye⟩

/-- A lookup through the filter, the summary and an index block, with any `data.dat`: the key is in no entry, or the
record of its entry is read. -/
theorem locate_holds {ck : Codec K} {cv : Codec V} {F : Filter K} {l : List (Ent K V)} {f : Files} {s : Summary K}
    {bf : F.T} {bs : List (List (K × Nat))} (h : Holds ck cv F l f s bf bs) (hs : SL.Sorted l)
    (hr : ∀ e ∈ l, Readable ck cv e) (hd : f.data.length + f.index.length < 2 ^ 64) (search : Search K) (k : K)
    (D : List UInt8) :
    ((∀ e ∈ l, e.1 ≠ k) ∧ (⟨{ f with data := D }, s, bf⟩ : Handle F).get ck cv search k = some none) ∨
    ∃ A e B, l = A ++ e :: B ∧ e.1 = k ∧ (⟨{ f with data := D }, s, bf⟩ : Handle F).get ck cv search k =
      match readRecord (D.drop (A.flatMap (dataRec ck cv)).length) with
      | none => none
      | some (bytes, _) =>
        match (entCodec ck cv).dec bytes with
        | none => none
        | some (e, _) => some (some e.2) := by
  have hkeyS : SL.Sorted bs.flatten := by
    rw [h.all]; exact sorted_of_keys (keyed_keys ck cv l 0) hs
  have hkey : ∀ x ∈ bs.flatten, ∃ A e B, l = A ++ e :: B ∧ e.1 = x.1 ∧ x.2 = (A.flatMap (dataRec ck cv)).length := by
    intro x hx
    rw [h.all] at hx
    obtain ⟨A, e, B, h1, h2, h3⟩ := keyed_mem hx
    exact ⟨A, e, B, h1, h2, by omega⟩
  have hkey' : ∀ e ∈ l, ∃ x ∈ bs.flatten, x.1 = e.1 := by
    intro e he
    have : e.1 ∈ (keyed ck cv 0 l).map (·.1) := by rw [keyed_keys]; exact List.mem_map.2 ⟨e, he, rfl⟩
    rw [← h.all] at this
    obtain ⟨x, hx, hxe⟩ := List.mem_map.1 this
    exact ⟨x, hx, hxe⟩
  have ht := toc_sorted (ck := ck) (off := 0) hkeyS
  unfold Handle.get
  split
  · rename_i hc
    refine .inl ⟨?_, rfl⟩
    rintro e he rfl
    have hlo : s.range.1 ≤ e.1 ∧ e.1 ≤ s.range.2 := by
      have hf := h.first
      have hl := h.last
      constructor
      · cases hll : l with
        | nil => rw [hll] at he; simp at he
        | cons a l' =>
          rw [hll] at hf he
          rw [hll] at hs
          simp only [List.head?_cons, Option.map_some, Option.some.injEq] at hf
          rw [← hf]
          rcases List.mem_cons.1 he with rfl | hm
          · exact le_rfl
          · exact le_of_lt ((List.pairwise_cons.1 hs).1 _ hm)
      · rcases List.eq_nil_or_concat l with hll | ⟨l', a, hll⟩
        · rw [hll] at he; simp at he
        · rw [List.concat_eq_append] at hll
          rw [hll] at hl he hs
          simp only [List.getLast?_append, List.getLast?_singleton, Option.some_or, Option.map_some, Option.some.injEq] at hl
          rw [← hl]
          rcases List.mem_append.1 he with hm | hm
          · exact le_of_lt ((SL.sorted_append.1 hs).2.2 _ hm a (by simp))
          · simp at hm; rw [hm]
    rcases hc with hc | hc
    · exact absurd hlo.1 (not_le.2 hc)
    · exact absurd hlo.2 (not_le.2 hc)
  · split
    · rename_i hc
      refine .inl ⟨?_, rfl⟩
      rintro e he rfl
      simp [h.has e he] at hc
    · simp only
      rw [h.toc]
      rcases floorOffset_spec ht.1 k with ⟨e1, e2⟩ | ⟨i, e, e1, e2, e3, e4⟩
      · rw [e1]
        simp only
        refine .inl ⟨?_, trivial⟩
        intro e he hek
        obtain ⟨x, hx, hxe⟩ := hkey' e he
        -- the first block starts with a key that is not above any other
        cases hb : bs with
        | nil => rw [hb] at hx; simp at hx
        | cons b bs' =>
          cases hb' : b with
          | nil => exact h.ne b (by rw [hb]; simp) hb'
          | cons y c =>
            have h1 : k < y.1 := e2 (y.1, 0) (by rw [hb, hb']; simp [toc])
            rw [hb, hb'] at hx hkeyS
            simp only [List.flatten_cons, List.cons_append, List.mem_cons] at hx hkeyS
            rcases hx with rfl | hx
            · rw [hxe, hek] at h1; exact lt_irrefl _ h1
            · have := (List.pairwise_cons.1 hkeyS).1 x hx
              rw [hxe, hek] at this
              exact lt_irrefl _ (this.trans h1)
      · rw [e1]
        simp only
        rw [e2]
        simp only
        obtain ⟨A, y, b, B, b1, b2, b3, b4⟩ := toc_get h.ne e2
        have hb : y :: b ∈ bs := by rw [b1]; simp
        have hsub : ∀ x ∈ y :: b, x ∈ bs.flatten := fun x hx => List.mem_flatten.2 ⟨_, hb, hx⟩
        have hlen : ((idxCodec ck).enc (y :: b)).length < 2 ^ 64 := by
          have : (idxRec ck (y :: b)).length ≤ f.index.length := by
            rw [h.index, b1]
            simp only [List.flatMap_append, List.flatMap_cons, List.length_append]
            omega
          rw [length_record] at this
          omega
        have hdrop : f.index.drop e.2 = idxRec ck (y :: b) ++ B.flatMap (idxRec ck) := by
          rw [h.index, b1, b4, Nat.zero_add, List.flatMap_append, List.flatMap_cons, List.drop_left]
        rw [hdrop, readRecord_record hlen]
        simp only
        have hbs : SL.Sorted (y :: b) := by
          rw [b1] at hkeyS
          simp only [List.flatten_append, List.flatten_cons] at hkeyS
          exact (SL.sorted_append.1 (SL.sorted_append.1 hkeyS).2.1).1
        have hoff : ∀ x ∈ y :: b, ck.Reads x.1 ∧ x.2 < 2 ^ 64 := by
          intro x hx
          obtain ⟨A', e', B', a1, a2, a3⟩ := hkey x (hsub x hx)
          refine ⟨by rw [← a2]; exact (hr e' (by rw [a1]; simp)).1, ?_⟩
          have : (A'.flatMap (dataRec ck cv)).length ≤ f.data.length := by
            rw [h.data, a1, List.flatMap_append, List.length_append]; omega
          omega
        have hcount : (y :: b).length < 2 ^ 64 := by
          have h1 : (y :: b).length * 8 ≤ ((idxCodec ck).enc (y :: b)).length := by
            rw [length_boxed]
            have : ∀ c : List (K × Nat), c.length * 8 ≤ (c.flatMap (both ck u64).enc).length := by
              intro c
              induction c with
              | nil => simp
              | cons x c ih =>
                rw [List.flatMap_cons, List.length_append, List.length_cons]
                have : 8 ≤ ((both ck u64).enc x).length := by simp [both, length_u64]
                omega
            have := this (y :: b)
            omega
          omega
        have hdec : (idxCodec ck).dec ((idxCodec ck).enc (y :: b)) = some (y :: b, []) := by
          have := reads_boxed (c := both ck u64) hcount (fun x hx => reads_both (hoff x hx).1 (reads_u64 (hoff x hx).2)) []
          rwa [List.append_nil] at this
        rw [hdec]
        simp only
        cases hf : search.run (y :: b) k with
        | none =>
          simp only
          refine .inl ⟨?_, trivial⟩
          intro e' he' hek
          obtain ⟨x, hx, hxe⟩ := hkey' e' he'
          have hm := search.missing hbs hf
          obtain ⟨c, hc, hxc⟩ := List.mem_flatten.1 hx
          rw [b1] at hc
          rcases List.mem_append.1 hc with hc | hc
          · -- an earlier block: its keys are below the first key of the block found
            rw [b1] at hkeyS
            simp only [List.flatten_append, List.flatten_cons] at hkeyS
            have h1 := (SL.sorted_append.1 hkeyS).2.2 x (List.mem_flatten.2 ⟨c, hc, hxc⟩) y (by simp)
            rw [hxe, hek] at h1
            rw [b3] at h1
            exact absurd e3 (not_le.2 h1)
          · rcases List.mem_cons.1 hc with rfl | hc
            · exact hm x hxc (hxe.trans hek)
            · -- a later block: the next block starts above `k`
              obtain ⟨B1, B2, hB⟩ := List.append_of_mem hc
              have hcn : c ≠ [] := h.ne c (by rw [b1]; exact List.mem_append_right _ (List.mem_cons_of_mem _ hc))
              obtain ⟨z, c', rfl⟩ := List.exists_cons_of_ne_nil hcn
              have hz : k < z.1 := by
                have hlt : A.length + 1 + B1.length < (toc ck 0 bs).length := by
                  rw [toc_length h.ne, b1, hB]; simp; omega
                have hg := List.getElem?_eq_getElem hlt
                have := e4 _ _ hg (by omega)
                obtain ⟨A2, z2, c2, B3, d1, d2, d3, d4⟩ := toc_get h.ne hg
                have heq : z2 :: c2 = z :: c' := by
                  have g1 : bs[A.length + 1 + B1.length]? = some (z2 :: c2) := by
                    rw [d1, ← d2]; simp
                  have g2 : bs[A.length + 1 + B1.length]? = some (z :: c') := by
                    rw [b1, hB]
                    rw [List.getElem?_append_right (by omega), show A.length + 1 + B1.length - A.length = B1.length + 1 by omega,
                      List.getElem?_cons_succ]
                    simp
                  rw [g1] at g2
                  exact Option.some.inj g2
                simp only [List.cons.injEq] at heq
                rw [← d3, heq.1] at this
                exact this
              have hsz : SL.Sorted (z :: c') := by
                rw [b1, hB] at hkeyS
                simp only [List.flatten_append, List.flatten_cons] at hkeyS
                exact (SL.sorted_append.1 (SL.sorted_append.1 (SL.sorted_append.1 (SL.sorted_append.1 hkeyS).2.1).2.1).2.1).1
              rcases List.mem_cons.1 hxc with rfl | hxc
              · rw [hxe, hek] at hz; exact lt_irrefl _ hz
              · have := (List.pairwise_cons.1 hsz).1 x hxc
                rw [hxe, hek] at this
                exact lt_irrefl _ (this.trans hz)
        | some j =>
          simp only
          obtain ⟨x, hx, hxk⟩ := search.found hbs hf
          rw [hx]
          simp only
          have hxm : x ∈ y :: b := List.mem_of_getElem? hx
          obtain ⟨A', e', B', a1, a2, a3⟩ := hkey x (hsub x hxm)
          exact .inr ⟨A', e', B', a1, a2.trans hxk, by rw [a3]⟩

/-- A lookup through the filter, the summary and an index block is a lookup in the list of entries. -/
theorem get_holds {ck : Codec K} {cv : Codec V} {F : Filter K} {l : List (Ent K V)} {f : Files} {s : Summary K}
    {bf : F.T} {bs : List (List (K × Nat))} (h : Holds ck cv F l f s bf bs) (hs : SL.Sorted l)
    (hr : ∀ e ∈ l, Readable ck cv e) (hd : f.data.length + f.index.length < 2 ^ 64) (search : Search K) (k : K) :
    (⟨f, s, bf⟩ : Handle F).get ck cv search k = some ((SL.find k l).map (·.2)) := by
  rcases locate_holds h hs hr hd search k f.data with ⟨hk, hg⟩ | ⟨A, e, B, hl, hk, hg⟩
  · rw [SL.find_eq_none.2 hk]; exact hg
  · refine hg.trans ?_
    have hdl : ((entCodec ck cv).enc e).length < 2 ^ 64 := by
      have : (dataRec ck cv e).length ≤ f.data.length := by
        rw [h.data, hl]
        simp only [List.flatMap_append, List.flatMap_cons, List.length_append]
        omega
      rw [length_record] at this
      omega
    have hdd : f.data.drop (A.flatMap (dataRec ck cv)).length = dataRec ck cv e ++ B.flatMap (dataRec ck cv) := by
      rw [h.data, hl, List.flatMap_append, List.flatMap_cons, List.drop_left]
    rw [hdd, readRecord_record hdl]
    simp only
    have hre := reads_ent (hr e (by rw [hl]; simp)) []
    rw [List.append_nil] at hre
    rw [hre, ← hk, SL.find_of_mem hs (show e ∈ l by rw [hl]; simp)]
    rfl

omit [LinearOrder K] in
theorem scanFrom_spec {ck : Codec K} {cv : Codec V} : ∀ {l : List (Ent K V)} {n : Nat}, (∀ e ∈ l, Readable ck cv e) →
    (l.flatMap (dataRec ck cv)).length < 2 ^ 64 → l.length ≤ n → scanFrom ck cv n (l.flatMap (dataRec ck cv)) = some l
  | [], n, _, _, _ => by cases n <;> simp [scanFrom]
  | e :: l, 0, _, _, hn => by simp at hn
  | e :: l, n + 1, hr, hl, hn => by
    unfold scanFrom
    rw [List.flatMap_cons] at hl ⊢
    rw [List.length_append, length_record] at hl
    rw [if_neg (by rw [List.length_append, length_record]; omega), readRecord_record (by omega)]
    simp only
    have hre := reads_ent (hr e (by simp)) []
    rw [List.append_nil] at hre
    rw [hre]
    simp only
    rw [scanFrom_spec (fun x hx => hr x (List.mem_cons_of_mem _ hx)) (by omega) (by simpa using hn)]
    rfl

end

/-! ### C42 -/

/-- The sizes of the files are within the range of `u64`, and what is stored can be read back. -/
structure Storable (ck : Codec K) (cv : Codec V) (l : List (Ent K V)) (f : Files) : Prop where
  reads : ∀ e ∈ l, Readable ck cv e
  size : f.data.length + f.index.length < 2 ^ 64

omit V in
theorem toc_mem {ck : Codec K} {x : K × Nat} : ∀ {bs : List (List (K × Nat))} {off : Nat}, x ∈ toc ck off bs →
    (∃ y ∈ bs.flatten, y.1 = x.1) ∧ x.2 ≤ off + (bs.flatMap (idxRec ck)).length
  | [], off, h => by simp [toc] at h
  | [] :: bs, off, h => by
    simp only [toc] at h
    obtain ⟨⟨y, hy, hyx⟩, h2⟩ := toc_mem h
    refine ⟨⟨y, by simpa using hy, hyx⟩, ?_⟩
    rw [List.flatMap_cons, List.length_append]; omega
  | (y :: b) :: bs, off, h => by
    simp only [toc, List.mem_cons] at h
    rcases h with rfl | h
    · exact ⟨⟨y, by simp, rfl⟩, by simp⟩
    · obtain ⟨⟨z, hz, hzx⟩, h2⟩ := toc_mem h
      refine ⟨⟨z, by rw [List.flatten_cons]; exact List.mem_append_right _ hz, hzx⟩, ?_⟩
      rw [List.flatMap_cons, List.length_append]; omega

theorem length_le_data (ck : Codec K) (cv : Codec V) (l : List (Ent K V)) :
    l.length ≤ (l.flatMap (dataRec ck cv)).length := by
  induction l with
  | nil => simp
  | cons e l ih => rw [List.flatMap_cons, List.length_append, length_record, List.length_cons]; omega

theorem length_le_index (ck : Codec K) (bs : List (List (K × Nat))) :
    bs.length ≤ (bs.flatMap (idxRec ck)).length := by
  induction bs with
  | nil => simp
  | cons b bs ih => rw [List.flatMap_cons, List.length_append, length_record, List.length_cons]; omega

theorem reads_sum {ck : Codec K} {cv : Codec V} {F : Filter K} {l : List (Ent K V)} {f : Files} {s : Summary K}
    {bf : F.T} {bs : List (List (K × Nat))} (h : Holds ck cv F l f s bf bs) (hs : Storable ck cv l f) :
    (sumCodec ck).Reads s := by
  have hsz := hs.size
  have hl : l.length ≤ f.data.length := by rw [h.data]; exact length_le_data ck cv l
  have hb : bs.length ≤ f.index.length := by rw [h.index]; exact length_le_index ck bs
  have hkr : ∀ e ∈ l, ck.Reads e.1 := fun e he => (hs.reads e he).1
  have hf : ∃ e ∈ l, e.1 = s.range.1 := by
    have := h.first
    simp only [Option.map_eq_some_iff] at this
    obtain ⟨e, he, h1⟩ := this
    exact ⟨e, List.mem_of_head? he, h1⟩
  have hla : ∃ e ∈ l, e.1 = s.range.2 := by
    have := h.last
    simp only [Option.map_eq_some_iff] at this
    obtain ⟨e, he, h1⟩ := this
    exact ⟨e, List.mem_of_getLast? he, h1⟩
  refine reads_summary ?_ ?_ ?_ ?_ ?_ ?_ ?_ ?_ ?_
  · rw [h.count]; omega
  · rw [h.tombs]; have := List.countP_le_length (p := fun e : Ent K V => e.2.data.isNone) (l := l); omega
  · have := h.size; omega
  · obtain ⟨e, he, hx⟩ := hf; rw [← hx]; exact hkr e he
  · obtain ⟨e, he, hx⟩ := hla; rw [← hx]; exact hkr e he
  · obtain ⟨e, he, hx⟩ := h.timeLo; rw [← hx]; exact (hs.reads e he).2.1
  · obtain ⟨e, he, hx⟩ := h.timeHi; rw [← hx]; exact (hs.reads e he).2.1
  · rw [h.toc, toc_length h.ne]; omega
  · intro x hx
    rw [h.toc] at hx
    obtain ⟨⟨y, hy, hyx⟩, h2⟩ := toc_mem hx
    rw [h.all] at hy
    obtain ⟨A, e, B, a1, a2, a3⟩ := keyed_mem hy
    refine ⟨by rw [← hyx, ← a2]; exact hkr e (by rw [a1]; simp), ?_⟩
    rw [← h.index] at h2
    omega

theorem open_holds {ck : Codec K} {cv : Codec V} {F : Filter K} {l : List (Ent K V)} {f : Files} {s : Summary K}
    {bf : F.T} {bs : List (List (K × Nat))} (h : Holds ck cv F l f s bf bs) (hs : Storable ck cv l f) :
    Handle.open ck F f = some ⟨f, s, bf⟩ := by
  have hsum : (sumCodec ck).Reads s := reads_sum h hs
  have h1 := hsum []
  have h2 := F.reads bf []
  rw [List.append_nil] at h1 h2
  unfold Handle.open
  rw [h.summary, h.filter, h1, h2]

/-- C42: for every non-empty ascending list of entries, every block size and every filter without false negatives, the
builder writes files; if their sizes are below 2^64 and keys and values can be read back, the files can be opened,
and then: `get` returns the appended entry of a key, or nothing if there is none; scanning returns the appended
entries; the counts, the key range and the time range of the summary are exact. -/
theorem C42_sstable [LinearOrder K] (ck : Codec K) (cv : Codec V) (F : Filter K) (search : Search K) (blockSize hint : Nat)
    (l : List (Ent K V)) (hl : l ≠ []) (hs : l.Pairwise fun a b => a.1 < b.1) :
    ∃ f, write ck cv F blockSize hint l = some f ∧ (Storable ck cv l f → ∃ t, Handle.open ck F f = some t ∧
      (∀ k v, (k, v) ∈ l → t.get ck cv search k = some (some v)) ∧
      (∀ k, (∀ v, (k, v) ∉ l) → t.get ck cv search k = some none) ∧
      t.scan ck cv = some l ∧
      t.summary.entryCount = l.length ∧ t.summary.tombCount = (l.filter fun e => e.2.data.isNone).length ∧
      l.head?.map (·.1) = some t.summary.range.1 ∧ l.getLast?.map (·.1) = some t.summary.range.2 ∧
      (∀ e ∈ l, t.summary.times.1 ≤ e.2.time ∧ e.2.time ≤ t.summary.times.2) ∧
      (∃ e ∈ l, e.2.time = t.summary.times.1) ∧ ∃ e ∈ l, e.2.time = t.summary.times.2) := by
  obtain ⟨f, s, bf, bs, -, h1, h, -⟩ := write_holds ck cv F blockSize hint hl
  refine ⟨f, h1, fun hst => ⟨_, open_holds h hst, fun k v hkv => ?_, fun k hk => ?_, ?_, h.count, ?_, h.first, h.last,
    h.timeIn, h.timeLo, h.timeHi⟩⟩
  · rw [get_holds h hs hst.reads hst.size, SL.find_of_mem hs hkv]; rfl
  · rw [get_holds h hs hst.reads hst.size, SL.find_eq_none.2]; · rfl
    rintro e he rfl
    exact hk e.2 he
  · have hsz := hst.size
    unfold Handle.scan
    simp only
    rw [h.data]
    rw [h.data] at hsz
    exact scanFrom_spec hst.reads (by omega) (length_le_data ck cv l)
  · rw [h.tombs, List.countP_eq_length_filter]

/-! ### The table model of `Lsm/Table.lean` -/

/-- The sizes of keys and values in a file. -/
def sizesOf (ck : Codec K) (cv : Codec V) : Sizes K V := ⟨fun k => (ck.enc k).length, fun v => (cv.enc v).length⟩

theorem entry_size (ck : Codec K) (cv : Codec V) (e : Ent K V) :
    (sizesOf ck cv).entry e = ((entCodec ck cv).enc e).length := by
  cases hd : e.2.data <;>
    simp [Sizes.entry, Sizes.value, sizesOf, both, valCodec, opt, hd, length_u64] <;> omega

/-- The two models of a builder agree. -/
structure Sim (ck : Codec K) (cv : Codec V) {F : Filter K} (a : Lsm.Builder K V) (b : Builder F) : Prop where
  entryCount : a.entryCount = b.entryCount
  tombCount : a.tombCount = b.tombCount
  size : a.size = b.size
  range : a.range = b.range
  times : a.times = b.times
  blockIndex : a.blockIndex = b.blockIndex
  blockSize : a.blockSize = b.blockSize
  blockBytes : a.blockBytes = (b.block.flatMap (both ck u64).enc).length

theorem sim_append {ck : Codec K} {cv : Codec V} {F : Filter K} {a : Lsm.Builder K V} {b b' : Builder F}
    (h : Sim ck cv a b) {e : Ent K V} (hb : b.append ck cv e = some b') : Sim ck cv (a.append (sizesOf ck cv) e) b' := by
  obtain ⟨h1, h2, h3, h4, h5, h6, h7, h8⟩ := h
  have hbb : a.blockBytes + ((sizesOf ck cv).key e.1 + 8) =
      ((b.block ++ [(e.1, b.dataOff)]).flatMap (both ck u64).enc).length := by
    rw [h8, List.flatMap_append, List.length_append]
    simp [both, sizesOf, length_u64]
  unfold Builder.append at hb
  unfold Lsm.Builder.append
  simp only [h6, h7]
  by_cases hc : b.blockIndex + 1 = b.blockSize
  · have hb : (b.note ck cv e).writeBlock ck = some b' := (if_pos hc).symm.trans hb
    rw [if_pos hc]
    unfold Builder.writeBlock at hb
    simp only [Builder.note] at hb
    cases hl : b.block ++ [(e.1, b.dataOff)] with
    | nil => simp at hl
    | cons x c =>
      rw [hl] at hb hbb
      simp only [Option.some.injEq] at hb
      subst hb
      refine ⟨by simp [h1], by simp [h2], ?_, by simp [h4], by simp [h5], rfl, rfl, by simp⟩
      simp only
      rw [h3, hbb, entry_size, length_boxed]
  · have hb : some (b.note ck cv e) = some b' := (if_neg hc).symm.trans hb
    rw [if_neg hc]
    simp only [Option.some.injEq] at hb
    subst hb
    unfold Builder.note
    refine ⟨by simp [h1], by simp [h2], ?_, by simp [h4], by simp [h5], rfl, rfl, ?_⟩
    · simp only; rw [h3, entry_size]
    · exact hbb

theorem sim_appendAll {ck : Codec K} {cv : Codec V} {F : Filter K} : ∀ (l : List (Ent K V)) {a : Lsm.Builder K V}
    {b b' : Builder F}, Sim ck cv a b → b.appendAll ck cv l = some b' → Sim ck cv (a.appendAll (sizesOf ck cv) l) b'
  | [], a, b, b', h, hb => by simp [Builder.appendAll] at hb; subst hb; exact h
  | e :: l, a, b, b', h, hb => by
    simp only [Builder.appendAll, Option.bind_eq_some_iff] at hb
    obtain ⟨b1, h1, h2⟩ := hb
    exact sim_appendAll l (sim_append h h1) h2

/-- The files refine the tables of `Lsm/Table.lean`, on which the model of the map is built: the opened files have the
summary of the table, including its size, and the same lookups and entries. -/
theorem C42_refines [LinearOrder K] (ck : Codec K) (cv : Codec V) (F : Filter K) (search : Search K) (blockSize hint id : Nat)
    (l : List (Ent K V)) (hl : l ≠ []) (hs : l.Pairwise fun a b => a.1 < b.1) :
    ∃ f t, write ck cv F blockSize hint l = some f ∧ build (sizesOf ck cv) blockSize l id = some t ∧
      (Storable ck cv l f → ∃ h, Handle.open ck F f = some h ∧ h.summary.entryCount = t.entryCount ∧
        h.summary.tombCount = t.tombCount ∧ h.summary.size = t.size ∧ h.summary.range = t.range ∧
        h.summary.times = t.times ∧ (∀ k, h.get ck cv search k = some (t.get k)) ∧ h.scan ck cv = some t.entries) := by
  obtain ⟨f, s, bf, bs, b, h1, h, e1, e2⟩ := write_holds ck cv F blockSize hint hl
  obtain ⟨t, t1, t2, t3, t4⟩ := build_ok (z := sizesOf ck cv) (n := blockSize) hs hl id
  refine ⟨f, t, h1, t1, fun hst => ⟨_, open_holds h hst, ?_⟩⟩
  have hsim := sim_appendAll (cv := cv) l (a := Lsm.Builder.new blockSize) (b := Builder.new F blockSize hint)
    ⟨rfl, rfl, rfl, rfl, rfl, rfl, rfl, rfl⟩ e1
  obtain ⟨s1, s2, s3, s4, s5⟩ := e2
  have ht : t.entryCount = b.entryCount ∧ t.tombCount = b.tombCount ∧ t.size = b.size ∧ some t.range = b.range ∧
      some t.times = b.times := by
    unfold build Lsm.Builder.flush at t1
    cases hr : ((Lsm.Builder.new blockSize : Lsm.Builder K V).appendAll (sizesOf ck cv) l).range with
    | none => rw [hr] at t1; simp at t1
    | some r =>
      cases hm : ((Lsm.Builder.new blockSize : Lsm.Builder K V).appendAll (sizesOf ck cv) l).times with
      | none => rw [hr, hm] at t1; simp at t1
      | some m =>
        rw [hr, hm] at t1
        simp only [Option.some.injEq] at t1
        subst t1
        exact ⟨hsim.entryCount, hsim.tombCount, hsim.size, hr.symm.trans hsim.range, hm.symm.trans hsim.times⟩
  obtain ⟨u1, u2, u3, u4, u5⟩ := ht
  refine ⟨s1.trans u1.symm, s2.trans u2.symm, s3.trans u3.symm, Option.some.inj (s4.trans u4.symm),
    Option.some.inj (s5.trans u5.symm), fun k => ?_, ?_⟩
  · rw [get_holds h hs hst.reads hst.size, t2.get_eq, t3]
  · have hsz := hst.size
    rw [t3]
    unfold Handle.scan
    simp only
    rw [h.data]
    rw [h.data] at hsz
    exact scanFrom_spec hst.reads (by omega) (length_le_data ck cv l)

/-! ### The hypotheses are met -/

namespace Example

/-- A filter with two bits. -/
def filter : Filter Nat where
  T := Bool × Bool
  new _ := (false, false)
  insert f k := if k % 2 = 0 then (true, f.2) else (f.1, true)
  has f k := if k % 2 = 0 then f.1 else f.2
  codec := ⟨fun f => [if f.1 then 1 else 0, if f.2 then 1 else 0], fun bs => match bs with
    | a :: b :: r => some ((a = 1, b = 1), r)
    | _ => none⟩
  has_insert f k := by by_cases h : k % 2 = 0 <;> simp [h]
  has_mono f k k' := by by_cases h : k % 2 = 0 <;> by_cases h' : k' % 2 = 0 <;> simp [h, h']
  reads f rest := by rcases f with ⟨a, b⟩; cases a <;> cases b <;> rfl

/-- A search from left to right. -/
def search : Search Nat where
  run l k := l.findIdx? fun e => e.1 = k
  found {l k i} _ h := by
    obtain ⟨hi, h1, _⟩ := List.findIdx?_eq_some_iff_getElem.1 h
    exact ⟨l[i], List.getElem?_eq_getElem hi, by simpa using h1⟩
  missing {l k} _ h := by
    intro e he
    have := List.findIdx?_eq_none_iff.1 h e he
    simpa using this

/-- Five entries, one of them a tombstone. -/
def entries : List (Ent Nat Nat) := [(2, ⟨some 20, 3⟩), (4, ⟨none, 1⟩), (6, ⟨some 60, 2⟩), (8, ⟨some 80, 7⟩), (9, ⟨some 90, 4⟩)]

example : ∃ f, write u64 u64 filter 2 5 entries = some f ∧ Storable u64 u64 entries f := by
  refine ⟨_, Option.eq_some_of_isSome (o := write u64 u64 filter 2 5 entries) (by decide +kernel), ?_, by decide +kernel⟩
  intro e he
  simp only [entries, List.mem_cons, List.not_mem_nil, or_false] at he
  rcases he with rfl | rfl | rfl | rfl | rfl <;>
    exact ⟨reads_u64 (by decide), by decide, fun y hy => by simp at hy; try (subst hy; exact reads_u64 (by decide))⟩

example : ((write u64 u64 filter 2 5 entries).bind fun f => (Handle.open u64 filter f).map fun t =>
    decide (t.summary.index.length = 3) && decide (t.get u64 u64 search 6 = some (some (⟨some 60, 2⟩ : Val Nat))) &&
    decide (t.get u64 u64 search 4 = some (some (⟨none, 1⟩ : Val Nat))) &&
    decide (t.get u64 u64 search 5 = some (none : Option (Val Nat))) && decide (t.scan u64 u64 = some entries)) = some true := by
  decide +kernel

end Example

end Verif.Lsm.File
