/-
Properties C60, C61 and C62: the files `metadata.dat` and `logical_time.dat` of an LsmMap, byte by byte.

Both are written at offset 0 and never truncated (leveled.rs:190-191, 477-479, 487-488, 499-500, ...), so behind the
current contents there may be what is left of longer, older ones.  A table is stored as the path of its directory
(sstable.rs:378-403); reading it back reads the files in that directory.  The encoding is that of `Bp/Bytes.lean`.
Simplifications: a path is any list of bytes (the library refuses to write paths that are not UTF-8); an `f64` is its
8-byte bit pattern.
-/
import Verif.Lsm.Bytes

namespace Verif.Lsm.File

open Verif Verif.Bp

variable {K V : Type}

/-! ### The model -/

/-- A path. -/
abbrev Path := List UInt8

/-- The table directories of a file system. -/
abbrev Fs := Path → Option Files

/-- `u8`. -/
def u8 : Codec UInt8 where
  enc b := [b]
  dec
    | [] => none
    | b :: r => some (b, r)

/-- sstable.rs:235-240 `SSTable`: its directory and what `SSTable::new` read there. -/
structure Ref (F : Filter K) where
  path : Path
  handle : Handle F

/-- sstable.rs:378-403: a table is written as its path; reading it opens the directory. -/
def refCodec (ck : Codec K) (F : Filter K) (fs : Fs) : Codec (Ref F) where
  enc t := (boxed u8).enc t.path
  dec bs := ((boxed u8).dec bs).bind fun (p, r) =>
    ((fs p).bind (Handle.open ck F)).map fun h => (⟨p, h⟩, r)

/-- `BTreeMap<T, X>`: the number of entries and the entries in ascending order; reading inserts them one by one. -/
def treeCodec {X : Type} [LinearOrder K] (ck : Codec K) (cx : Codec X) : Codec (List (K × X)) where
  enc l := (boxed (both ck cx)).enc l
  dec bs := ((boxed (both ck cx)).dec bs).map fun (l, r) => (l.foldl (fun m e => SL.ins e.1 e.2 m) [], r)

/-- size_tiered.rs:25-34 `SizeTieredMetadata`. -/
structure StMeta (F : Filter K) where
  maxMem : Nat
  maxCount : Nat
  minSize : Nat
  low : Nat
  high : Nat
  tables : List (Ref F)

/-- Its derived `Serialize`, `Deserialize`. -/
def stCodec (ck : Codec K) (F : Filter K) (fs : Fs) : Codec (StMeta F) where
  enc m := u64.enc m.maxMem ++ (u64.enc m.maxCount ++ (u64.enc m.minSize ++ (u64.enc m.low ++ (u64.enc m.high ++
    (boxed (refCodec ck F fs)).enc m.tables))))
  dec bs := (u64.dec bs).bind fun (a, r) => (u64.dec r).bind fun (b, r) => (u64.dec r).bind fun (c, r) =>
    (u64.dec r).bind fun (d, r) => (u64.dec r).bind fun (e, r) =>
    ((boxed (refCodec ck F fs)).dec r).map fun (f, r) => (⟨a, b, c, d, e, f⟩, r)

/-- leveled.rs:25-37 `LeveledMetadata`. -/
structure LvMeta (F : Filter K) where
  maxMem : Nat
  maxCount : Nat
  maxSize : Nat
  levelCount : Nat
  growth : Nat
  tables : List (Ref F)
  levels : List (List (K × Ref F))

/-- Its derived `Serialize`, `Deserialize`. -/
def lvCodec [LinearOrder K] (ck : Codec K) (F : Filter K) (fs : Fs) : Codec (LvMeta F) where
  enc m := u64.enc m.maxMem ++ (u64.enc m.maxCount ++ (u64.enc m.maxSize ++ (u64.enc m.levelCount ++ (u64.enc m.growth ++
    ((boxed (refCodec ck F fs)).enc m.tables ++ (boxed (treeCodec ck (refCodec ck F fs))).enc m.levels)))))
  dec bs := (u64.dec bs).bind fun (a, r) => (u64.dec r).bind fun (b, r) => (u64.dec r).bind fun (c, r) =>
    (u64.dec r).bind fun (d, r) => (u64.dec r).bind fun (e, r) =>
    ((boxed (refCodec ck F fs)).dec r).bind fun (f, r) =>
    ((boxed (treeCodec ck (refCodec ck F fs))).dec r).map fun (g, r) => (⟨a, b, c, d, e, f, g⟩, r)

/-- `seek(SeekFrom::Start(0))` and `write_all(bs)` on a file that is not truncated. -/
def overwrite (file bs : List UInt8) : List UInt8 := bs ++ file.drop bs.length

/-- The same, interrupted after `j` bytes. -/
def torn (file bs : List UInt8) (j : Nat) : List UInt8 := overwrite file (bs.take j)

/-- `deserialize(&buffer)` (leveled.rs:227-228 and 238, size_tiered.rs:281-282 and 292): bytes behind the value are
ignored. -/
def readAll {α : Type} (c : Codec α) (file : List UInt8) : Option α := (c.dec file).map (·.1)

/-- `read_u64::<BigEndian>()` (leveled.rs:234, size_tiered.rs:288). -/
def readTime (file : List UInt8) : Option Nat :=
  if file.length < 8 then none else (decInt 8 (file.take 8).reverse).map (·.1)

/-- `write_u64::<BigEndian>` at the start of the file (leveled.rs:477-479, size_tiered.rs:401-403). -/
def writeTime (file : List UInt8) (t : Nat) : List UInt8 := overwrite file (be64 t)

/-! ### Reading back -/

theorem reads_u8 (b : UInt8) : u8.Reads b := fun _ => rfl

theorem reads_path {p : Path} (h : p.length < 2 ^ 64) : (boxed u8).Reads p := reads_boxed h fun b _ => reads_u8 b

/-- What a table needs to be read back: a path of a sensible length, and in its directory the files it was opened from. -/
structure Ref.There (ck : Codec K) {F : Filter K} (fs : Fs) (t : Ref F) : Prop where
  short : t.path.length < 2 ^ 64
  files : (fs t.path).bind (Handle.open ck F) = some t.handle

theorem reads_ref {ck : Codec K} {F : Filter K} {fs : Fs} {t : Ref F} (h : t.There ck fs) :
    (refCodec ck F fs).Reads t := fun rest => by
  simp only [refCodec]
  rw [reads_path h.short]
  simp only [Option.bind_some, h.files, Option.map_some]

theorem ins_last [LinearOrder K] {X : Type} {k : K} {x : X} : ∀ {l : List (K × X)}, (∀ e ∈ l, e.1 < k) →
    SL.ins k x l = l ++ [(k, x)] := by
  intro l h
  have := SL.ins_between (l := l) (r := []) (k := k) (v := x) h (by simp)
  simpa using this

theorem foldl_ins [LinearOrder K] {X : Type} : ∀ {l a : List (K × X)}, SL.Sorted (a ++ l) →
    l.foldl (fun m e => SL.ins e.1 e.2 m) a = a ++ l := by
  intro l
  induction l with
  | nil => intro a _; simp
  | cons e l ih =>
    intro a h
    rw [List.foldl_cons, ins_last fun b hb => (List.pairwise_append.1 h).2.2 b hb e List.mem_cons_self,
      ih (by rw [List.append_assoc]; exact h), List.append_assoc]
    rfl

theorem reads_tree [LinearOrder K] {X : Type} {ck : Codec K} {cx : Codec X} {l : List (K × X)} (hs : SL.Sorted l)
    (hl : l.length < 2 ^ 64) (h : ∀ e ∈ l, ck.Reads e.1 ∧ cx.Reads e.2) : (treeCodec ck cx).Reads l := fun rest => by
  have := reads_boxed (c := both ck cx) hl (fun e he => reads_both (h e he).1 (h e he).2) rest
  simp only [treeCodec]
  rw [this]
  simp only [Option.map_some]
  rw [foldl_ins (by simpa using hs)]
  rfl

/-- The numbers fit into 64 bits and the tables are there. -/
structure StMeta.There (ck : Codec K) {F : Filter K} (fs : Fs) (m : StMeta F) : Prop where
  nums : ∀ n ∈ [m.maxMem, m.maxCount, m.minSize, m.low, m.high], n < 2 ^ 64
  count : m.tables.length < 2 ^ 64
  tables : ∀ t ∈ m.tables, t.There ck fs

/-- The same for the leveled strategy; the tables of a level are filed in ascending order of keys. -/
structure LvMeta.There [LinearOrder K] (ck : Codec K) {F : Filter K} (fs : Fs) (m : LvMeta F) : Prop where
  nums : ∀ n ∈ [m.maxMem, m.maxCount, m.maxSize, m.levelCount, m.growth], n < 2 ^ 64
  count : m.tables.length < 2 ^ 64
  tables : ∀ t ∈ m.tables, t.There ck fs
  levels : m.levels.length < 2 ^ 64
  level : ∀ l ∈ m.levels, l.length < 2 ^ 64 ∧ SL.Sorted l ∧ ∀ e ∈ l, ck.Reads e.1 ∧ e.2.There ck fs

theorem reads_st {ck : Codec K} {F : Filter K} {fs : Fs} {m : StMeta F} (h : m.There ck fs) :
    (stCodec ck F fs).Reads m := fun rest => by
  have hn := h.nums
  simp only [List.mem_cons, List.not_mem_nil, or_false, forall_eq_or_imp, forall_eq] at hn
  obtain ⟨h1, h2, h3, h4, h5⟩ := hn
  have h6 : (boxed (refCodec ck F fs)).Reads m.tables := reads_boxed h.count fun t ht => reads_ref (h.tables t ht)
  simp only [stCodec, List.append_assoc]
  rw [reads_u64 h1]; simp only [Option.bind_some]
  rw [reads_u64 h2]; simp only [Option.bind_some]
  rw [reads_u64 h3]; simp only [Option.bind_some]
  rw [reads_u64 h4]; simp only [Option.bind_some]
  rw [reads_u64 h5]; simp only [Option.bind_some]
  rw [h6]; rfl

theorem reads_lv [LinearOrder K] {ck : Codec K} {F : Filter K} {fs : Fs} {m : LvMeta F} (h : m.There ck fs) :
    (lvCodec ck F fs).Reads m := fun rest => by
  have hn := h.nums
  simp only [List.mem_cons, List.not_mem_nil, or_false, forall_eq_or_imp, forall_eq] at hn
  obtain ⟨h1, h2, h3, h4, h5⟩ := hn
  have h6 : (boxed (refCodec ck F fs)).Reads m.tables := reads_boxed h.count fun t ht => reads_ref (h.tables t ht)
  have h7 : (boxed (treeCodec ck (refCodec ck F fs))).Reads m.levels := reads_boxed h.levels fun l hl =>
    reads_tree (h.level l hl).2.1 (h.level l hl).1 fun e he =>
      ⟨((h.level l hl).2.2 e he).1, reads_ref ((h.level l hl).2.2 e he).2⟩
  simp only [lvCodec, List.append_assoc]
  rw [reads_u64 h1]; simp only [Option.bind_some]
  rw [reads_u64 h2]; simp only [Option.bind_some]
  rw [reads_u64 h3]; simp only [Option.bind_some]
  rw [reads_u64 h4]; simp only [Option.bind_some]
  rw [reads_u64 h5]; simp only [Option.bind_some]
  rw [h6]; simp only [Option.bind_some]
  rw [h7]; rfl

theorem readAll_overwrite {α : Type} {c : Codec α} {x : α} (h : c.Reads x) (file : List UInt8) :
    readAll c (overwrite file (c.enc x)) = some x := by
  rw [readAll, overwrite, h]; rfl

/-- **C60, metadata, size-tiered.**  Whatever was in the file and whatever was written to it before, opening reads the
metadata written last, although the file is never truncated. -/
theorem C60_size_tiered (ck : Codec K) (F : Filter K) (fs : Fs) (file : List UInt8) (ms : List (StMeta F)) (m : StMeta F)
    (h : m.There ck fs) :
    readAll (stCodec ck F fs) ((ms ++ [m]).foldl (fun f m => overwrite f ((stCodec ck F fs).enc m)) file) = some m := by
  rw [List.foldl_append]
  exact readAll_overwrite (reads_st h) _

/-- **C60, metadata, leveled.** -/
theorem C60_leveled [LinearOrder K] (ck : Codec K) (F : Filter K) (fs : Fs) (file : List UInt8) (ms : List (LvMeta F))
    (m : LvMeta F) (h : m.There ck fs) :
    readAll (lvCodec ck F fs) ((ms ++ [m]).foldl (fun f m => overwrite f ((lvCodec ck F fs).enc m)) file) = some m := by
  rw [List.foldl_append]
  exact readAll_overwrite (reads_lv h) _

/-- **C60, from the entries to the answers.**  Let some ascending lists of entries have been written as tables into
directories, and let the metadata naming these directories have been written over any older contents.  Then opening
succeeds, and the opened tables, in the same order, return the entries written to them and nothing else. -/
theorem C60_answers [LinearOrder K] (ck : Codec K) (cv : Codec V) (F : Filter K) (search : Search K) (blockSize hint : Nat)
    (fs : Fs) (file : List UInt8) (tabs : List (Path × List (Ent K V))) (nums : Fin 5 → Nat)
    (hn : ∀ i, nums i < 2 ^ 64) (hc : tabs.length < 2 ^ 64)
    (hd : ∀ t ∈ tabs, t.1.length < 2 ^ 64 ∧ t.2 ≠ [] ∧ t.2.Pairwise (fun a b => a.1 < b.1) ∧
      fs t.1 = write ck cv F blockSize hint t.2 ∧ ∀ f, fs t.1 = some f → Storable ck cv t.2 f) :
    ∃ m : StMeta F, m.tables.map Ref.path = tabs.map Prod.fst ∧
      [m.maxMem, m.maxCount, m.minSize, m.low, m.high] = List.ofFn nums ∧
      readAll (stCodec ck F fs) (overwrite file ((stCodec ck F fs).enc m)) = some m ∧
      List.Forall₂ (fun (r : Ref F) t => r.handle.scan ck cv = some t.2 ∧
        ∀ k, r.handle.get ck cv search k = some ((SL.find k t.2).map (·.2))) m.tables tabs := by
  have key : ∀ tabs : List (Path × List (Ent K V)), (∀ t ∈ tabs, t.1.length < 2 ^ 64 ∧ t.2 ≠ [] ∧
      t.2.Pairwise (fun a b => a.1 < b.1) ∧
      fs t.1 = write ck cv F blockSize hint t.2 ∧ ∀ f, fs t.1 = some f → Storable ck cv t.2 f) →
      ∃ rs : List (Ref F), rs.map Ref.path = tabs.map Prod.fst ∧ (∀ r ∈ rs, r.There ck fs) ∧
        List.Forall₂ (fun (r : Ref F) t => r.handle.scan ck cv = some t.2 ∧
          ∀ k, r.handle.get ck cv search k = some ((SL.find k t.2).map (·.2))) rs tabs := by
    intro tabs
    induction tabs with
    | nil => intro _; exact ⟨[], rfl, by simp, .nil⟩
    | cons t tabs ih =>
      intro h
      obtain ⟨rs, h1, h2, h3⟩ := ih fun t ht => h t (.tail _ ht)
      obtain ⟨a1, a2, a3, a4, a5⟩ := h t List.mem_cons_self
      obtain ⟨f, hw, hf⟩ := C42_sstable ck cv F search blockSize hint t.2 a2 a3
      rw [hw] at a4
      obtain ⟨hd, ho, g1, g2, g3, -⟩ := hf (a5 f a4)
      refine ⟨⟨t.1, hd⟩ :: rs, by simp [h1], ?_, .cons ⟨g3, fun k => ?_⟩ h3⟩
      · intro r hr
        rcases List.mem_cons.1 hr with rfl | hr
        · exact ⟨a1, by simp only [a4, Option.bind_some]; exact ho⟩
        · exact h2 r hr
      · cases hk : SL.find k t.2 with
        | none => exact g2 k fun v hv => SL.find_eq_none.1 hk _ hv rfl
        | some v =>
          obtain ⟨k', v⟩ := v
          have := SL.find_some_key hk
          simp only at this
          subst this
          exact g1 _ v (SL.find_some_mem hk)
  obtain ⟨rs, h1, h2, h3⟩ := key tabs hd
  have hl : rs.length = tabs.length := by simpa using congrArg List.length h1
  refine ⟨⟨nums 0, nums 1, nums 2, nums 3, nums 4, rs⟩, h1, by simp [List.ofFn_succ], ?_, h3⟩
  refine readAll_overwrite (reads_st ⟨?_, hl ▸ hc, h2⟩) _
  intro n hn'
  simp only [List.mem_cons, List.not_mem_nil, or_false] at hn'
  rcases hn' with rfl | rfl | rfl | rfl | rfl <;> exact hn _

/-! ### The logical time -/

theorem readTime_be64 {t : Nat} (h : t < 2 ^ 64) (rest : List UInt8) : readTime (be64 t ++ rest) = some t := by
  have h8 := length_be64 t
  rw [readTime, if_neg (by simp [h8]), List.take_append_of_le_length (by omega), List.take_of_length_le (by omega), be64,
    List.reverse_reverse]
  have := decInt_encInt 8 t (by simpa using h) []
  rw [List.append_nil] at this
  rw [this]; rfl

/-- **C60, logical time.**  Opening continues with the time written last. -/
theorem C60_time (file : List UInt8) (ts : List Nat) (t : Nat) (h : t < 2 ^ 64) :
    readTime ((ts ++ [t]).foldl writeTime file) = some t := by
  rw [List.foldl_append]
  exact readTime_be64 h _

theorem take_encInt : ∀ (i n x : Nat), i ≤ n → (encInt' n x).take i = encInt' i x
  | 0, _, _, _ => by simp [encInt']
  | i + 1, 0, _, h => by omega
  | i + 1, n + 1, x, h => by simp [encInt', take_encInt i n _ (by omega)]

theorem drop_encInt : ∀ (i n x : Nat), i ≤ n → (encInt' n x).drop i = encInt' (n - i) (x / 256 ^ i)
  | 0, _, _, _ => by simp
  | i + 1, 0, _, h => by omega
  | i + 1, n + 1, x, h => by
    rw [encInt', List.drop_succ_cons, drop_encInt i n _ (by omega), Nat.div_div_eq_div_mul, Nat.add_sub_add_right,
      Nat.pow_succ, Nat.mul_comm]

theorem append_encInt : ∀ (i k x y : Nat), encInt' i x ++ encInt' k y = encInt' (i + k) (x % 256 ^ i + 256 ^ i * y)
  | 0, k, x, y => by simp [encInt', Nat.mod_one]
  | i + 1, k, x, y => by
    have h1 : (x % 256 ^ (i + 1) + 256 ^ (i + 1) * y) % 256 = x % 256 := by
      rw [Nat.pow_succ, Nat.mul_comm (256 ^ i) 256, Nat.mul_assoc, Nat.add_mul_mod_self_left, Nat.mod_mul_right_mod]
    have h2 : (x % 256 ^ (i + 1) + 256 ^ (i + 1) * y) / 256 = x / 256 % 256 ^ i + 256 ^ i * y := by
      rw [Nat.pow_succ, Nat.mul_comm (256 ^ i) 256, Nat.mul_assoc, Nat.add_mul_div_left _ _ (by decide),
        Nat.mod_mul_right_div_self]
    rw [show i + 1 + k = (i + k) + 1 by omega, encInt', encInt', h1, h2, List.cons_append, append_encInt i k]

theorem torn_be64 {t n j : Nat} (hj : j ≤ 8) :
    torn (be64 t) (be64 n) j = be64 (t % 256 ^ (8 - j) + 256 ^ (8 - j) * (n / 256 ^ (8 - j))) := by
  have hl : ((be64 n).take j).length = j := by simp [length_be64, hj]
  rw [torn, overwrite, hl, be64, be64, be64, List.take_reverse, List.drop_reverse, length_encInt, length_encInt,
    ← List.reverse_append, take_encInt _ _ _ (by omega), drop_encInt _ _ _ (by omega), append_encInt]
  congr 2
  omega

/-- **C62 (partial), logical time.**  If writing a later time is cut off after any number of bytes, the file holds a time that is
not earlier than the old one.  (The most significant byte is written first; with the least significant byte first this
would be false, see `little_endian_fails`.) -/
theorem C62_time_torn_partial {t n : Nat} (htn : t ≤ n) (hn : n < 2 ^ 64) (j : Nat) :
    ∃ s, readTime (torn (be64 t) (be64 n) j) = some s ∧ t ≤ s ∧ s < 2 ^ 64 := by
  rcases Nat.lt_or_ge 8 j with hj | hj
  · refine ⟨n, ?_, htn, hn⟩
    rw [torn, List.take_of_length_le (by rw [length_be64]; omega)]
    exact readTime_be64 hn _
  · rw [torn_be64 hj]
    have hm : 0 < 256 ^ (8 - j) := Nat.pow_pos (by decide)
    have h1 : t % 256 ^ (8 - j) + 256 ^ (8 - j) * (t / 256 ^ (8 - j)) = t := Nat.mod_add_div _ _
    have h2 : t / 256 ^ (8 - j) ≤ n / 256 ^ (8 - j) := Nat.div_le_div_right htn
    have h3 := Nat.mul_le_mul_left (256 ^ (8 - j)) h2
    have h4 : t % 256 ^ (8 - j) < 256 ^ (8 - j) := Nat.mod_lt _ hm
    have h5 : t % 256 ^ (8 - j) + 256 ^ (8 - j) * (n / 256 ^ (8 - j)) < 2 ^ 64 := by
      have e : (2 : Nat) ^ 64 = 256 ^ (8 - j) * 256 ^ j := by
        rw [← Nat.pow_add, Nat.sub_add_cancel hj]
      have : n / 256 ^ (8 - j) < 256 ^ j := by
        rw [Nat.div_lt_iff_lt_mul hm, Nat.mul_comm, ← e]; exact hn
      have h6 : 256 ^ (8 - j) * (n / 256 ^ (8 - j) + 1) ≤ 256 ^ (8 - j) * 256 ^ j := Nat.mul_le_mul_left _ this
      rw [Nat.mul_add, Nat.mul_one] at h6
      omega
    refine ⟨_, ?_, ?_, h5⟩
    · have := readTime_be64 h5 []
      rwa [List.append_nil] at this
    · omega

/-- The very first time has nothing below it: cut off, it cannot be read. -/
theorem C62_first_time_torn (n j : Nat) (hj : j < 8) : readTime (torn [] (be64 n) j) = none := by
  rw [readTime, if_pos]
  simp [torn, overwrite, length_be64]
  omega

/-- Writing 255 and then 256 with the least significant byte first: a cut after one byte leaves 0. -/
theorem little_endian_fails : (decInt 8 (torn (encInt' 8 255) (encInt' 8 256) 1)).map (·.1) = some 0 := by decide

example : readTime (torn (be64 255) (be64 256) 7) = some 511 := by decide

/-! ### Missing directories -/

theorem decMany_none {α : Type} {c : Codec α} {l l' : List α} {x : α} {rest : List UInt8} (hl : ∀ y ∈ l, c.Reads y)
    (hx : ∀ r, c.dec (c.enc x ++ r) = none) : decMany c (l ++ x :: l').length ((l ++ x :: l').flatMap c.enc ++ rest) = none := by
  induction l with
  | nil => simp [decMany, hx]
  | cons y l ih =>
    simp only [List.cons_append, List.length_cons, List.flatMap_cons, decMany, List.append_assoc]
    rw [hl y List.mem_cons_self]
    have := ih fun y hy => hl y (.tail _ hy)
    simp only [List.length_append, List.length_cons, List.flatMap_append, List.flatMap_cons, List.append_assoc] at this
    simp [this]

theorem boxed_none {α : Type} {c : Codec α} {l l' : List α} {x : α} (hl : ∀ y ∈ l, c.Reads y)
    (hn : (l ++ x :: l').length < 2 ^ 64)
    (hx : ∀ r, c.dec (c.enc x ++ r) = none) (rest : List UInt8) : (boxed c).dec ((boxed c).enc (l ++ x :: l') ++ rest) = none := by
  simp only [boxed, List.append_assoc]
  rw [reads_u64 hn]
  simp only [Option.bind_some]
  exact decMany_none hl hx

/-- A table whose directory is gone, or cannot be opened, cannot be read. -/
theorem ref_none {ck : Codec K} {F : Filter K} {fs : Fs} {t : Ref F} (h : t.path.length < 2 ^ 64)
    (hf : (fs t.path).bind (Handle.open ck F) = none) (r : List UInt8) :
    (refCodec ck F fs).dec ((refCodec ck F fs).enc t ++ r) = none := by
  simp only [refCodec]
  rw [reads_path h]
  simp only [Option.bind_some, hf, Option.map_none]

theorem first_gone {ck : Codec K} {F : Filter K} {fs : Fs} : ∀ {l : List (Ref F)}, (∀ t ∈ l, t.path.length < 2 ^ 64) →
    (∀ t ∈ l, (fs t.path).bind (Handle.open ck F) = some t.handle ∨ (fs t.path).bind (Handle.open ck F) = none) →
    (∃ t ∈ l, (fs t.path).bind (Handle.open ck F) = none) →
    ∃ a t b, l = a ++ t :: b ∧ (∀ y ∈ a, (refCodec ck F fs).Reads y) ∧
      ∀ r, (refCodec ck F fs).dec ((refCodec ck F fs).enc t ++ r) = none := by
  intro l hs hf hg
  induction l with
  | nil => simp at hg
  | cons t l ih =>
    rcases hf t List.mem_cons_self with h | h
    · obtain ⟨x, hx, hxn⟩ := hg
      rcases List.mem_cons.1 hx with rfl | hx
      · rw [h] at hxn; cases hxn
      · obtain ⟨a, u, b, rfl, h1, h2⟩ := ih (fun t ht => hs t (.tail _ ht)) (fun t ht => hf t (.tail _ ht)) ⟨x, hx, hxn⟩
        refine ⟨t :: a, u, b, rfl, ?_, h2⟩
        intro y hy
        rcases List.mem_cons.1 hy with rfl | hy
        · exact reads_ref ⟨hs _ List.mem_cons_self, h⟩
        · exact h1 y hy
    · exact ⟨[], t, l, rfl, by simp, ref_none (hs t List.mem_cons_self) h⟩

/-- **C60, missing directories.**  If the directory of one of the tables is gone, the map cannot be opened at all. -/
theorem C60_missing (ck : Codec K) (F : Filter K) (fs : Fs) (file : List UInt8) (m : StMeta F)
    (hn : ∀ n ∈ [m.maxMem, m.maxCount, m.minSize, m.low, m.high], n < 2 ^ 64) (hc : m.tables.length < 2 ^ 64)
    (hs : ∀ t ∈ m.tables, t.path.length < 2 ^ 64)
    (ht : ∀ t ∈ m.tables, (fs t.path).bind (Handle.open ck F) = some t.handle ∨ (fs t.path).bind (Handle.open ck F) = none)
    (hg : ∃ t ∈ m.tables, (fs t.path).bind (Handle.open ck F) = none) :
    readAll (stCodec ck F fs) (overwrite file ((stCodec ck F fs).enc m)) = none := by
  obtain ⟨a, t, b, e, h1, h2⟩ := first_gone hs ht hg
  simp only [List.mem_cons, List.not_mem_nil, or_false, forall_eq_or_imp, forall_eq] at hn
  obtain ⟨n1, n2, n3, n4, n5⟩ := hn
  simp only [readAll, overwrite, stCodec, List.append_assoc]
  rw [reads_u64 n1]; simp only [Option.bind_some]
  rw [reads_u64 n2]; simp only [Option.bind_some]
  rw [reads_u64 n3]; simp only [Option.bind_some]
  rw [reads_u64 n4]; simp only [Option.bind_some]
  rw [reads_u64 n5]; simp only [Option.bind_some]
  rw [e] at hc ⊢
  rw [boxed_none h1 hc h2]
  rfl

theorem decMany_short {α : Type} {c : Codec α} (h0 : c.dec [] = none) : ∀ {l : List α}, (∀ y ∈ l, c.Reads y) →
    decMany c (l.length + 1) (l.flatMap c.enc) = none := by
  intro l hl
  induction l with
  | nil => simp [decMany, h0]
  | cons y l ih =>
    simp only [List.length_cons, List.flatMap_cons]
    rw [decMany, hl y List.mem_cons_self]
    have := ih fun y hy => hl y (.tail _ hy)
    simp [this]

/-- **C62 (violated).**  Let the file hold exactly the metadata `m`, and let the write that adds a table
to it be cut off after 48 bytes, when the parameters and the new number of tables are written.  Then the map cannot be
opened, although all its tables are there. -/
theorem C62_torn_violated (ck : Codec K) (F : Filter K) (fs : Fs) (m : StMeta F) (t : Ref F) (h : m.There ck fs)
    (hc : m.tables.length + 1 < 2 ^ 64) :
    readAll (stCodec ck F fs) (torn ((stCodec ck F fs).enc m) ((stCodec ck F fs).enc { m with tables := m.tables ++ [t] }) 48)
      = none := by
  have hn := h.nums
  simp only [List.mem_cons, List.not_mem_nil, or_false, forall_eq_or_imp, forall_eq] at hn
  obtain ⟨n1, n2, n3, n4, n5⟩ := hn
  have e1 : ∀ n rest, (u64.enc m.maxMem ++ (u64.enc m.maxCount ++ (u64.enc m.minSize ++ (u64.enc m.low ++ (u64.enc m.high ++
      (u64.enc n ++ rest)))))) = (u64.enc m.maxMem ++ (u64.enc m.maxCount ++ (u64.enc m.minSize ++ (u64.enc m.low ++
        (u64.enc m.high ++ u64.enc n))))) ++ rest := by simp
  have e2 : ∀ n, (u64.enc m.maxMem ++ (u64.enc m.maxCount ++ (u64.enc m.minSize ++ (u64.enc m.low ++
        (u64.enc m.high ++ u64.enc n))))).length = 48 := by simp [length_u64]
  have e3 : torn ((stCodec ck F fs).enc m) ((stCodec ck F fs).enc { m with tables := m.tables ++ [t] }) 48 =
      u64.enc m.maxMem ++ (u64.enc m.maxCount ++ (u64.enc m.minSize ++ (u64.enc m.low ++ (u64.enc m.high ++
        (u64.enc (m.tables.length + 1) ++ m.tables.flatMap (refCodec ck F fs).enc))))) := by
    simp only [torn, overwrite, stCodec, boxed, List.length_append, List.length_singleton]
    rw [e1, e1, e1, List.take_left' (e2 _), e2, List.drop_left' (e2 _)]
  rw [e3]
  simp only [readAll, stCodec]
  rw [reads_u64 n1]; simp only [Option.bind_some]
  rw [reads_u64 n2]; simp only [Option.bind_some]
  rw [reads_u64 n3]; simp only [Option.bind_some]
  rw [reads_u64 n4]; simp only [Option.bind_some]
  rw [reads_u64 n5]; simp only [Option.bind_some]
  simp only [boxed]
  rw [reads_u64 hc]; simp only [Option.bind_some]
  rw [decMany_short (by rfl) fun t ht => reads_ref (h.tables t ht)]
  rfl

theorem decMany_length {α : Type} {c : Codec α} : ∀ {n : Nat} {bs : List UInt8} {l r}, decMany c n bs = some (l, r) → l.length = n
  | 0, bs, l, r, h => by simp only [decMany, Option.some.injEq, Prod.mk.injEq] at h; rw [← h.1]; rfl
  | n + 1, bs, l, r, h => by
    simp only [decMany, Option.bind_eq_some_iff, Option.map_eq_some_iff] at h
    obtain ⟨⟨x, r1⟩, -, ⟨l', r2⟩, h2, h3⟩ := h
    simp only [Prod.mk.injEq] at h3
    rw [← h3.1, List.length_cons, decMany_length h2]

theorem decInt_short : ∀ {n : Nat} {bs : List UInt8}, bs.length < n → decInt n bs = none
  | 0, _, h => by omega
  | _ + 1, [], _ => rfl
  | n + 1, b :: bs, h => by
    rw [decInt, decInt_short (by simpa using h)]
    rfl

theorem many_u8_short : ∀ {n : Nat} {bs : List UInt8}, bs.length < n → decMany u8 n bs = none
  | 0, _, h => by omega
  | _ + 1, [], _ => rfl
  | n + 1, b :: bs, h => by
    simp [decMany, u8]
    exact many_u8_short (by simpa using h)

theorem flatMap_u8 (p : Path) : p.flatMap u8.enc = p := by
  induction p with
  | nil => rfl
  | cons b p ih => rw [List.flatMap_cons, ih]; rfl

/-- A reference cut short cannot be read. -/
theorem ref_short {ck : Codec K} {F : Filter K} {fs : Fs} {t : Ref F} {q : Nat} (hs : t.path.length < 2 ^ 64)
    (hq : q < ((refCodec ck F fs).enc t).length) : (refCodec ck F fs).dec (((refCodec ck F fs).enc t).take q) = none := by
  have e : (refCodec ck F fs).enc t = u64.enc t.path.length ++ t.path := by simp only [refCodec, boxed, flatMap_u8]
  rw [e] at hq ⊢
  rw [List.length_append, length_u64] at hq
  have : (boxed u8).dec ((u64.enc t.path.length ++ t.path).take q) = none := by
    simp only [boxed]
    rcases Nat.lt_or_ge q 8 with h8 | h8
    · have : u64.dec ((u64.enc t.path.length ++ t.path).take q) = none :=
        decInt_short (by rw [List.length_take]; omega)
      rw [this]; rfl
    · rw [List.take_append, List.take_of_length_le (by rw [length_u64]; omega), length_u64, reads_u64 hs]
      simp only [Option.bind_some]
      exact many_u8_short (by rw [List.length_take]; omega)
  simp only [refCodec]
  rw [this]; rfl

theorem decMany_cut {α : Type} {c : Codec α} {bs : List UInt8} (h0 : c.dec bs = none) : ∀ {l : List α}, (∀ y ∈ l, c.Reads y) →
    decMany c (l.length + 1) (l.flatMap c.enc ++ bs) = none := by
  intro l hl
  induction l with
  | nil => simp [decMany, h0]
  | cons y l ih =>
    simp only [List.length_cons, List.flatMap_cons, List.append_assoc]
    rw [decMany, hl y List.mem_cons_self]
    have := ih fun y hy => hl y (.tail _ hy)
    simp [this]

theorem torn_append {h x y : List UInt8} {j : Nat} (hj : h.length ≤ j) : torn (h ++ x) (h ++ y) j = h ++ torn x y (j - h.length) := by
  simp only [torn, overwrite]
  rw [List.take_append, List.take_of_length_le hj, List.length_append, List.drop_append, List.drop_of_length_le (by omega),
    List.append_assoc, List.nil_append, Nat.add_sub_cancel_left]

theorem torn_count {n i : Nat} (hi : i ≤ 8) (x y : List UInt8) : torn (u64.enc n ++ x) (u64.enc (n + 1) ++ y) i =
    u64.enc ((n + 1) % 256 ^ i + 256 ^ i * (n / 256 ^ i)) ++ x := by
  have hl : ((u64.enc (n + 1) ++ y).take i).length = i := by rw [List.length_take, List.length_append, length_u64]; omega
  rw [torn, overwrite, hl, List.take_append_of_le_length (by rw [length_u64]; omega),
    List.drop_append_of_le_length (by rw [length_u64]; omega), ← List.append_assoc]
  congr 1
  simp only [u64]
  rw [take_encInt _ _ _ (by omega), drop_encInt _ _ _ (by omega), append_encInt, Nat.add_sub_cancel' hi]

/-- **C62 (exact) for a new table.**  Let the file hold exactly the metadata `m`, let all tables be there, and let the write
that adds the table `t` be cut off after `j` bytes.  Opening gives the old or the new metadata exactly if the cut is
within the parameters, which do not change, or at the end. -/
theorem C62_push_exact (ck : Codec K) (F : Filter K) (fs : Fs) (m : StMeta F) (t : Ref F)
    (h : ({ m with tables := m.tables ++ [t] } : StMeta F).There ck fs) (j : Nat) :
    (readAll (stCodec ck F fs) (torn ((stCodec ck F fs).enc m) ((stCodec ck F fs).enc { m with tables := m.tables ++ [t] }) j)
        = some m ∨
      readAll (stCodec ck F fs) (torn ((stCodec ck F fs).enc m) ((stCodec ck F fs).enc { m with tables := m.tables ++ [t] }) j)
        = some { m with tables := m.tables ++ [t] }) ↔
      j ≤ 40 ∨ ((stCodec ck F fs).enc { m with tables := m.tables ++ [t] }).length ≤ j := by
  have hn := h.nums
  simp only [List.mem_cons, List.not_mem_nil, or_false, forall_eq_or_imp, forall_eq] at hn
  obtain ⟨n1, n2, n3, n4, n5⟩ := hn
  have hcount : m.tables.length + 1 < 2 ^ 64 := by simpa using h.count
  have hthere : ∀ u ∈ m.tables, u.There ck fs := fun u hu => h.tables u (by simp [hu])
  have ht : t.There ck fs := h.tables t (by simp)
  have hm : m.There ck fs := ⟨h.nums, by omega, hthere⟩
  generalize hB : refCodec ck F fs = B at *
  let hd := u64.enc m.maxMem ++ (u64.enc m.maxCount ++ (u64.enc m.minSize ++ (u64.enc m.low ++ u64.enc m.high)))
  have hhd : hd.length = 40 := by simp [hd, length_u64]
  have enc : ∀ ts, (stCodec ck F fs).enc { m with tables := ts } = hd ++ (boxed B).enc ts := by
    intro ts; simp [stCodec, hd, hB]
  have enc0 : (stCodec ck F fs).enc m = hd ++ (boxed B).enc m.tables := enc m.tables
  have dec : ∀ bs, readAll (stCodec ck F fs) (hd ++ bs) =
      ((boxed B).dec bs).map fun x => { m with tables := x.1 } := by
    intro bs
    simp only [readAll, stCodec, hd, List.append_assoc, hB]
    rw [reads_u64 n1]; simp only [Option.bind_some]
    rw [reads_u64 n2]; simp only [Option.bind_some]
    rw [reads_u64 n3]; simp only [Option.bind_some]
    rw [reads_u64 n4]; simp only [Option.bind_some]
    rw [reads_u64 n5]; simp only [Option.bind_some]
    cases (boxed B).dec bs <;> rfl
  have readsOld : readAll (stCodec ck F fs) ((stCodec ck F fs).enc m) = some m := by
    have := readAll_overwrite (reads_st hm) []
    simpa [overwrite] using this
  constructor
  · intro hor
    by_contra hc
    rw [not_or, not_le, not_le] at hc
    obtain ⟨hj, hj'⟩ := hc
    rw [enc0, enc (m.tables ++ [t]), torn_append (by omega), dec, hhd] at hor
    rw [enc (m.tables ++ [t]), List.length_append, hhd] at hj'
    obtain ⟨i, rfl⟩ : ∃ i, j = 40 + (i + 1) := ⟨j - 41, by omega⟩
    rw [Nat.add_sub_cancel_left] at hor
    have hlen : (boxed B).dec (torn ((boxed B).enc m.tables) ((boxed B).enc (m.tables ++ [t])) (i + 1)) = none ∨
        ∃ l r, (boxed B).dec (torn ((boxed B).enc m.tables) ((boxed B).enc (m.tables ++ [t])) (i + 1)) = some (l, r) ∧
          l.length ≠ m.tables.length ∧ l.length ≠ m.tables.length + 1 := by
      have e : ∀ ts : List (Ref F), (boxed B).enc ts = u64.enc ts.length ++ ts.flatMap B.enc := fun _ => rfl
      rw [e, e, List.length_append, List.length_singleton]
      rcases le_or_gt (i + 1) 8 with h8 | h8
      · rw [torn_count h8]
        generalize hc : (m.tables.length + 1) % 256 ^ (i + 1) + 256 ^ (i + 1) * (m.tables.length / 256 ^ (i + 1)) = c
        have hc' : c ≠ m.tables.length ∧ c < 2 ^ 64 := by
          have hp : 1 < 256 ^ (i + 1) := Nat.one_lt_pow (by omega) (by decide)
          have q1 := Nat.div_add_mod m.tables.length (256 ^ (i + 1))
          have q2 := Nat.mod_lt m.tables.length (Nat.lt_trans Nat.zero_lt_one hp)
          have q3 : (m.tables.length + 1) % 256 ^ (i + 1) =
              if m.tables.length % 256 ^ (i + 1) + 1 = 256 ^ (i + 1) then 0 else m.tables.length % 256 ^ (i + 1) + 1 := by
            rw [← Nat.mod_add_mod]
            split
            · next h => rw [h, Nat.mod_self]
            · next h => exact Nat.mod_eq_of_lt (by omega)
          split at q3 <;> constructor <;> omega
        simp only [boxed]
        rw [reads_u64 hc'.2]
        simp only [Option.bind_some]
        by_cases hcn : c = m.tables.length + 1
        · left
          rw [hcn]
          have := decMany_cut (c := B) (bs := []) (by rw [← hB]; rfl) (l := m.tables)
            fun u hu => by rw [← hB]; exact reads_ref (hthere u hu)
          rwa [List.append_nil] at this
        · cases hdm : decMany B c (m.tables.flatMap B.enc) with
          | none => exact .inl rfl
          | some x =>
            obtain ⟨l, r⟩ := x
            have := decMany_length hdm
            exact .inr ⟨l, r, rfl, by omega, by omega⟩
      · left
        have e2 : torn (u64.enc m.tables.length ++ m.tables.flatMap B.enc)
            (u64.enc (m.tables.length + 1) ++ (m.tables ++ [t]).flatMap B.enc) (i + 1) =
            u64.enc (m.tables.length + 1) ++ (m.tables.flatMap B.enc ++
              (B.enc t).take (i + 1 - 8 - (m.tables.flatMap B.enc).length)) := by
          simp only [torn, overwrite, List.flatMap_append, List.flatMap_cons, List.flatMap_nil, List.append_nil]
          rw [List.take_append, List.take_of_length_le (by rw [length_u64]; omega), length_u64, List.take_append,
            List.length_append, length_u64, List.drop_append, List.drop_of_length_le (by rw [length_u64]; omega), length_u64,
            List.nil_append, Nat.add_sub_cancel_left]
          simp only [List.append_assoc]
          congr 1
          rcases le_or_gt (m.tables.flatMap B.enc).length (i + 1 - 8) with h9 | h9
          · rw [List.take_of_length_le h9, List.drop_of_length_le (by rw [List.length_append]; omega), List.append_nil]
          · rw [show i + 1 - 8 - (m.tables.flatMap B.enc).length = 0 by omega, List.take_zero, List.nil_append, List.append_nil,
              List.append_nil, List.length_take, Nat.min_eq_left (by omega), List.take_append_drop]
        rw [e2]
        simp only [boxed]
        rw [reads_u64 hcount]
        simp only [Option.bind_some]
        refine decMany_cut ?_ fun u hu => by rw [← hB]; exact reads_ref (hthere u hu)
        rw [e, List.length_append, length_u64, List.flatMap_append, List.length_append] at hj'
        simp only [List.flatMap_cons, List.flatMap_nil, List.append_nil] at hj'
        subst hB
        have hpos : 0 < ((refCodec ck F fs).enc t).length := by
          simp only [refCodec, boxed, List.length_append, length_u64]; omega
        exact ref_short ht.short (by omega)
    rcases hlen with hl | ⟨l, r, hl, l1, l2⟩
    · rw [hl] at hor
      rcases hor with h | h <;> cases h
    · rw [hl] at hor
      simp only [Option.map_some, Option.some.injEq] at hor
      rcases hor with h | h
      · exact l1 (congrArg (fun x : StMeta F => x.tables.length) h)
      · have := congrArg (fun x : StMeta F => x.tables.length) h
        simp only [List.length_append, List.length_singleton] at this
        exact l2 this
  · rintro (hj | hj)
    · left
      have : torn ((stCodec ck F fs).enc m) ((stCodec ck F fs).enc { m with tables := m.tables ++ [t] }) j =
          (stCodec ck F fs).enc m := by
        rw [enc0, enc (m.tables ++ [t]), torn, overwrite, List.take_append_of_le_length (by omega), List.length_take, Nat.min_eq_left (by omega),
          List.drop_append_of_le_length (by omega), ← List.append_assoc, List.take_append_drop]
      rw [this]
      exact readsOld
    · right
      rw [torn, List.take_of_length_le hj]
      exact readAll_overwrite (reads_st h) _

/-! ### Moving the directory (C61) -/

/-- `mv a b`: what was below `a` is below `b`; `47` is the slash. -/
def move (a b : Path) (fs : Fs) : Fs := fun q =>
  if b ++ [47] <+: q then fs (a ++ q.drop b.length)
  else if a ++ [47] <+: q then none
  else fs q

/-- **C61 (violated).**  The metadata holds the paths of the tables as given when they were written, not relative to the
directory of the map.  So a map with at least one table, whose tables are in its directory `a`, cannot be opened once
that directory was moved to another place. -/
theorem C61_moved_violated (ck : Codec K) (F : Filter K) (fs : Fs) (file : List UInt8) (a b : Path) (m : StMeta F)
    (h : m.There ck fs) (hne : m.tables ≠ []) (hin : ∀ t ∈ m.tables, a ++ [47] <+: t.path)
    (hb : ¬ a ++ [47] <+: b ++ [47]) (hb' : ¬ b ++ [47] <+: a ++ [47]) :
    readAll (stCodec ck F (move a b fs)) (overwrite file ((stCodec ck F fs).enc m)) = none := by
  have hgone : ∀ t ∈ m.tables, (move a b fs t.path).bind (Handle.open ck F) = none := by
    intro t ht
    have h1 := hin t ht
    have h2 : ¬ b ++ [47] <+: t.path := fun hx => by
      rcases List.prefix_or_prefix_of_prefix h1 hx with h | h
      · exact hb h
      · exact hb' h
    rw [move, if_neg h2, if_pos h1]
    rfl
  obtain ⟨t, ht⟩ := List.exists_mem_of_ne_nil _ hne
  exact C60_missing ck F (move a b fs) file m h.nums h.count (fun t ht => (h.tables t ht).short)
    (fun t ht => .inr (hgone t ht)) ⟨t, ht, hgone t ht⟩

/-- **C61 (partial).**  A map can be opened in its new place exactly if it has no tables yet. -/
theorem C61_moved_partial (ck : Codec K) (F : Filter K) (fs : Fs) (file : List UInt8) (a b : Path) (m : StMeta F)
    (h : m.There ck fs) (hin : ∀ t ∈ m.tables, a ++ [47] <+: t.path)
    (hb : ¬ a ++ [47] <+: b ++ [47]) (hb' : ¬ b ++ [47] <+: a ++ [47]) :
    readAll (stCodec ck F (move a b fs)) (overwrite file ((stCodec ck F fs).enc m)) = some m ↔ m.tables = [] := by
  constructor
  · intro he
    by_contra hne
    rw [C61_moved_violated ck F fs file a b m h hne hin hb hb'] at he
    cases he
  · intro he
    have : m.There ck (move a b fs) := ⟨h.nums, h.count, by rw [he]; simp⟩
    exact readAll_overwrite (reads_st this) file

theorem moved_none {ck : Codec K} {F : Filter K} {fs : Fs} {a b : Path} {t : Ref F} (hs : t.path.length < 2 ^ 64)
    (hin : a ++ [47] <+: t.path) (hb : ¬ a ++ [47] <+: b ++ [47]) (hb' : ¬ b ++ [47] <+: a ++ [47]) (r : List UInt8) :
    (refCodec ck F (move a b fs)).dec ((refCodec ck F fs).enc t ++ r) = none := by
  refine ref_none (fs := move a b fs) hs ?_ r
  have h2 : ¬ b ++ [47] <+: t.path := fun hx => by
    rcases List.prefix_or_prefix_of_prefix hin hx with h | h
    · exact hb h
    · exact hb' h
  rw [move, if_neg h2, if_pos hin]
  rfl

/-- **C61 (partial), leveled.** -/
theorem C61_moved_leveled_partial [LinearOrder K] (ck : Codec K) (F : Filter K) (fs : Fs) (file : List UInt8) (a b : Path)
    (m : LvMeta F) (h : m.There ck fs) (hin : ∀ t ∈ m.tables, a ++ [47] <+: t.path)
    (hin' : ∀ l ∈ m.levels, ∀ e ∈ l, a ++ [47] <+: e.2.path)
    (hb : ¬ a ++ [47] <+: b ++ [47]) (hb' : ¬ b ++ [47] <+: a ++ [47]) :
    readAll (lvCodec ck F (move a b fs)) (overwrite file ((lvCodec ck F fs).enc m)) = some m ↔
      m.tables = [] ∧ ∀ l ∈ m.levels, l = [] := by
  have hn := h.nums
  simp only [List.mem_cons, List.not_mem_nil, or_false, forall_eq_or_imp, forall_eq] at hn
  obtain ⟨n1, n2, n3, n4, n5⟩ := hn
  constructor
  · intro he
    simp only [readAll, overwrite, lvCodec, List.append_assoc] at he
    rw [reads_u64 n1] at he; simp only [Option.bind_some] at he
    rw [reads_u64 n2] at he; simp only [Option.bind_some] at he
    rw [reads_u64 n3] at he; simp only [Option.bind_some] at he
    rw [reads_u64 n4] at he; simp only [Option.bind_some] at he
    rw [reads_u64 n5] at he; simp only [Option.bind_some] at he
    have ht : m.tables = [] := by
      by_contra hne
      obtain ⟨t, l, e⟩ := List.exists_cons_of_ne_nil hne
      have hc := h.count
      have : (boxed (refCodec ck F (move a b fs))).dec ((boxed (refCodec ck F fs)).enc m.tables ++
          ((boxed (treeCodec ck (refCodec ck F fs))).enc m.levels ++ file.drop ((lvCodec ck F fs).enc m).length)) = none := by
        rw [e] at hc ⊢
        exact boxed_none (l := []) (c := refCodec ck F (move a b fs)) (by simp) hc
          (moved_none (h.tables t (e ▸ List.mem_cons_self)).short (hin t (e ▸ List.mem_cons_self)) hb hb') _
      simp only [lvCodec, List.append_assoc] at this
      rw [this] at he
      cases he
    refine ⟨ht, ?_⟩
    by_contra hne
    have hl := h.levels
    rw [ht] at he
    have e0 : ∀ rest, (boxed (refCodec ck F (move a b fs))).dec ((boxed (refCodec ck F fs)).enc [] ++ rest) = some ([], rest) :=
      fun rest => reads_boxed (c := refCodec ck F (move a b fs)) (l := []) (by simp) (by simp) rest
    rw [e0] at he
    simp only [Option.bind_some] at he
    have hsplit : ∃ x l y, m.levels = x ++ l :: y ∧ (∀ z ∈ x, z = []) ∧ l ≠ [] := by
      clear he hl
      push Not at hne
      obtain ⟨l, hl, hln⟩ := hne
      have : ∀ ls : List (List (K × Ref F)), l ∈ ls → ∃ x l y, ls = x ++ l :: y ∧ (∀ z ∈ x, z = []) ∧ l ≠ [] := by
        intro ls
        induction ls with
        | nil => simp
        | cons c ls ih =>
          intro hm
          by_cases hc : c = []
          · rcases List.mem_cons.1 hm with rfl | hm
            · exact absurd hc hln
            · obtain ⟨x, l', y, e, h1, h2⟩ := ih hm
              refine ⟨c :: x, l', y, by rw [e]; rfl, ?_, h2⟩
              intro z hz
              rcases List.mem_cons.1 hz with rfl | hz
              · exact hc
              · exact h1 z hz
          · exact ⟨[], c, ls, rfl, by simp, hc⟩
      exact this _ hl
    obtain ⟨x, l, y, e, h1, h2⟩ := hsplit
    obtain ⟨⟨k, t⟩, l', rfl⟩ := List.exists_cons_of_ne_nil h2
    have hlv := h.level _ (e ▸ List.mem_append_right x List.mem_cons_self)
    have hkt := hlv.2.2 _ List.mem_cons_self
    rw [e] at he hl
    have hnone : ∀ r, (treeCodec ck (refCodec ck F (move a b fs))).dec ((treeCodec ck (refCodec ck F fs)).enc ((k, t) :: l') ++ r)
        = none := by
      intro r
      have : (boxed (both ck (refCodec ck F (move a b fs)))).dec ((boxed (both ck (refCodec ck F fs))).enc ((k, t) :: l') ++ r)
          = none := by
        refine boxed_none (l := []) (c := both ck (refCodec ck F (move a b fs))) (by simp) hlv.1 ?_ _
        intro r
        have := moved_none (ck := ck) (fs := fs) hkt.2.short
          (hin' _ (e ▸ List.mem_append_right x List.mem_cons_self) _ List.mem_cons_self) hb hb' r
        simp only [both, List.append_assoc]
        rw [hkt.1]
        simp only [Option.bind_some]
        exact (congrArg _ this).trans rfl
      simp only [treeCodec]
      rw [this]
      rfl
    have hall : ∀ rest, (boxed (treeCodec ck (refCodec ck F (move a b fs)))).dec
        ((boxed (treeCodec ck (refCodec ck F fs))).enc (x ++ ((k, t) :: l') :: y) ++ rest) = none := by
      intro rest
      refine boxed_none (c := treeCodec ck (refCodec ck F (move a b fs))) ?_ hl hnone rest
      intro z hz
      rw [h1 z hz]
      exact reads_tree (by simp [SL.Sorted]) (by simp) (by simp)
    rw [hall] at he
    cases he
  · rintro ⟨he, hl⟩
    have : m.There ck (move a b fs) := ⟨h.nums, h.count, by rw [he]; simp, h.levels, fun l hm => by
      rw [hl l hm]; exact ⟨by simp, by simp [SL.Sorted], by simp⟩⟩
    exact readAll_overwrite (reads_lv this) file

/-! ### The hypotheses are met -/

namespace Example

/-- `m/A` holds the five entries of `Lsm/Bytes.lean`, `m/B` two others. -/
def fs : Fs := fun p =>
  if p = [109, 47, 65] then write u64 u64 filter 2 5 entries
  else if p = [109, 47, 66] then write u64 u64 filter 2 2 [(1, ⟨some 10, 8⟩), (2, ⟨none, 9⟩)]
  else none

/-- The table in a directory. -/
def ref (p : Path) : Option (Ref filter) := ((fs p).bind (Handle.open u64 filter)).map fun h => ⟨p, h⟩

example : ∃ t u, ref [109, 47, 65] = some t ∧ ref [109, 47, 66] = some u ∧
    (⟨1, 2, 3, 4, 5, [t, u]⟩ : StMeta filter).There u64 fs ∧
    (⟨1, 2, 3, 4, 5, [u], [[], [(9, t)]]⟩ : LvMeta filter).There u64 fs := by
  obtain ⟨t, ht⟩ : ∃ t, ref [109, 47, 65] = some t := Option.isSome_iff_exists.1 (by decide +kernel)
  obtain ⟨u, hu⟩ : ∃ t, ref [109, 47, 66] = some t := Option.isSome_iff_exists.1 (by decide +kernel)
  have key : ∀ {p t}, ref p = some t → p.length < 2 ^ 64 → t.There u64 fs := by
    intro p t h hl
    simp only [ref, Option.map_eq_some_iff] at h
    obtain ⟨x, hx, rfl⟩ := h
    exact ⟨hl, hx⟩
  have kt := key ht (by decide)
  have ku := key hu (by decide)
  refine ⟨t, u, ht, hu, ⟨by simp, by simp, ?_⟩, ⟨by simp, by simp, ?_, by simp, ?_⟩⟩
  · simp [kt, ku]
  · simp [ku]
  · simp [kt, SL.Sorted, reads_u64]

/-- Three writes, of which the second is the longest: the third is read although the file keeps the end of the second. -/
example : (match ref [109, 47, 65], ref [109, 47, 66] with
    | some t, some u =>
      let c := stCodec u64 filter fs
      let w := fun f ts => overwrite f (c.enc ⟨1, 2, 3, 4, 5, ts⟩)
      let f := w (w (w [] [t]) [t, u, t]) [u]
      decide (f.length = 81) && ((readAll c f).map fun m => m.tables.map Ref.path) == some [[109, 47, 66]]
    | _, _ => false) = true := by decide +kernel

/-- The metadata lists `A` and `B`, then only `A`, then `A` twice.  Cut off after 48 bytes, the third write leaves a file
that lists `A` and `B`: neither the old nor the new contents, but a table that was taken off the list. -/
theorem C62_mixed_violated : (match ref [109, 47, 65], ref [109, 47, 66] with
    | some t, some u =>
      let c := stCodec u64 filter fs
      let f := overwrite (overwrite [] (c.enc ⟨1, 2, 3, 4, 5, [t, u]⟩)) (c.enc ⟨1, 2, 3, 4, 5, [t]⟩)
      ((readAll c f).map fun m => m.tables.map Ref.path) == some [[109, 47, 65]] &&
      ((readAll c (torn f (c.enc ⟨1, 2, 3, 4, 5, [t, t]⟩) 48)).map fun m => m.tables.map Ref.path) ==
        some [[109, 47, 65], [109, 47, 66]]
    | _, _ => false) = true := by decide +kernel

end Example

end Verif.Lsm.File
