/- Property C77: how the nodes of `SkipMap` and `SkipList` lie in memory.

A node is a `#[repr(C)]` structure with an array of no elements at its end; the code allocates the structure together with
room for the links as the buffer of a `Vec<u64>`.  Numbers are bytes.  Simplification: the arithmetic of `usize` is exact
(the largest tower has 33 links, so only elements of nearly the size of the address space could overflow it). -/
import Mathlib.Tactic.Ring

namespace Verif.Skip.Layout

/-! ### Specification vocabulary -/

/-- Size and alignment of a type, as Rust guarantees them. -/
structure Ty where
  size : Nat
  align : Nat

/-- Alignments are powers of two, and the size is a multiple of the alignment. -/
def Ty.Valid (t : Ty) : Prop := (∃ n, t.align = 2 ^ n) ∧ t.align ∣ t.size

/-- A field: where it begins, relative to the node, and its type. -/
structure Field where
  off : Nat
  ty : Ty

/-- The field lies in a block of `bytes` bytes. -/
def Field.Inside (f : Field) (bytes : Nat) : Prop := f.off + f.ty.size ≤ bytes

/-- The field begins at an address that its type allows, the block being at the address `a`. -/
def Field.Aligned (f : Field) (a : Nat) : Prop := f.ty.align ∣ a + f.off

/-- No byte belongs to both fields. -/
def Field.Apart (f g : Field) : Prop := f.off + f.ty.size ≤ g.off ∨ g.off + g.ty.size ≤ f.off

/-- The smallest multiple of `a` that is at least `x`. -/
def roundUp (x a : Nat) : Nat := (x + a - 1) / a * a

/-- The rule of the language for `#[repr(C)]`: a field begins at the first offset after the fields before it that its
alignment allows.  Gives the fields and the offset of their end. -/
def place : Nat → List Ty → List Field × Nat
  | o, [] => ([], o)
  | o, t :: ts =>
    let b := roundUp o t.align
    let (fs, e) := place (b + t.size) ts
    (⟨b, t⟩ :: fs, e)

/-- The largest alignment of the fields. -/
def maxAlign : List Ty → Nat
  | [] => 1
  | t :: ts => max t.align (maxAlign ts)

/-- Size of a `#[repr(C)]` structure: the end of the last field, rounded up to the largest alignment. -/
def sizeOf (ts : List Ty) : Nat := roundUp (place 0 ts).2 (maxAlign ts)

/-! ### The model -/

/-- `usize`, and every pointer, on a machine with words of `w` bytes. -/
def word (w : Nat) : Ty := ⟨w, w⟩

/-- skiplist/map.rs:14 (`*mut Node`, one word) and skiplist/list.rs:7-12 `Link` (two words): a link of `c` words. -/
def link (w c : Nat) : Ty := ⟨c * w, w⟩

/-- skiplist/map.rs:10-15 (with `c = 1`) and skiplist/list.rs:14-19 (with `c = 2`) `Node`: the number of links, the
element, and an array of no links, which has the alignment of a link. -/
def nodeTys (w c : Nat) (elem : Ty) : List Ty := [word w, elem, ⟨0, (link w c).align⟩]

/-- skiplist/map.rs:36-42, skiplist/list.rs:40-46 `get_size_in_u64s`. -/
def sizeInU64s (w c : Nat) (elem : Ty) (n : Nat) : Nat :=
  (sizeOf (nodeTys w c elem) + (link w c).size * n + 8 - 1) / 8

/-- The fields of an allocated node with `n` links: `links_len`, the element and the links (`get_unchecked(i)`,
map.rs:28-34, list.rs:32-38: the `i`-th link begins `i` links after the array). -/
def fields (w c : Nat) (elem : Ty) (n : Nat) : List Field :=
  match (place 0 (nodeTys w c elem)).1 with
  | [len, e, links] => len :: e :: (List.range n).map fun i => ⟨links.off + i * (link w c).size, link w c⟩
  | fs => fs

/-! ### Lemmas -/

theorem le_roundUp (x : Nat) {a : Nat} (ha : 0 < a) : x ≤ roundUp x a := by
  unfold roundUp
  have h := Nat.div_add_mod (x + a - 1) a
  have h2 := Nat.mod_lt (x + a - 1) ha
  rw [Nat.mul_comm] at h
  omega

theorem dvd_roundUp (x a : Nat) : a ∣ roundUp x a := Dvd.intro_left _ rfl

theorem roundUp_of_dvd {x a : Nat} (ha : 0 < a) (h : a ∣ x) : roundUp x a = x := by
  obtain ⟨k, rfl⟩ := h
  unfold roundUp
  rw [show a * k + a - 1 = a * k + (a - 1) by omega, Nat.mul_add_div ha, Nat.div_eq_of_lt (by omega)]
  ring

theorem fields_eq (w c : Nat) (elem : Ty) (n : Nat) : fields w c elem n =
    ⟨roundUp 0 w, word w⟩ :: ⟨roundUp (roundUp 0 w + w) elem.align, elem⟩ ::
      (List.range n).map fun i =>
        ⟨roundUp (roundUp (roundUp 0 w + w) elem.align + elem.size) w + i * (c * w), link w c⟩ := rfl

theorem pow_dvd_or {a b : Nat} (ha : ∃ n, a = 2 ^ n) (hb : ∃ n, b = 2 ^ n) : a ∣ b ∨ b ∣ a := by
  obtain ⟨n, rfl⟩ := ha
  obtain ⟨k, rfl⟩ := hb
  rcases Nat.le_total n k with h | h
  · exact .inl (Nat.pow_dvd_pow 2 h)
  · exact .inr (Nat.pow_dvd_pow 2 h)

/-! ### C77 -/

/-- **C77, room.** For every element type, every number of links and every word size, the block that is allocated
contains all fields of the node, and no two fields overlap. -/
theorem C77_fits (w c : Nat) (elem : Ty) (n : Nat) (hw : 0 < w) (he : elem.Valid) :
    (∀ f ∈ fields w c elem n, f.Inside (8 * sizeInU64s w c elem n)) ∧ (fields w c elem n).Pairwise Field.Apart := by
  obtain ⟨⟨p, hp⟩, _⟩ := he
  have ha : 0 < elem.align := by rw [hp]; exact Nat.two_pow_pos p
  have h0 : roundUp 0 w = 0 := roundUp_of_dvd hw (Nat.dvd_zero w)
  rw [fields_eq, h0]
  have h1 := le_roundUp (0 + w) ha
  have h2 := le_roundUp (roundUp (0 + w) elem.align + elem.size) hw
  have hs : roundUp (roundUp (0 + w) elem.align + elem.size) w ≤ sizeOf (nodeTys w c elem) := by
    have : (place 0 (nodeTys w c elem)).2 = roundUp (roundUp (roundUp 0 w + w) elem.align + elem.size) w := rfl
    rw [sizeOf, this, h0]
    refine le_roundUp _ ?_
    simp only [nodeTys, maxAlign, word]
    exact Nat.lt_of_lt_of_le hw (Nat.le_max_left _ _)
  have hsz : sizeOf (nodeTys w c elem) + c * w * n ≤ 8 * sizeInU64s w c elem n := by
    unfold sizeInU64s
    simp only [link]
    omega
  generalize hM : roundUp (roundUp (0 + w) elem.align + elem.size) w = M at *
  generalize hE : roundUp (0 + w) elem.align = E at *
  generalize hB : 8 * sizeInU64s w c elem n = B at *
  constructor
  · intro f hf
    simp only [List.mem_cons, List.mem_map, List.mem_range] at hf
    unfold Field.Inside
    rcases hf with rfl | rfl | ⟨i, hi, rfl⟩
    · simp only [word]; omega
    · simp only; omega
    · simp only [link]
      have : i * (c * w) + c * w ≤ c * w * n := by
        calc i * (c * w) + c * w = c * w * (i + 1) := by ring
          _ ≤ c * w * n := Nat.mul_le_mul_left _ hi
      omega
  · refine List.Pairwise.cons ?_ (List.Pairwise.cons ?_ ?_)
    · intro g hg
      simp only [List.mem_cons, List.mem_map, List.mem_range] at hg
      left
      rcases hg with rfl | ⟨i, hi, rfl⟩
      · simp only [word]; omega
      · simp only [word]; omega
    · intro g hg
      simp only [List.mem_map, List.mem_range] at hg
      obtain ⟨i, hi, rfl⟩ := hg
      left
      simp only; omega
    · rw [List.pairwise_map]
      refine List.pairwise_lt_range.imp ?_
      intro i j hij
      left
      simp only [link]
      have : i * (c * w) + c * w ≤ j * (c * w) := by
        calc i * (c * w) + c * w = (i + 1) * (c * w) := by ring
          _ ≤ j * (c * w) := Nat.mul_le_mul_right _ hij
      omega

/-- **C77, alignment, exact.** The allocator gives a block at a multiple of 8 (the alignment of `u64`); words have 8 bytes.
All fields of every node are aligned, wherever the block is, exactly if the alignment of the element is at most 8. -/
theorem C77_aligned_exact (c : Nat) (elem : Ty) (n : Nat) (he : elem.Valid) :
    (∀ a, 8 ∣ a → ∀ f ∈ fields 8 c elem n, f.Aligned a) ↔ elem.align ≤ 8 := by
  obtain ⟨⟨p, hp⟩, _⟩ := he
  have h0 : roundUp 0 8 = 0 := rfl
  rw [fields_eq, h0]
  have hE := dvd_roundUp (0 + 8) elem.align
  have hM := dvd_roundUp (roundUp (0 + 8) elem.align + elem.size) 8
  constructor
  · intro h
    have h8 := h 8 (dvd_refl 8) ⟨roundUp (0 + 8) elem.align, elem⟩ (by simp)
    simp only [Field.Aligned] at h8
    have := (Nat.dvd_add_left hE).1 h8
    exact Nat.le_of_dvd (by omega) this
  · intro hle a ha f hf
    have hd : elem.align ∣ 8 := by
      rcases pow_dvd_or ⟨p, hp⟩ ⟨3, rfl⟩ with h | h
      · exact h
      · have h1 : (2 : Nat) ^ 3 ≤ elem.align := Nat.le_of_dvd (by rw [hp]; exact Nat.two_pow_pos p) h
        have : elem.align = 8 := by omega
        rw [this]
    simp only [List.mem_cons, List.mem_map, List.mem_range] at hf
    unfold Field.Aligned
    rcases hf with rfl | rfl | ⟨i, hi, rfl⟩
    · simpa [word] using ha
    · exact Nat.dvd_add (hd.trans ha) hE
    · simp only [link]
      refine Nat.dvd_add ha (Nat.dvd_add hM ?_)
      exact Dvd.intro_left (i * c) (by ring)

/-- **C77, partial.** With words of 8 bytes and elements of an alignment of at most 8, the fields of every node lie in the
block, do not overlap and are aligned.  Missing: elements of a larger alignment, for which the claim is false
(`C77_violated`). -/
theorem C77_node_layout_partial (c : Nat) (elem : Ty) (n : Nat) (he : elem.Valid) (ha : elem.align ≤ 8) :
    (∀ f ∈ fields 8 c elem n, f.Inside (8 * sizeInU64s 8 c elem n)) ∧ (fields 8 c elem n).Pairwise Field.Apart ∧
      ∀ a, 8 ∣ a → ∀ f ∈ fields 8 c elem n, f.Aligned a :=
  ⟨(C77_fits 8 c elem n (by decide) he).1, (C77_fits 8 c elem n (by decide) he).2, (C77_aligned_exact c elem n he).2 ha⟩

/-- **C77 is violated**: an element of 16 bytes with an alignment of 16 (`u128`, SIMD types) in a block at the address 8
(or any other address that is not a multiple of 16) is not aligned.  The same happens for every alignment above 8. -/
theorem C77_violated (c n : Nat) : ∃ elem : Ty, elem.Valid ∧ ∃ a, 8 ∣ a ∧ ∃ f ∈ fields 8 c elem n, ¬ f.Aligned a :=
  ⟨⟨16, 16⟩, ⟨⟨4, rfl⟩, dvd_refl _⟩, 8, dvd_refl _, ⟨16, 16, 16⟩, by rw [fields_eq]; simp [roundUp], by
    simp [Field.Aligned]⟩

/-- A map from `u8` to `u32` (an entry of 8 bytes, alignment 4), a node with 3 links: 8 bytes for the number of links, 8
for the entry, then the links; the block has 5 words of 8 bytes.  A list of `[u8; 3]`, 2 links of 16 bytes: 3 bytes at
offset 8, the links from 16 on, 6 words. -/
example : (fields 8 1 ⟨8, 4⟩ 3).map (·.off) = [0, 8, 16, 24, 32] ∧ sizeInU64s 8 1 ⟨8, 4⟩ 3 = 5 ∧ Ty.Valid ⟨8, 4⟩ ∧
    (fields 8 2 ⟨3, 1⟩ 2).map (·.off) = [0, 8, 16, 32] ∧ sizeInU64s 8 2 ⟨3, 1⟩ 2 = 6 ∧ Ty.Valid ⟨3, 1⟩ :=
  ⟨by decide, by decide, ⟨⟨2, rfl⟩, by decide⟩, by decide, by decide, ⟨⟨0, rfl⟩, by decide⟩⟩

/-- **C77, freeing.** `deallocate` (map.rs:54-58, list.rs:58-62) hands back a block of the size that was allocated: both
compute it from the number of links, which is stored in the node and lies apart from all other fields. -/
theorem C77_header_kept (w c : Nat) (elem : Ty) (n : Nat) (hw : 0 < w) (he : elem.Valid) :
    ∃ rest, fields w c elem n = ⟨0, word w⟩ :: rest ∧ ∀ f ∈ rest, w ≤ f.off := by
  have h := (C77_fits w c elem n hw he).2
  obtain ⟨⟨p, hp⟩, _⟩ := he
  have ha : 0 < elem.align := by rw [hp]; exact Nat.two_pow_pos p
  have h0 : roundUp 0 w = 0 := roundUp_of_dvd hw (Nat.dvd_zero w)
  have h1 := le_roundUp (0 + w) ha
  have h2 := le_roundUp (roundUp (0 + w) elem.align + elem.size) hw
  rw [fields_eq, h0]
  refine ⟨_, rfl, ?_⟩
  intro f hf
  simp only [List.mem_cons, List.mem_map, List.mem_range] at hf
  rcases hf with rfl | ⟨i, hi, rfl⟩
  · simp only; omega
  · simp only; omega

end Verif.Skip.Layout
