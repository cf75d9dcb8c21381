/- Property C33: the bytes of the B+ tree file.

Model of the bincode encoding of nodes and of the header, and of the byte-level file operations of `bp_tree/pager.rs`.
bincode 1.x with its default configuration: integers are fixed-width little-endian, a `usize` takes 8 bytes, an enum
tag 4 bytes, an `Option` 1 byte plus the payload, a boxed slice 8 bytes plus the elements, a struct just its fields,
`PhantomData` nothing; `deserialize` ignores bytes behind the value. -/
import Verif.Bp.Reopen

namespace Verif.Bp

open Verif.Spec

variable {K V : Type}

/-! ### The encoding -/

/-- bincode: an integer in `n` bytes, least significant first. -/
def encInt' : Nat → Nat → List UInt8
  | 0, _ => []
  | n + 1, x => UInt8.ofNat (x % 256) :: encInt' n (x / 256)

/-- Reads an integer of `n` bytes. -/
def decInt : Nat → List UInt8 → Option (Nat × List UInt8)
  | 0, bs => some (0, bs)
  | _ + 1, [] => none
  | n + 1, b :: bs => (decInt n bs).map fun (x, rest) => (b.toNat + 256 * x, rest)

/-- A serialisable type: how bincode writes a value and reads it back. -/
structure Codec (α : Type) where
  enc : α → List UInt8
  dec : List UInt8 → Option (α × List UInt8)

/-- Reading gives back what was written, whatever follows. -/
def Codec.Reads {α : Type} (c : Codec α) (x : α) : Prop := ∀ rest, c.dec (c.enc x ++ rest) = some (x, rest)

/-- `u64` and `usize`. -/
def u64 : Codec Nat := ⟨encInt' 8, decInt 8⟩

/-- `Option<T>`. -/
def opt {α : Type} (c : Codec α) : Codec (Option α) where
  enc
    | none => [0]
    | some x => 1 :: c.enc x
  dec
    | [] => none
    | b :: bs => if b = 0 then some (none, bs) else if b = 1 then (c.dec bs).map fun (x, r) => (some x, r) else none

/-- `Entry<T, U>` (entry.rs:4-8): the fields one after the other. -/
def both {α β : Type} (c : Codec α) (d : Codec β) : Codec (α × β) where
  enc x := c.enc x.1 ++ d.enc x.2
  dec bs := (c.dec bs).bind fun (x, r) => (d.dec r).map fun (y, r) => ((x, y), r)

/-- Reads `n` values. -/
def decMany {α : Type} (c : Codec α) : Nat → List UInt8 → Option (List α × List UInt8)
  | 0, bs => some ([], bs)
  | n + 1, bs => (c.dec bs).bind fun (x, r) => (decMany c n r).map fun (l, r) => (x :: l, r)

/-- `Box<[T]>`. -/
def boxed {α : Type} (c : Codec α) : Codec (List α) where
  enc l := u64.enc l.length ++ l.flatMap c.enc
  dec bs := (u64.dec bs).bind fun (n, r) => decMany c n r

/-- node.rs:12-18 `InternalNode` (derived `Serialize`). -/
def internalCodec (ck : Codec K) : Codec (INode K) where
  enc n := u64.enc n.len ++ ((boxed (opt ck)).enc n.keys ++ (boxed u64).enc n.ptrs)
  dec bs := (u64.dec bs).bind fun (len, r) => ((boxed (opt ck)).dec r).bind fun (keys, r) =>
    ((boxed u64).dec r).map fun (ptrs, r) => (⟨len, keys, ptrs⟩, r)

/-- node.rs:178-183 `LeafNode`. -/
def leafCodec (ck : Codec K) (cv : Codec V) : Codec (LNode K V) where
  enc n := u64.enc n.len ++ ((boxed (opt (both ck cv))).enc n.entries ++ (opt u64).enc n.next)
  dec bs := (u64.dec bs).bind fun (len, r) => ((boxed (opt (both ck cv))).dec r).bind fun (es, r) =>
    ((opt u64).dec r).map fun (next, r) => (⟨len, es, next⟩, r)

/-- node.rs:359-364 `Node`: a 4-byte tag and the variant. -/
def nodeCodec (ck : Codec K) (cv : Codec V) : Codec (Node K V) where
  enc
    | .internal n => encInt' 4 0 ++ (internalCodec ck).enc n
    | .leaf n => encInt' 4 1 ++ (leafCodec ck cv).enc n
    | .free n => encInt' 4 2 ++ (opt u64).enc n
  dec bs := (decInt 4 bs).bind fun (tag, r) =>
    if tag = 0 then ((internalCodec ck).dec r).map fun (n, r) => (.internal n, r)
    else if tag = 1 then ((leafCodec ck cv).dec r).map fun (n, r) => (.leaf n, r)
    else if tag = 2 then ((opt u64).dec r).map fun (n, r) => (.free n, r)
    else none

/-! ### Declared sizes -/

/-- What determines the page size: the key and value sizes given to `with_degrees`, the degrees, and
`size_of::<Option<T>>() - size_of::<T>()` for the key type and for the entry type. -/
structure Layout where
  keySize : Nat
  valueSize : Nat
  optKey : Nat
  optEntry : Nat
  leafDeg : Nat
  intDeg : Nat

/-- node.rs:197-217 `LeafNode::get_max_size` (`OPT_U64_SIZE` is 16). -/
def Layout.leafSize (l : Layout) : Nat := (8 * 2 + 16) + l.leafDeg * (l.keySize + l.valueSize + l.optEntry)

/-- node.rs:24-44 `InternalNode::get_max_size`. -/
def Layout.intSize (l : Layout) : Nat := 8 * 4 + l.intDeg * (8 + l.keySize + l.optKey)

/-- node.rs:368-378 `Node::get_max_size`, the page size (pager.rs:149-156). -/
def Layout.pageSize (l : Layout) : Nat := Max.max l.leafSize l.intSize

/-- map.rs:116-117: the assertions of `with_degrees`. -/
@[reducible] def Layout.accepted (l : Layout) : Prop := l.leafSize ≤ 4096 ∧ l.intSize ≤ 4096

/-- map.rs:69-85 `new`: the degrees that `get_degree` computes (node.rs:36-39 and 209-212). -/
def Layout.default (keySize valueSize optKey optEntry : Nat) : Layout :=
  ⟨keySize, valueSize, optKey, optEntry, (4096 - 32) / (keySize + valueSize + optEntry), (4096 - 32) / (8 + keySize + optKey)⟩

/-- A node as it can occur: its arrays have the degrees as lengths and its keys and values passed
`validate_key`/`validate_value` (pager.rs:318-334). -/
def Layout.Node (l : Layout) (ck : Codec K) (cv : Codec V) : Bp.Node K V → Prop
  | .internal n => n.keys.length = l.intDeg ∧ n.ptrs.length = l.intDeg + 1 ∧
      ∀ k, some k ∈ n.keys → (ck.enc k).length ≤ l.keySize
  | .leaf n => n.entries.length = l.leafDeg ∧
      ∀ e, some e ∈ n.entries → (ck.enc e.1).length ≤ l.keySize ∧ (cv.enc e.2).length ≤ l.valueSize
  | .free _ => True

/-- **Property C33**: every node that can occur fits into a page. -/
def Layout.Fits (l : Layout) (ck : Codec K) (cv : Codec V) : Prop :=
  ∀ n, l.Node ck cv n → ((nodeCodec ck cv).enc n).length ≤ l.pageSize

/-! ### Lengths -/

theorem length_encInt (n x : Nat) : (encInt' n x).length = n := by
  induction n generalizing x with
  | zero => rfl
  | succ n ih => simp [encInt', ih]

theorem length_u64 (x : Nat) : (u64.enc x).length = 8 := length_encInt 8 x

theorem length_many_le {α : Type} {c : Codec α} {l : List α} {b : Nat} (h : ∀ x ∈ l, (c.enc x).length ≤ b) :
    (l.flatMap c.enc).length ≤ l.length * b := by
  induction l with
  | nil => simp
  | cons x l ih =>
    have h1 := h x (by simp)
    have h2 := ih fun y hy => h y (by simp [hy])
    simp only [List.flatMap_cons, List.length_append, List.length_cons, Nat.add_mul, Nat.one_mul]
    omega

theorem length_many_eq {α : Type} {c : Codec α} {l : List α} {b : Nat} (h : ∀ x ∈ l, (c.enc x).length = b) :
    (l.flatMap c.enc).length = l.length * b := by
  induction l with
  | nil => simp
  | cons x l ih =>
    have h1 := h x (by simp)
    have h2 := ih fun y hy => h y (by simp [hy])
    simp only [List.flatMap_cons, List.length_append, List.length_cons, Nat.add_mul, Nat.one_mul]
    omega

theorem length_boxed {α : Type} (c : Codec α) (l : List α) :
    ((boxed c).enc l).length = 8 + (l.flatMap c.enc).length := by
  simp [boxed, length_u64]

theorem length_opt_le (c : Codec Nat) (h : ∀ x, (c.enc x).length = 8) (o : Option Nat) : ((opt c).enc o).length ≤ 9 := by
  cases o with
  | none => simp [opt]
  | some x => simp [opt, h]

/-- The bytes of a leaf node. -/
theorem length_leaf_le {l : Layout} {ck : Codec K} {cv : Codec V} {n} (h : l.Node ck cv (.leaf n)) :
    ((nodeCodec ck cv).enc (.leaf n)).length ≤ 29 + l.leafDeg * (1 + l.keySize + l.valueSize) := by
  have h1 := length_many_le (c := opt (both ck cv)) (l := n.entries) (b := 1 + l.keySize + l.valueSize) (by
    intro x hx
    cases x with
    | none => simp [opt]; omega
    | some e =>
      have := h.2 e hx
      simp only [opt, both, List.length_cons, List.length_append]; omega)
  rw [h.1] at h1
  have h2 := length_opt_le u64 length_u64 n.next
  simp only [nodeCodec, leafCodec, List.length_append, length_encInt, length_u64, length_boxed]
  omega

/-- The bytes of an internal node. -/
theorem length_int_le {l : Layout} {ck : Codec K} {cv : Codec V} {n} (h : l.Node ck cv (.internal n)) :
    ((nodeCodec ck cv).enc (.internal n)).length ≤ 36 + l.intDeg * (9 + l.keySize) := by
  have h1 := length_many_le (c := opt ck) (l := n.keys) (b := 1 + l.keySize) (by
    intro x hx
    cases x with
    | none => simp [opt]
    | some e =>
      have := h.2.2 e hx
      simp only [opt, List.length_cons]; omega)
  have h2 := length_many_eq (c := u64) (l := n.ptrs) (b := 8) fun x _ => length_u64 x
  rw [h.1] at h1
  rw [h.2.1] at h2
  simp only [nodeCodec, internalCodec, List.length_append, length_encInt, length_u64, length_boxed]
  have : l.intDeg * (9 + l.keySize) = l.intDeg * (1 + l.keySize) + l.intDeg * 8 := by rw [← Nat.mul_add]; congr 1; omega
  omega

/-- **C33, exactly.**  All nodes fit if and only if a full leaf node with a next pointer and a full internal node of
maximum-size keys and values do, if there are keys and values of the declared sizes. -/
theorem C33_exact (l : Layout) (ck : Codec K) (cv : Codec V) (hk : ∃ k, (ck.enc k).length = l.keySize)
    (hv : ∃ v, (cv.enc v).length = l.valueSize) :
    l.Fits ck cv ↔ 29 + l.leafDeg * (1 + l.keySize + l.valueSize) ≤ l.pageSize ∧
      36 + l.intDeg * (9 + l.keySize) ≤ l.pageSize := by
  constructor
  · intro h
    obtain ⟨k, hk⟩ := hk
    obtain ⟨v, hv⟩ := hv
    constructor
    · have := h (.leaf ⟨l.leafDeg, List.replicate l.leafDeg (some (k, v)), some 0⟩) (by
        refine ⟨by simp, ?_⟩
        intro e he
        have := (List.mem_replicate.1 he).2
        cases this
        exact ⟨by simp only; omega, by simp only; omega⟩)
      have h1 := length_many_eq (c := opt (both ck cv)) (l := List.replicate l.leafDeg (some (k, v)))
        (b := 1 + l.keySize + l.valueSize) (by
          intro x hx
          rw [(List.mem_replicate.1 hx).2]
          simp only [opt, both, List.length_cons, List.length_append]; omega)
      rw [List.length_replicate] at h1
      simp only [nodeCodec, leafCodec, List.length_append, length_encInt, length_u64, length_boxed, h1] at this
      simp only [opt, List.length_cons, length_u64] at this
      omega
    · have := h (.internal ⟨l.intDeg, List.replicate l.intDeg (some k), List.replicate (l.intDeg + 1) 0⟩) (by
        refine ⟨by simp, by simp, ?_⟩
        intro e he
        have := (List.mem_replicate.1 he).2
        cases this
        omega)
      have h1 := length_many_eq (c := opt ck) (l := List.replicate l.intDeg (some k))
        (b := 1 + l.keySize) (by
          intro x hx
          rw [(List.mem_replicate.1 hx).2]
          simp only [opt, List.length_cons]; omega)
      have h2 := length_many_eq (c := u64) (l := List.replicate (l.intDeg + 1) 0) (b := 8) fun x _ => length_u64 x
      rw [List.length_replicate] at h1 h2
      simp only [nodeCodec, internalCodec, List.length_append, length_encInt, length_u64, length_boxed, h1, h2] at this
      have : l.intDeg * (9 + l.keySize) = l.intDeg * (1 + l.keySize) + l.intDeg * 8 := by
        rw [← Nat.mul_add]; congr 1; omega
      omega
  · rintro ⟨h1, h2⟩ n hn
    cases n with
    | internal n => exact Nat.le_trans (length_int_le hn) h2
    | leaf n => exact Nat.le_trans (length_leaf_le hn) h1
    | free o =>
      have := length_opt_le u64 length_u64 o
      simp only [nodeCodec, List.length_append, length_encInt]
      omega

/-- **C33 (partial): a criterion on the types.**  If `Option` costs at least one byte for entries, at least two bytes
for keys, and the internal degree is large enough for the four bytes that `get_constant_size` forgets (with the
two-byte difference of `u16` at least 4, with the four-byte difference of `u32` at least 2), every node fits.
Missing: other types (`C33_violated`). -/
theorem C33_fits_partial (l : Layout) (ck : Codec K) (cv : Codec V) (he : 1 ≤ l.optEntry)
    (hk : l.intDeg + 4 ≤ l.intDeg * l.optKey) : l.Fits ck cv := by
  have h1 : l.leafDeg * (1 + l.keySize + l.valueSize) ≤ l.leafDeg * (l.keySize + l.valueSize + l.optEntry) :=
    Nat.mul_le_mul_left _ (by omega)
  have h2 : l.intDeg * (8 + l.keySize + l.optKey) = l.intDeg * (8 + l.keySize) + l.intDeg * l.optKey := Nat.mul_add _ _ _
  have h3 : l.intDeg * (9 + l.keySize) = l.intDeg * (8 + l.keySize) + l.intDeg := by
    rw [← Nat.mul_succ]; congr 1; omega
  intro n hn
  cases n with
  | internal n =>
    have := length_int_le hn
    simp only [Layout.pageSize, Layout.intSize, Layout.leafSize, Nat.max_def]
    split <;> omega
  | leaf n =>
    have := length_leaf_le hn
    simp only [Layout.pageSize, Layout.intSize, Layout.leafSize, Nat.max_def]
    split <;> omega
  | free o =>
    have := length_opt_le u64 length_u64 o
    simp only [nodeCodec, List.length_append, length_encInt, Layout.pageSize, Layout.intSize, Layout.leafSize, Nat.max_def]
    split <;> omega

/-- **C33 (partial): the degrees that `new` chooses.**  Whatever the types and the declared sizes, the assertions of
`with_degrees` hold for the degrees that `new` computes, so that a page takes at most 4096 bytes, and no other accepted
degrees for the same sizes are larger.  The degrees are at least `n` exactly if `n` entries, and `n` keys with their
pointers, take at most 4064 bytes: for large keys or values `new` chooses degrees that are too small for the tree. -/
theorem C33_default_partial (keySize valueSize optKey optEntry : Nat) (hpos : 0 < keySize + valueSize + optEntry) :
    (Layout.default keySize valueSize optKey optEntry).accepted ∧
    (Layout.default keySize valueSize optKey optEntry).pageSize ≤ 4096 ∧
    (∀ l d : Nat, (⟨keySize, valueSize, optKey, optEntry, l, d⟩ : Layout).accepted →
      l ≤ (Layout.default keySize valueSize optKey optEntry).leafDeg ∧
      d ≤ (Layout.default keySize valueSize optKey optEntry).intDeg) ∧
    (∀ n : Nat, n ≤ (Layout.default keySize valueSize optKey optEntry).leafDeg ∧
        n ≤ (Layout.default keySize valueSize optKey optEntry).intDeg ↔
      n * (keySize + valueSize + optEntry) ≤ 4064 ∧ n * (8 + keySize + optKey) ≤ 4064) := by
  have h1 : (4096 - 32) / (keySize + valueSize + optEntry) * (keySize + valueSize + optEntry) ≤ 4064 := Nat.div_mul_le_self _ _
  have h2 : (4096 - 32) / (8 + keySize + optKey) * (8 + keySize + optKey) ≤ 4064 := Nat.div_mul_le_self _ _
  have hacc : (Layout.default keySize valueSize optKey optEntry).accepted := by
    simp only [Layout.accepted, Layout.leafSize, Layout.intSize, Layout.default]
    omega
  refine ⟨hacc, Nat.max_le.2 hacc, fun l d h => ?_, fun n => ?_⟩
  · simp only [Layout.accepted, Layout.leafSize, Layout.intSize] at h
    exact ⟨(Nat.le_div_iff_mul_le hpos).2 (by omega), (Nat.le_div_iff_mul_le (by omega)).2 (by omega)⟩
  · exact and_congr (Nat.le_div_iff_mul_le hpos) (Nat.le_div_iff_mul_le (by omega))

/-- **C33 is violated by types whose `Option` is free** (references, boxes, strings, non-zero integers): the tag byte
of each entry is not accounted for. -/
theorem C33_violated_niche (l : Layout) (ck : Codec K) (cv : Codec V) (hk : ∃ k, (ck.enc k).length = l.keySize)
    (hv : ∃ v, (cv.enc v).length = l.valueSize) (h0 : l.optEntry = 0) (h1 : 4 ≤ l.leafDeg) (h2 : l.intSize ≤ l.leafSize) :
    ¬ l.Fits ck cv := by
  rw [C33_exact l ck cv hk hv]
  rintro ⟨h, -⟩
  have e : l.leafDeg * (1 + l.keySize + l.valueSize) = l.leafDeg * (l.keySize + l.valueSize) + l.leafDeg := by
    rw [← Nat.mul_succ]; congr 1; omega
  have hp : l.pageSize = l.leafSize := by rw [Layout.pageSize, Nat.max_def]; split <;> omega
  rw [hp, Layout.leafSize, h0, show l.keySize + l.valueSize + 0 = l.keySize + l.valueSize from rfl] at h
  omega

/-- **C33 is violated by one-byte keys**: an internal node is four bytes longer than `get_max_size` says. -/
theorem C33_violated_byte_keys (l : Layout) (ck : Codec K) (cv : Codec V) (hk : ∃ k, (ck.enc k).length = l.keySize)
    (hv : ∃ v, (cv.enc v).length = l.valueSize) (h0 : l.optKey ≤ 1) (h2 : l.leafSize ≤ l.intSize) :
    ¬ l.Fits ck cv := by
  rw [C33_exact l ck cv hk hv]
  rintro ⟨-, h⟩
  have e : l.intDeg * (8 + l.keySize + l.optKey) ≤ l.intDeg * (9 + l.keySize) := Nat.mul_le_mul_left _ (by omega)
  have hp : l.pageSize = l.intSize := by rw [Layout.pageSize, Nat.max_def]; split <;> omega
  rw [hp, Layout.intSize] at h
  omega

/-! ### Round trip -/

theorem decInt_encInt (n x : Nat) (h : x < 256 ^ n) (rest : List UInt8) :
    decInt n (encInt' n x ++ rest) = some (x, rest) := by
  induction n generalizing x with
  | zero => simp at h; subst h; rfl
  | succ n ih =>
    have hx : x / 256 < 256 ^ n := by
      rw [Nat.div_lt_iff_lt_mul (by omega)]; rw [Nat.pow_succ] at h; exact h
    simp only [encInt', decInt, List.cons_append, ih _ hx, Option.map_some]
    have : (UInt8.ofNat (x % 256)).toNat = x % 256 := by
      rw [UInt8.toNat_ofNat']; exact Nat.mod_eq_of_lt (Nat.mod_lt _ (by omega))
    rw [this, Nat.mod_add_div]

theorem reads_u64 {x : Nat} (h : x < 2 ^ 64) : u64.Reads x := fun rest => decInt_encInt 8 x (by simpa using h) rest

theorem reads_none {α : Type} (c : Codec α) : (opt c).Reads none := fun rest => by simp [opt]

theorem reads_some {α : Type} {c : Codec α} {x : α} (h : c.Reads x) : (opt c).Reads (some x) := fun rest => by
  simp [opt, h rest]

theorem reads_both {α β : Type} {c : Codec α} {d : Codec β} {x : α × β} (h : c.Reads x.1) (h' : d.Reads x.2) :
    (both c d).Reads x := fun rest => by
  simp only [both, List.append_assoc]
  rw [h]
  simp [h' rest]

theorem reads_many {α : Type} {c : Codec α} {l : List α} (h : ∀ x ∈ l, c.Reads x) (rest : List UInt8) :
    decMany c l.length (l.flatMap c.enc ++ rest) = some (l, rest) := by
  induction l with
  | nil => rfl
  | cons x l ih =>
    simp only [List.flatMap_cons, List.append_assoc, List.length_cons, decMany]
    rw [h x (by simp)]
    simp [ih fun y hy => h y (by simp [hy])]

theorem reads_boxed {α : Type} {c : Codec α} {l : List α} (hl : l.length < 2 ^ 64) (h : ∀ x ∈ l, c.Reads x) :
    (boxed c).Reads l := fun rest => by
  simp only [boxed, List.append_assoc]
  rw [reads_u64 hl]
  simp [reads_many h]

/-- All numbers in the node are `usize` values and its keys and values can be read back. -/
def Readable (ck : Codec K) (cv : Codec V) : Node K V → Prop
  | .internal n => n.len < 2 ^ 64 ∧ n.keys.length < 2 ^ 64 ∧ n.ptrs.length < 2 ^ 64 ∧ (∀ q ∈ n.ptrs, q < 2 ^ 64) ∧
      ∀ k, some k ∈ n.keys → ck.Reads k
  | .leaf n => n.len < 2 ^ 64 ∧ n.entries.length < 2 ^ 64 ∧ (∀ q, n.next = some q → q < 2 ^ 64) ∧
      ∀ e, some e ∈ n.entries → ck.Reads e.1 ∧ cv.Reads e.2
  | .free o => ∀ q, o = some q → q < 2 ^ 64

theorem reads_opt_u64 {o : Option Nat} (h : ∀ q, o = some q → q < 2 ^ 64) : (opt u64).Reads o := by
  cases o with
  | none => exact reads_none _
  | some x => exact reads_some (reads_u64 (h x rfl))

/-- Deserialising what `serialize` produced gives the node back, whatever bytes of an older node follow. -/
theorem node_roundtrip {ck : Codec K} {cv : Codec V} {n : Node K V} (h : Readable ck cv n) : (nodeCodec ck cv).Reads n := by
  intro rest
  cases n with
  | internal n =>
    obtain ⟨h1, h2, h3, h4, h5⟩ := h
    simp only [nodeCodec, List.append_assoc]
    rw [decInt_encInt 4 0 (by omega)]
    simp only [Option.bind_some, if_true, internalCodec, List.append_assoc]
    rw [reads_u64 h1]
    simp only [Option.bind_some]
    rw [reads_boxed h2 (by
      intro x hx
      cases x with
      | none => exact reads_none _
      | some x => exact reads_some (h5 x hx))]
    simp only [Option.bind_some]
    rw [reads_boxed h3 fun x hx => reads_u64 (h4 x hx)]
    rfl
  | leaf n =>
    obtain ⟨h1, h2, h3, h4⟩ := h
    simp only [nodeCodec, List.append_assoc]
    rw [decInt_encInt 4 1 (by omega)]
    simp only [Option.bind_some, leafCodec, List.append_assoc]
    rw [reads_u64 h1]
    simp only [Option.bind_some]
    rw [reads_boxed h2 (by
      intro x hx
      cases x with
      | none => exact reads_none _
      | some x => exact reads_some (reads_both (h4 x hx).1 (h4 x hx).2))]
    simp only [Option.bind_some]
    rw [reads_opt_u64 h3]
    rfl
  | free o =>
    simp only [nodeCodec, List.append_assoc]
    rw [decInt_encInt 4 2 (by omega)]
    simp only [Option.bind_some]
    rw [reads_opt_u64 h]
    rfl

/-! ### The file -/

/-- `File::read_exact` at an offset. -/
def readAt (f : List UInt8) (off n : Nat) : Option (List UInt8) :=
  if off + n ≤ f.length then some ((f.drop off).take n) else none

/-- `File::write_all` at an offset: beyond the end the file is filled with zeros. -/
def writeAt (f : List UInt8) (off : Nat) (bs : List UInt8) : List UInt8 :=
  (f ++ List.replicate (off - f.length) 0).take off ++ (bs ++ f.drop (off + bs.length))

/-- `File::set_len`. -/
def truncAt (f : List UInt8) (n : Nat) : List UInt8 := f.take n ++ List.replicate (n - f.length) 0

/-- pager.rs:58-68 `Metadata`, as it is serialised; the sizes of keys and values are those of the layout. -/
def encMeta (l : Layout) (m : Meta) : List UInt8 :=
  [m.pages, m.len, m.root, l.keySize, l.valueSize, m.leafDeg, m.intDeg].flatMap u64.enc ++ (opt u64).enc m.free

/-- pager.rs:138-139: reading the header back (the sizes are skipped). -/
def decMeta (bs : List UInt8) : Option Meta :=
  match decMany u64 7 bs with
  | some ([pages, len, root, _, _, ld, id], r) => ((opt u64).dec r).map fun (o, _) => ⟨pages, len, root, ld, id, o⟩
  | _ => none

/-- pager.rs:158-161 `get_metadata_size`: `size_of::<Metadata>()` is 7 * 8 + 16. -/
def metaSize : Nat := 72

/-- pager.rs:163-167 `calculate_page_offset`. -/
def Layout.offset (l : Layout) (i : Nat) : Nat := metaSize + l.pageSize * i

/-- pager.rs:203-213 `get_page` on bytes. -/
def getPageB (l : Layout) (ck : Codec K) (cv : Codec V) (f : List UInt8) (i : Nat) : Option (Node K V) :=
  (readAt f (l.offset i) l.pageSize).bind fun b => ((nodeCodec ck cv).dec b).map (·.1)

/-- pager.rs:279-290 `write_node` on bytes. -/
def writeNodeB (l : Layout) (ck : Codec K) (cv : Codec V) (f : List UInt8) (i : Nat) (n : Node K V) : List UInt8 :=
  writeAt f (l.offset i) ((nodeCodec ck cv).enc n)

/-- pager.rs:183-187 and elsewhere: writing the header on bytes. -/
def writeHdrB (l : Layout) (f : List UInt8) (m : Meta) : List UInt8 := writeAt f 0 (encMeta l m)

/-- pager.rs:137-139 reading the header. -/
def readHdrB (f : List UInt8) : Option Meta := (readAt f 0 metaSize).bind decMeta

/-- The bytes `f` hold the file `d`: it has the right length, the header is at the start and each node at its offset,
possibly followed by bytes of older nodes. -/
structure Stores (l : Layout) (ck : Codec K) (cv : Codec V) (f : List UInt8) (d : Disk K V) : Prop where
  length : f.length = l.offset d.pages.length
  hdr : ∃ rest, readAt f 0 metaSize = some (encMeta l d.hdr ++ rest)
  page : ∀ i n, d.pages[i]? = some (some n) →
    ∃ rest, readAt f (l.offset i) l.pageSize = some ((nodeCodec ck cv).enc n ++ rest)

theorem length_encMeta (l : Layout) (m : Meta) : (encMeta l m).length ≤ 65 := by
  have := length_opt_le u64 length_u64 m.free
  simp only [encMeta, List.length_append, List.flatMap_cons, List.flatMap_nil, length_u64, List.length_nil]
  omega

theorem length_writeAt {f : List UInt8} {off : Nat} {bs : List UInt8} (h : off + bs.length ≤ f.length) :
    (writeAt f off bs).length = f.length := by
  simp only [writeAt, List.length_append, List.length_take, List.length_drop, List.length_replicate]
  omega

theorem writeAt_eq {f : List UInt8} {off : Nat} {bs : List UInt8} (h : off + bs.length ≤ f.length) :
    writeAt f off bs = f.take off ++ (bs ++ f.drop (off + bs.length)) := by
  rw [writeAt, show off - f.length = 0 by omega]; simp

theorem readAt_same {f : List UInt8} {off n : Nat} {bs : List UInt8} (h : off + n ≤ f.length) (hb : bs.length ≤ n) :
    ∃ rest, readAt (writeAt f off bs) off n = some (bs ++ rest) := by
  have hl := length_writeAt (f := f) (off := off) (bs := bs) (by omega)
  rw [readAt, if_pos (by omega), writeAt_eq (by omega)]
  refine ⟨(f.drop (off + bs.length)).take (n - bs.length), ?_⟩
  rw [List.drop_append_of_le_length (by simp; omega),
    List.drop_eq_nil_of_le (by rw [List.length_take]; exact Nat.min_le_left _ _), List.nil_append,
    List.take_append, List.take_of_length_le hb]

theorem readAt_other {f : List UInt8} {off off' n : Nat} {bs : List UInt8} (h : off + bs.length ≤ f.length)
    (hd : off + bs.length ≤ off' ∨ off' + n ≤ off) : readAt (writeAt f off bs) off' n = readAt f off' n := by
  have hl := length_writeAt h
  rw [readAt, readAt, hl, writeAt_eq h]
  split
  · congr 1
    apply List.ext_getElem?
    intro i
    simp only [List.getElem?_take, List.getElem?_drop]
    split
    · rcases hd with hd | hd
      · rw [List.getElem?_append_right (by simp; omega), List.getElem?_append_right (by simp; omega), List.getElem?_drop]
        congr 1
        simp
        omega
      · rw [List.getElem?_append_left (by simp; omega), List.getElem?_take, if_pos (by omega)]
    · rfl
  · rfl

theorem offset_le (l : Layout) {i j : Nat} (h : i < j) : l.offset i + l.pageSize ≤ l.offset j := by
  have := Nat.mul_le_mul_left l.pageSize (show i + 1 ≤ j from h)
  rw [Nat.mul_add, Nat.mul_one] at this
  simp only [Layout.offset]; omega

/-- **C33: writing a page.**  If all nodes fit, the bytes of the file hold what the page-level model says after
`write_node`: in particular no other page and not the header is touched. -/
theorem C33_write_node {l : Layout} {ck : Codec K} {cv : Codec V} (hf : l.Fits ck cv) {f : List UInt8} {d : Disk K V}
    (h : Stores l ck cv f d) {i : Nat} (hi : i < d.pages.length) {n : Node K V} (hn : l.Node ck cv n) :
    Stores l ck cv (writeNodeB l ck cv f i n) { d with pages := d.pages.set i (some n) } := by
  have hfit := hf n hn
  have hoff := offset_le l hi
  have hlen := h.length
  have hin : l.offset i + ((nodeCodec ck cv).enc n).length ≤ f.length := by omega
  refine ⟨?_, ?_, ?_⟩
  · rw [writeNodeB, length_writeAt hin, hlen]; simp
  · obtain ⟨rest, hr⟩ := h.hdr
    exact ⟨rest, by rw [writeNodeB, readAt_other hin (.inr (by simp [Layout.offset]))]; exact hr⟩
  · intro j m hj
    rw [List.getElem?_set] at hj
    split at hj
    · rename_i hij
      subst hij
      try rw [if_pos (by simpa using hi)] at hj
      cases hj
      exact readAt_same (by omega) hfit
    · rename_i hij
      obtain ⟨rest, hr⟩ := h.page j m hj
      refine ⟨rest, ?_⟩
      rw [writeNodeB, readAt_other hin]
      · exact hr
      · rcases Nat.lt_or_gt_of_ne hij with hlt | hgt
        · left; have := offset_le l hlt; omega
        · right; exact offset_le l hgt

/-- **C33: writing the header** never touches a page, for any types. -/
theorem C33_write_header {l : Layout} {ck : Codec K} {cv : Codec V} {f : List UInt8} {d : Disk K V}
    (h : Stores l ck cv f d) (m : Meta) : Stores l ck cv (writeHdrB l f m) { d with hdr := m } := by
  have hlen := h.length
  have hm := length_encMeta l m
  have hin : 0 + (encMeta l m).length ≤ f.length := by simp only [Layout.offset, metaSize] at hlen; omega
  refine ⟨by rw [writeHdrB, length_writeAt hin, hlen], ?_, ?_⟩
  · exact readAt_same (by simp only [Layout.offset] at hlen; omega) (by simp only [metaSize]; omega)
  · intro i n hi
    obtain ⟨rest, hr⟩ := h.page i n hi
    refine ⟨rest, ?_⟩
    rw [writeHdrB, readAt_other hin (.inl (by simp only [Layout.offset, metaSize]; omega))]
    exact hr

/-- **C33: changing the length of the file** (pager.rs:225 and 303). -/
theorem C33_set_len {l : Layout} {ck : Codec K} {cv : Codec V} {f : List UInt8} {d : Disk K V}
    (h : Stores l ck cv f d) (n : Nat) :
    Stores l ck cv (truncAt f (l.offset n))
      { d with pages := d.pages.take n ++ List.replicate (n - d.pages.length) none } := by
  have hlen := h.length
  have hl : (truncAt f (l.offset n)).length = l.offset n := by simp [truncAt]; omega
  have hread : ∀ off m, off + m ≤ f.length → off + m ≤ l.offset n →
      readAt (truncAt f (l.offset n)) off m = readAt f off m := by
    intro off m h1 h2
    rw [readAt, readAt, hl, if_pos h1, if_pos h2, truncAt, List.drop_append_of_le_length (by simp; omega),
      List.take_append_of_le_length (by simp; omega), List.drop_take, List.take_take]
    congr 2
    omega
  refine ⟨?_, ?_, ?_⟩
  · rw [hl]; congr 1; simp; omega
  · obtain ⟨rest, hr⟩ := h.hdr
    refine ⟨rest, ?_⟩
    rw [hread 0 metaSize (by rw [hlen, Layout.offset]; omega) (by rw [Layout.offset]; omega)]
    exact hr
  · intro i m hi
    have hlt : i < n ∧ d.pages[i]? = some (some m) := by
      simp only [List.getElem?_append, List.length_take, List.getElem?_take] at hi
      split at hi
      · split at hi
        · rename_i h1 h2; exact ⟨h2, hi⟩
        · cases hi
      · rw [List.getElem?_replicate] at hi
        split at hi <;> cases hi
    obtain ⟨rest, hr⟩ := h.page i m hlt.2
    have hip := (List.getElem?_eq_some_iff.1 hlt.2).1
    refine ⟨rest, ?_⟩
    rw [hread _ _ (by rw [hlen]; exact offset_le l hip) (offset_le l hlt.1)]
    exact hr

/-- **C33: reading.**  `get_page` on the bytes returns the node of the page-level model. -/
theorem C33_read {l : Layout} {ck : Codec K} {cv : Codec V} {p : Pager K V} {f : List UInt8} {d : Disk K V}
    (h : Stores l ck cv f d) (hp : p.disk = d) {i : Nat} {n : Node K V} (hn : p.getPage i = some n)
    (hr : Readable ck cv n) : getPageB l ck cv f i = some n := by
  have : d.pages[i]? = some (some n) := by
    rw [Pager.getPage, hp] at hn
    split at hn
    · rename_i e; cases hn; exact e
    · cases hn
  obtain ⟨rest, e⟩ := h.page i n this
  rw [getPageB, e, Option.bind_some, node_roundtrip hr]
  rfl

/-- **C33: reading the header** gives back the metadata. -/
theorem C33_read_header {l : Layout} {ck : Codec K} {cv : Codec V} {f : List UInt8} {d : Disk K V}
    (h : Stores l ck cv f d) (hm : ∀ x ∈ [d.hdr.pages, d.hdr.len, d.hdr.root, l.keySize, l.valueSize, d.hdr.leafDeg,
      d.hdr.intDeg], x < 2 ^ 64) (ho : ∀ q, d.hdr.free = some q → q < 2 ^ 64) : readHdrB f = some d.hdr := by
  obtain ⟨rest, e⟩ := h.hdr
  rw [readHdrB, e, Option.bind_some, decMeta, encMeta, List.append_assoc]
  have := reads_many (c := u64) (l := [d.hdr.pages, d.hdr.len, d.hdr.root, l.keySize, l.valueSize, d.hdr.leafDeg,
      d.hdr.intDeg]) (fun x hx => reads_u64 (hm x hx)) ((opt u64).enc d.hdr.free ++ rest)
  simp only [List.length_cons, List.length_nil] at this
  rw [this]
  simp only [reads_opt_u64 ho rest, Option.map_some]

/-! ### Nodes that occur -/

section
variable [LinearOrder K] {ld id : Nat}

theorem shape_of_rep {d : Disk K V} : ∀ {n : Nat} {t : BT K V n} {lo hi nxt}, RepT ld id d t nxt → Ok ld id t lo hi →
    ∀ j ∈ t.pages, (∃ nd, d.pages[j]? = some (some (.leaf nd)) ∧ nd.entries.length = ld) ∨
      ∃ nd, d.pages[j]? = some (some (.internal nd)) ∧ nd.keys.length = id ∧ nd.ptrs.length = id + 1 := by
  intro n
  induction n with
  | zero =>
    intro t lo hi nxt hr hok j hj
    obtain ⟨pg, es, rfl⟩ := t.leaf_cases
    simp at hj
    subst hj
    have h1 : d.pages[j]? = some (some (.leaf (encLeaf ld es nxt))) := hr.1
    exact .inl ⟨_, h1, pad_length (by simpa using (ok_leaf.1 hok).2.2)⟩
  | succ n ih =>
    intro t lo hi nxt hr hok j hj
    obtain ⟨pg, ks, cs, rfl⟩ := t.node_cases
    obtain ⟨hlen, ho⟩ := ok_node.1 hok
    rw [BT.pages_node] at hj
    rcases List.mem_cons.1 hj with rfl | hj
    · have h1 : d.pages[j]? = some (some (.internal (encInt id ks (cs.map BT.pg)))) := hr.1
      have hc := ordL_length ho
      exact .inr ⟨_, h1, pad_length (by simpa using hlen), pad_length (by simp; omega)⟩
    · obtain ⟨c, hc, hj⟩ := List.mem_flatMap.1 hj
      obtain ⟨lo, hi, hcok⟩ := ordL_all ho c hc
      obtain ⟨x, hx⟩ := linked_mem (below_node.1 hr.2) c hc
      exact ih hx hcok.2 j hj

theorem free_of_mem {d : Disk K V} {l o} (h : FreeChain d l o) : ∀ j ∈ l, ∃ nx, d.pages[j]? = some (some (.free nx)) := by
  induction l generalizing o with
  | nil => intro j hj; cases hj
  | cons f l ih =>
    obtain ⟨h1, nx, h2, h3⟩ := h
    intro j hj
    rcases List.mem_cons.1 hj with rfl | hj
    · exact ⟨nx, h2⟩
    · exact ih h3 j hj

/-- **C33 (partial): nodes that occur.**  In every state that a covered history (see C28) leads to, every page of the
file has a node that fits into a page, if the types meet the criterion and all keys and values have at most the
declared sizes.  (Those that do not are rejected by an assertion, pager.rs:323 and 332; so `K` and `V` are the types of
the keys and values that pass.) -/
theorem C33_nodes_partial (l : Layout) (ck : Codec K) (cv : Codec V) (hk : ∀ k, (ck.enc k).length ≤ l.keySize)
    (hv : ∀ v, (cv.enc v).length ≤ l.valueSize) (h1 : 1 ≤ l.leafDeg) (h3 : 3 ≤ l.intDeg) (he : 1 ≤ l.optEntry)
    (ho : l.intDeg + 4 ≤ l.intDeg * l.optKey) {p : Pager K V} (hp : Reached l.leafDeg l.intDeg p) (i : Nat)
    (hi : i < p.disk.pages.length) :
    ∃ n, p.disk.pages[i]? = some (some n) ∧ l.Node ck cv n ∧ ((nodeCodec ck cv).enc n).length ≤ l.pageSize := by
  suffices hs : ∃ n, p.disk.pages[i]? = some (some n) ∧ l.Node ck cv n by
    obtain ⟨n, e, hn⟩ := hs
    exact ⟨n, e, hn, C33_fits_partial l ck cv he ho n hn⟩
  obtain ⟨c, n, t, h, rfl⟩ := reached_rel h1 h3 hp
  obtain ⟨fl, hfl, hperm⟩ := h.wf.free
  have hm : i ∈ t.pages ++ fl := by
    rw [hperm.mem_iff, List.mem_range, ← h.wf.pages]; exact hi
  rcases List.mem_append.1 hm with hm | hm
  · rcases shape_of_rep h.rep h.ok i hm with ⟨nd, e, h⟩ | ⟨nd, e, h, h'⟩
    · exact ⟨_, e, h, fun x _ => ⟨hk _, hv _⟩⟩
    · exact ⟨_, e, h, h', fun x _ => hk _⟩
  · obtain ⟨nx, e⟩ := free_of_mem hfl i hm
    exact ⟨_, e, trivial⟩

end

/-! ### Non-vacuity and a violation on bytes -/

/-- `u64` keys and values with the degrees that `new` computes: 169 and 169. -/
example : (Layout.default 8 8 8 8).leafDeg = 169 ∧ (Layout.default 8 8 8 8).intDeg = 169 ∧
    (Layout.default 8 8 8 8).accepted ∧ (Layout.default 8 8 8 8).Fits u64 u64 := by
  refine ⟨by decide, by decide, by decide, C33_fits_partial _ _ _ (by decide) (by decide)⟩

/-- Keys of 8 bytes and values of 2040 bytes: the leaf degree that `new` computes is 1. -/
example : (Layout.default 8 2040 8 8).leafDeg = 1 ∧ (Layout.default 8 2040 8 8).accepted :=
  ⟨by decide, (C33_default_partial 8 2040 8 8 (by decide)).1⟩

/-- Non-zero `u64` keys (whose `Option` takes no extra space) with `u64` values, and the degrees that `new` computes. -/
example : (Layout.default 8 8 0 0).leafDeg = 254 ∧ ¬ (Layout.default 8 8 0 0).Fits u64 u64 := by
  refine ⟨by decide, C33_violated_niche _ _ _ ⟨0, rfl⟩ ⟨0, rfl⟩ rfl (by decide) (by decide)⟩

/-- Non-zero `u64` keys, `u64` values, leaf degree 16, internal degree 3. -/
def nicheLayout : Layout := ⟨8, 8, 0, 0, 16, 3⟩

/-- The state after inserting the keys 1 to `n`. -/
def nicheState (n : Nat) : Pager Nat Nat :=
  (((bp Nat Nat 16 3).run (new 16 3) ((List.range n).map fun i => (.insert (i + 1) i, false))).getD (new 16 3, [])).1

/-- **C33 is violated**: `with_degrees` accepts the layout, and after 16 insertions the leaf takes 293 bytes while its
page has 288.  Written to the file and read back, it cannot be deserialised. -/
theorem C33_violated : nicheLayout.accepted ∧ nicheLayout.pageSize = 288 ∧
    (∃ h, (bp Nat Nat 16 3).run (new 16 3) ((List.range 16).map fun i => (.insert (i + 1) i, false)) = some (nicheState 16, h)) ∧
    ∃ n, (nicheState 16).disk.pages = [some n] ∧ ((nodeCodec u64 u64).enc n).length = 293 ∧
      getPageB nicheLayout u64 u64
        (writeNodeB nicheLayout u64 u64 (List.replicate (nicheLayout.offset 1) 0) 0 n) 0 = none := by
  refine ⟨by decide, by decide, ?_, ?_⟩
  · have : ((bp Nat Nat 16 3).run (new 16 3) ((List.range 16).map fun i => (.insert (i + 1) i, false))).isSome = true := by
      decide +kernel
    obtain ⟨⟨p, h⟩, e⟩ := Option.isSome_iff_exists.1 this
    exact ⟨h, by rw [nicheState, e]; rfl⟩
  · refine ⟨.leaf ⟨16, (List.range 16).map fun i => some (i + 1, i), none⟩, by decide +kernel, by decide +kernel, ?_⟩
    exact Option.isNone_iff_eq_none.1 (by decide +kernel)

/-- With 15 entries the same leaf still fits and is read back. -/
example : getPageB nicheLayout u64 u64 (writeNodeB nicheLayout u64 u64 (List.replicate (nicheLayout.offset 1) 0) 0
    (.leaf ⟨15, (List.range 15).map (fun i => some (i + 1, i)) ++ [none], none⟩)) 0 =
    some (.leaf ⟨15, (List.range 15).map (fun i => some (i + 1, i)) ++ [none], none⟩) := by
  decide +kernel

/-- `Stores` is met by a file with a header and one page. -/
example : Stores ⟨8, 8, 8, 8, 2, 3⟩ u64 u64
    (writeNodeB ⟨8, 8, 8, 8, 2, 3⟩ u64 u64 (writeHdrB ⟨8, 8, 8, 8, 2, 3⟩
      (List.replicate (Layout.offset ⟨8, 8, 8, 8, 2, 3⟩ 1) 0) (new 2 3 : Pager Nat Nat).md) 0 (.leaf (LNode.new 2)))
    (new 2 3 : Pager Nat Nat).disk := by
  refine C33_write_node (d := ⟨(new 2 3 : Pager Nat Nat).md, [none]⟩)
    (C33_fits_partial _ _ _ (by decide) (by decide)) ?_ (by decide) ⟨rfl, by intro e he; simp [LNode.new] at he⟩
  refine ⟨by decide +kernel, ?_, ?_⟩
  · exact readAt_same (by decide +kernel) (by decide +kernel)
  · intro i n h
    match i, h with
    | 0, h => cases h
    | i + 1, h => simp at h

end Verif.Bp
