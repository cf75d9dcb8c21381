/- Property C66: the size of a `RadixMap` and the number of byte comparisons of its calls. -/
import Verif.Radix.IterMut

namespace Verif.Radix

open Verif.Spec

variable {V : Type}

/-! ### The calls, counting comparisons of bytes

Each function returns the result of the function of the same name (without `C`) in Model.lean together with the number
of comparisons of two bytes it makes; `C66_same_results` below shows that the results are the same. -/

/-- tree.rs:9-13 (51-55, 90-94, 113-117): the zip/position expression; one comparison per pair. -/
def mismatchC : Key → Key → Option Nat × Nat
  | a :: as, b :: bs => if a ≠ b then (some 0, 1) else ((mismatchC as bs).1.map (· + 1), (mismatchC as bs).2 + 1)
  | _, _ => (none, 0)

/-- tree.rs:9-22: as `cmpKey`; comparing the lengths compares no bytes. -/
def cmpKeyC (k key : Key) : Cmp × Nat :=
  match mismatchC k key with
  | (some i, n) => (.split i, n)
  | (none, n) => (if k.length < key.length then .less else if k.length = key.length then .equal else .greater, n)

/-- node.rs:25-33 `get`: one comparison per sibling. -/
def getChildC (byte : Byte) : Tree V → Option (Tree V) × Nat
  | .nil => (some .nil, 0)
  | .node [] _ _ _ => (none, 0)
  | .node (b :: k) v next child =>
    if b ≠ byte then ((getChildC byte next).1, (getChildC byte next).2 + 1) else (some (.node (b :: k) v next child), 1)

/-- node.rs:61-76 `insert_child`: one comparison per sibling passed. -/
def insertChildC (nb : Byte) (nk : Key) (nv : Option V) (nc : Tree V) : Tree V → Option (Tree V) × Nat
  | .nil => (some (.node (nb :: nk) nv .nil nc), 0)
  | .node [] _ _ _ => (none, 0)
  | .node (b :: k) v next child =>
    if b > nb then (some (.node (nb :: nk) nv (.node (b :: k) v next child) nc), 1)
    else ((insertChildC nb nk nv nc next).1.map fun next => .node (b :: k) v next child,
      (insertChildC nb nk nv nc next).2 + 1)

/-- As `insertLeaf`. -/
def insertLeafC (key : Key) (value : V) (children : Tree V) : Option (Tree V) × Nat :=
  match key with
  | [] => (none, 0)
  | b :: k => insertChildC b k (some value) .nil children

/-- As `splitChild` (node.rs:53-59). -/
def splitChildC (key : Key) (value : Option V) (child : Tree V) : Option (Tree V) × Nat :=
  match key with
  | [] => (none, 0)
  | b :: k => insertChildC b k value child .nil

/-- tree.rs:9-40: line 26 `contains` searches the children, line 27 searches them again with `get_mut`, which is
counted in `sub`. -/
def insertNodeC (k : Key) (v : Option V) (next child : Tree V) (key : Key) (value : V)
    (sub : Option (Tree V × Option V) × Nat) : Option (Tree V × Option V) × Nat :=
  match cmpKeyC k key with
  | (.split i, n) =>
    match splitChildC (k.drop i) v child with
    | (none, m) => (none, n + m)
    | (some c, m) => ((insertLeafC (key.drop i) value c).1.map fun c => (.node (k.take i) none next c, none),
        n + m + (insertLeafC (key.drop i) value c).2)
  | (.less, n) =>
    match key.drop k.length with
    | [] => (none, n)
    | byte :: rest =>
      match getChildC byte child with
      | (none, m) => (none, n + m)
      | (some .nil, m) => ((insertLeafC (byte :: rest) value child).1.map fun c => (.node k v next c, none),
          n + m + (insertLeafC (byte :: rest) value child).2)
      | (some (.node ..), m) => (sub.1.map fun (c, r) => (.node k v next c, r), n + m + sub.2)
  | (.greater, n) => ((splitChildC (k.drop key.length) v child).1.map fun c => (.node (k.take key.length) (some value) next c, none),
      n + (splitChildC (k.drop key.length) v child).2)
  | (.equal, n) => (some (.node k (some value) next child, v), n)

/-- tree.rs:7-41 `insert` on the tree that `get_mut(byte)` finds (node.rs:35-51: one comparison per sibling). -/
def insertInC (key : Key) (value : V) : Tree V → Option (Tree V × Option V) × Nat
  | .nil => (none, 0)
  | .node k v next child =>
    match k, key with
    | b :: _, byte :: _ =>
      if b ≠ byte then
        ((insertInC key value next).1.map fun (next, r) => (.node k v next child, r), (insertInC key value next).2 + 1)
      else
        ((insertNodeC k v next child key value (insertInC (key.drop k.length) value child)).1,
          (insertNodeC k v next child key value (insertInC (key.drop k.length) value child)).2 + 1)
    | _, _ => (none, 0)

/-- tree.rs:7-41 `insert` at the root. -/
def insertC (key : Key) (value : V) : Tree V → Option (Tree V × Option V) × Nat
  | .nil => (none, 0)
  | .node k v next child => insertNodeC k v next child key value (insertInC (key.drop k.length) value child)

/-- tree.rs:47-82, the body of `remove`; `merge` and the replacement of an empty node compare no bytes. -/
def removeNodeC (k : Key) (v : Option V) (next child : Tree V) (key : Key)
    (sub : Option (Tree V × Option V) × Nat) : Option (Tree V × Option V) × Nat :=
  match cmpKeyC k key with
  | (.split _, n) => (some (.node k v next child, none), n)
  | (.less, n) => (sub.1.map fun (c, r) => (replace (mergeNode k v next c), r), n + sub.2)
  | (.greater, n) => (some (.node k v next child, none), n)
  | (.equal, n) => (some (replace (mergeNode k none next child), v), n)

/-- tree.rs:43-83 `remove` on the tree that `get_mut(byte)` finds. -/
def removeInC (key : Key) : Tree V → Option (Tree V × Option V) × Nat
  | .nil => (some (.nil, none), 0)
  | .node k v next child =>
    match k, key with
    | b :: _, byte :: _ =>
      if b ≠ byte then
        ((removeInC key next).1.map fun (next, r) => (.node k v next child, r), (removeInC key next).2 + 1)
      else
        ((removeNodeC k v next child key (removeInC (key.drop k.length) child)).1,
          (removeNodeC k v next child key (removeInC (key.drop k.length) child)).2 + 1)
    | _, _ => (none, 0)

/-- tree.rs:43-83 `remove` at the root. -/
def removeC (key : Key) : Tree V → Option (Tree V × Option V) × Nat
  | .nil => (some (.nil, none), 0)
  | .node k v next child => removeNodeC k v next child key (removeInC (key.drop k.length) child)

/-- tree.rs:90-105, the body of `get`. -/
def getNodeC (k : Key) (v : Option V) (key : Key) (sub : Option (Option V) × Nat) : Option (Option V) × Nat :=
  match cmpKeyC k key with
  | (.split _, n) => (some none, n)
  | (.less, n) => (sub.1, n + sub.2)
  | (.greater, n) => (some none, n)
  | (.equal, n) => (some v, n)

/-- tree.rs:85-106 `get` on the tree that `Node::get(byte)` finds (node.rs:25-33: one comparison per sibling). -/
def getInC (key : Key) : Tree V → Option (Option V) × Nat
  | .nil => (some none, 0)
  | .node k v next child =>
    match k, key with
    | b :: _, byte :: _ =>
      if b ≠ byte then ((getInC key next).1, (getInC key next).2 + 1)
      else ((getNodeC k v key (getInC (key.drop k.length) child)).1,
        (getNodeC k v key (getInC (key.drop k.length) child)).2 + 1)
    | _, _ => (none, 0)

/-- tree.rs:85-106 `get` at the root (`get_mut`, 108-129, makes the same comparisons). -/
def getC (key : Key) : Tree V → Option (Option V) × Nat
  | .nil => (some none, 0)
  | .node k v _ child => getNodeC k v key (getInC (key.drop k.length) child)

/-! ### The results are those of the model -/

theorem mismatchC_fst (k key : Key) : (mismatchC k key).1 = mismatch k key := by
  induction k generalizing key with
  | nil => rfl
  | cons a k ih =>
    cases key with
    | nil => rfl
    | cons b key =>
      simp only [mismatchC, mismatch]
      split
      · rfl
      · rw [← ih]

theorem cmpKeyC_fst (k key : Key) : (cmpKeyC k key).1 = cmpKey k key := by
  unfold cmpKeyC cmpKey
  rw [← mismatchC_fst]
  split <;> rename_i h <;> simp [h]

theorem getChildC_fst (byte : Byte) (t : Tree V) : (getChildC byte t).1 = getChild byte t := by
  induction t with
  | nil => rfl
  | node k v next child ih _ =>
    cases k with
    | nil => rfl
    | cons b k =>
      simp only [getChildC, getChild]
      split
      · exact ih
      · rfl

theorem insertChildC_fst (nb : Byte) (nk : Key) (nv : Option V) (nc t : Tree V) :
    (insertChildC nb nk nv nc t).1 = insertChild nb nk nv nc t := by
  induction t with
  | nil => rfl
  | node k v next child ih _ =>
    cases k with
    | nil => rfl
    | cons b k =>
      simp only [insertChildC, insertChild]
      split
      · rfl
      · rw [ih]

theorem insertLeafC_fst (key : Key) (value : V) (t : Tree V) : (insertLeafC key value t).1 = insertLeaf key value t := by
  cases key with
  | nil => rfl
  | cons b k => exact insertChildC_fst ..

theorem splitChildC_fst (key : Key) (value : Option V) (t : Tree V) :
    (splitChildC key value t).1 = splitChild key value t := by
  cases key with
  | nil => rfl
  | cons b k => exact insertChildC_fst ..

theorem insertNodeC_fst (k : Key) (v : Option V) (next child : Tree V) (key : Key) (value : V)
    (sub : Option (Tree V × Option V) × Nat) :
    (insertNodeC k v next child key value sub).1 = insertNode k v next child key value sub.1 := by
  unfold insertNodeC insertNode
  rw [← cmpKeyC_fst]
  cases hc : cmpKeyC k key with
  | mk c n =>
    cases c with
    | split i =>
      dsimp only
      rw [← splitChildC_fst]
      cases splitChildC (k.drop i) v child with
      | mk o m =>
        cases o with
        | none => rfl
        | some c => dsimp only; rw [insertLeafC_fst]
    | less =>
      dsimp only
      cases key.drop k.length with
      | nil => rfl
      | cons byte rest =>
        dsimp only
        rw [← getChildC_fst]
        cases getChildC byte child with
        | mk o m =>
          cases o with
          | none => rfl
          | some t =>
            cases t with
            | nil => dsimp only; rw [insertLeafC_fst]
            | node => rfl
    | greater => dsimp only; rw [splitChildC_fst]
    | equal => rfl

theorem insertInC_fst (key : Key) (value : V) (t : Tree V) : (insertInC key value t).1 = insertIn key value t := by
  induction t generalizing key with
  | nil => rfl
  | node k v next child ih1 ih2 =>
    cases k with
    | nil => rfl
    | cons b k =>
      cases key with
      | nil => rfl
      | cons byte key =>
        simp only [insertInC, insertIn]
        split
        · rw [ih1]
        · rw [insertNodeC_fst, ih2]

theorem removeNodeC_fst (k : Key) (v : Option V) (next child : Tree V) (key : Key)
    (sub : Option (Tree V × Option V) × Nat) :
    (removeNodeC k v next child key sub).1 = removeNode k v next child key sub.1 := by
  unfold removeNodeC removeNode
  rw [← cmpKeyC_fst]
  cases cmpKeyC k key with
  | mk c n => cases c <;> rfl

theorem removeInC_fst (key : Key) (t : Tree V) : (removeInC key t).1 = removeIn key t := by
  induction t generalizing key with
  | nil => rfl
  | node k v next child ih1 ih2 =>
    cases k with
    | nil => rfl
    | cons b k =>
      cases key with
      | nil => rfl
      | cons byte key =>
        simp only [removeInC, removeIn]
        split
        · rw [ih1]
        · rw [removeNodeC_fst, ih2]

theorem getNodeC_fst (k : Key) (v : Option V) (key : Key) (sub : Option (Option V) × Nat) :
    (getNodeC k v key sub).1 = getNode k v key sub.1 := by
  unfold getNodeC getNode
  rw [← cmpKeyC_fst]
  cases cmpKeyC k key with
  | mk c n => cases c <;> rfl

theorem getInC_fst (key : Key) (t : Tree V) : (getInC key t).1 = getIn key t := by
  induction t generalizing key with
  | nil => rfl
  | node k v next child ih1 ih2 =>
    cases k with
    | nil => rfl
    | cons b k =>
      cases key with
      | nil => rfl
      | cons byte key =>
        simp only [getInC, getIn]
        split
        · rw [ih1]
        · rw [getNodeC_fst, ih2]

/-- The counting functions return what the functions of the model return. -/
theorem C66_same_results (key : Key) (value : V) (t : Tree V) :
    (getC key t).1 = get key t ∧ (removeC key t).1 = remove key t ∧ (insertC key value t).1 = insert key value t := by
  cases t with
  | nil => exact ⟨rfl, rfl, rfl⟩
  | node k v next child =>
    refine ⟨?_, ?_, ?_⟩
    · simp only [getC, get]; rw [getNodeC_fst, getInC_fst]
    · simp only [removeC, remove]; rw [removeNodeC_fst, removeInC_fst]
    · simp only [insertC, insert]; rw [insertNodeC_fst, insertInC_fst]

/-! ### Comparisons -/

theorem mismatchC_le (k key : Key) : (mismatchC k key).2 ≤ k.length ∧ (mismatchC k key).2 ≤ key.length := by
  induction k generalizing key with
  | nil => simp [mismatchC]
  | cons a k ih =>
    cases key with
    | nil => simp [mismatchC]
    | cons b key =>
      simp only [mismatchC]
      split
      · simp
      · have := ih key; simp only [List.length_cons]; omega

theorem cmpKeyC_le (k key : Key) : (cmpKeyC k key).2 ≤ k.length ∧ (cmpKeyC k key).2 ≤ key.length := by
  have := mismatchC_le k key
  unfold cmpKeyC
  split <;> rename_i h <;> rw [h] at this <;> exact this

theorem cmpKeyC_less {k key : Key} {n : Nat} (h : cmpKeyC k key = (.less, n)) : k.length < key.length := by
  unfold cmpKeyC at h
  split at h
  · cases h
  · simp only [Prod.mk.injEq] at h
    split at h
    · assumption
    · split at h <;> cases h.1

/-- How many siblings there is room for: their first bytes ascend. -/
def room : Tree V → Nat
  | .node (b :: _) _ _ _ => 256 - b.val
  | _ => 0

theorem room_le (t : Tree V) : room t ≤ 256 := by
  unfold room; split <;> omega

theorem room_next {b : Byte} {k : Key} {v : Option V} {next child : Tree V} (h : Above b next) :
    room next + 1 ≤ room (.node (b :: k) v next child) := by
  have hb := b.isLt
  cases next with
  | nil => simp only [room]; omega
  | node k' _ _ _ =>
    cases k' with
    | nil => exact absurd h id
    | cons c k' =>
      have : b.val < c.val := h
      simp only [room]
      omega

theorem getChildC_le (byte : Byte) (t : Tree V) (h : Wf t) : (getChildC byte t).2 ≤ room t := by
  induction t with
  | nil => simp [getChildC]
  | node k v next child ih _ =>
    cases k with
    | nil => exact absurd h id
    | cons b k =>
      have hr := room_next (k := k) (v := v) (child := child) h.1
      have := ih h.2.2.1
      simp only [getChildC]
      split <;> dsimp only <;> omega

theorem insertChildC_le (nb : Byte) (nk : Key) (nv : Option V) (nc t : Tree V) (h : Wf t) :
    (insertChildC nb nk nv nc t).2 ≤ room t := by
  induction t with
  | nil => simp [insertChildC]
  | node k v next child ih _ =>
    cases k with
    | nil => exact absurd h id
    | cons b k =>
      have hr := room_next (k := k) (v := v) (child := child) h.1
      have := ih h.2.2.1
      simp only [insertChildC]
      split <;> dsimp only <;> omega

theorem insertLeafC_le (key : Key) (value : V) (t : Tree V) (h : Wf t) : (insertLeafC key value t).2 ≤ 256 := by
  cases key with
  | nil => simp [insertLeafC]
  | cons b k => exact le_trans (insertChildC_le _ _ _ _ _ h) (room_le t)

theorem getNodeC_le (k : Key) (v : Option V) (key : Key) (sub : Option (Option V) × Nat) (N : Nat)
    (h : k.length < key.length → sub.2 ≤ N - k.length) (hN : key.length ≤ N) : (getNodeC k v key sub).2 ≤ N := by
  have hc := cmpKeyC_le k key
  unfold getNodeC
  cases he : cmpKeyC k key with
  | mk c n =>
    rw [he] at hc
    cases c with
    | less =>
      have hl := cmpKeyC_less he
      have := h hl
      dsimp only at hc ⊢; omega
    | _ => dsimp only at hc ⊢; omega

theorem getInC_le (key : Key) (t : Tree V) (h : Wf t) (hk : key ≠ []) :
    (getInC key t).2 ≤ room t + key.length + 256 * (key.length - 1) := by
  induction t generalizing key with
  | nil => simp [getInC]
  | node k v next child ih1 ih2 =>
    cases k with
    | nil => exact absurd h id
    | cons b k =>
      cases key with
      | nil => exact absurd rfl hk
      | cons byte key =>
        have hr := room_next (k := k) (v := v) (child := child) h.1
        simp only [getInC]
        split
        · have := ih1 (byte :: key) h.2.2.1 hk
          dsimp only; omega
        · have : (getNodeC (b :: k) v (byte :: key) (getInC ((byte :: key).drop (b :: k).length) child)).2 ≤
              (byte :: key).length + 256 * ((byte :: key).length - 1) := by
            refine getNodeC_le _ _ _ _ _ (fun hl => ?_) (by omega)
            have h2 := ih2 ((byte :: key).drop (b :: k).length) h.2.2.2 (by
              intro he; rw [List.drop_eq_nil_iff] at he; omega)
            have h3 := room_le child
            rw [List.length_drop] at h2
            simp only [List.length_cons] at *
            omega
          dsimp only; omega

theorem removeNodeC_le (k : Key) (v : Option V) (next child : Tree V) (key : Key)
    (sub : Option (Tree V × Option V) × Nat) (N : Nat)
    (h : k.length < key.length → sub.2 ≤ N - k.length) (hN : key.length ≤ N) :
    (removeNodeC k v next child key sub).2 ≤ N := by
  have hc := cmpKeyC_le k key
  unfold removeNodeC
  cases he : cmpKeyC k key with
  | mk c n =>
    rw [he] at hc
    cases c with
    | less =>
      have hl := cmpKeyC_less he
      have := h hl
      dsimp only at hc ⊢; omega
    | _ => dsimp only at hc ⊢; omega

theorem removeInC_le (key : Key) (t : Tree V) (h : Wf t) (hk : key ≠ []) :
    (removeInC key t).2 ≤ room t + key.length + 256 * (key.length - 1) := by
  induction t generalizing key with
  | nil => simp [removeInC]
  | node k v next child ih1 ih2 =>
    cases k with
    | nil => exact absurd h id
    | cons b k =>
      cases key with
      | nil => exact absurd rfl hk
      | cons byte key =>
        have hr := room_next (k := k) (v := v) (child := child) h.1
        simp only [removeInC]
        split
        · have := ih1 (byte :: key) h.2.2.1 hk
          dsimp only; omega
        · have : (removeNodeC (b :: k) v next child (byte :: key) (removeInC ((byte :: key).drop (b :: k).length) child)).2 ≤
              (byte :: key).length + 256 * ((byte :: key).length - 1) := by
            refine removeNodeC_le _ _ _ _ _ _ _ (fun hl => ?_) (by omega)
            have h2 := ih2 ((byte :: key).drop (b :: k).length) h.2.2.2 (by
              intro he; rw [List.drop_eq_nil_iff] at he; omega)
            have h3 := room_le child
            rw [List.length_drop] at h2
            simp only [List.length_cons] at *
            omega
          dsimp only; omega

theorem insertNodeC_le (k : Key) (v : Option V) (next child : Tree V) (hw : Wf child) (key : Key) (value : V)
    (sub : Option (Tree V × Option V) × Nat) (N : Nat)
    (h : k.length < key.length → k.length + 256 + sub.2 ≤ N ∧ k.length + 512 ≤ N) (hN : key.length + 1 ≤ N) :
    (insertNodeC k v next child key value sub).2 ≤ N := by
  have hc := cmpKeyC_le k key
  unfold insertNodeC
  cases he : cmpKeyC k key with
  | mk c n =>
    rw [he] at hc
    cases c with
    | split i =>
      dsimp only at hc ⊢
      cases hs : splitChildC (k.drop i) v child with
      | mk o m =>
        have hm : m = 0 ∧ ∀ c, o = some c → (insertLeafC (key.drop i) value c).2 ≤ 1 := by
          unfold splitChildC at hs
          split at hs
          · cases hs; exact ⟨rfl, fun c hc => by cases hc⟩
          · simp only [insertChildC, Prod.mk.injEq] at hs
            refine ⟨hs.2.symm, fun c hc => ?_⟩
            rw [← hs.1] at hc
            cases hc
            unfold insertLeafC
            split
            · simp
            · simp only [insertChildC]
              split <;> simp
        cases o with
        | none => dsimp only; omega
        | some c => have := hm.2 c rfl; dsimp only; omega
    | less =>
      have hl := cmpKeyC_less he
      have := h hl
      dsimp only at hc ⊢
      split
      · dsimp only; omega
      · rename_i byte rest hd
        have hg := le_trans (getChildC_le byte child hw) (room_le child)
        have hi := insertLeafC_le (byte :: rest) value child hw
        split <;> rename_i h' <;> rw [h'] at hg <;> dsimp only at hg ⊢ <;> omega
    | greater =>
      dsimp only at hc ⊢
      have : (splitChildC (k.drop key.length) v child).2 = 0 := by
        unfold splitChildC
        split <;> simp [insertChildC]
      omega
    | equal => dsimp only at hc ⊢; omega

theorem insertInC_le (key : Key) (value : V) (t : Tree V) (h : Wf t) (hk : key ≠ []) :
    (insertInC key value t).2 ≤ room t + 513 * key.length := by
  induction t generalizing key with
  | nil => simp [insertInC]
  | node k v next child ih1 ih2 =>
    cases k with
    | nil => exact absurd h id
    | cons b k =>
      cases key with
      | nil => exact absurd rfl hk
      | cons byte key =>
        have hr := room_next (k := k) (v := v) (child := child) h.1
        simp only [insertInC]
        split
        · have := ih1 (byte :: key) h.2.2.1 hk
          dsimp only; omega
        · have : (insertNodeC (b :: k) v next child (byte :: key) value
              (insertInC ((byte :: key).drop (b :: k).length) value child)).2 ≤ 513 * (byte :: key).length := by
            refine insertNodeC_le _ _ _ _ h.2.2.2 _ _ _ _ (fun hl => ?_) (by simp only [List.length_cons]; omega)
            have h2 := ih2 ((byte :: key).drop (b :: k).length) h.2.2.2 (by
              intro he; rw [List.drop_eq_nil_iff] at he; omega)
            have h3 := room_le child
            rw [List.length_drop] at h2
            simp only [List.length_cons] at *
            omega
          dsimp only; omega

/-- **C66, time.**  In every reachable map `get` (also `contains_key`, `get_mut`) and `remove` compare at most 257
bytes for every byte of their key, and `insert` at most 513 for every byte and 512 more, however many entries there
are and however long the other keys are. -/
theorem C66_comparisons {s : RadixMap V} (h : Reached s) (key : Key) (value : V) :
    (getC key s.root).2 ≤ 257 * key.length ∧ (removeC key s.root).2 ≤ 257 * key.length ∧
      (insertC key value s.root).2 ≤ 513 * key.length + 512 := by
  have hr := (reached_inv h).1
  cases hs : s.root with
  | nil => simp [getC, removeC, insertC]
  | node k v next child =>
    rw [hs] at hr
    obtain ⟨rfl, hc, -⟩ := hr
    have h3 := room_le child
    have hne : k.length < key.length → key.drop k.length ≠ [] := by
      intro hl he; rw [List.drop_eq_nil_iff] at he; omega
    refine ⟨?_, ?_, ?_⟩
    · refine getNodeC_le _ _ _ _ _ (fun hl => ?_) (by omega)
      have h2 := getInC_le (key.drop k.length) child hc (hne hl)
      rw [List.length_drop] at h2
      omega
    · refine removeNodeC_le _ _ _ _ _ _ _ (fun hl => ?_) (by omega)
      have h2 := removeInC_le (key.drop k.length) child hc (hne hl)
      rw [List.length_drop] at h2
      omega
    · refine insertNodeC_le _ _ _ _ hc _ _ _ _ (fun hl => ?_) (by omega)
      have h2 := insertInC_le (key.drop k.length) value child hc (hne hl)
      rw [List.length_drop] at h2
      omega

/-! ### Space -/

/-- The bytes stored in the keys of the nodes. -/
def Tree.bytes : Tree V → Nat
  | .nil => 0
  | .node k _ next child => k.length + next.bytes + child.bytes

/-- Number of siblings. -/
def sibs : Tree V → Nat
  | .nil => 0
  | .node _ _ next _ => 1 + sibs next

theorem multi_sibs {t : Tree V} (h : t.multi = true) : 2 ≤ sibs t := by
  cases t with
  | nil => cases h
  | node k v next child =>
    cases next with
    | nil => cases h
    | node => simp only [sibs]; omega

theorem size_le {t : Tree V} (h : Wf t) (p : Key) : t.size + sibs t ≤ 2 * (entries p t).length := by
  induction t generalizing p with
  | nil => simp [Tree.size, sibs]
  | node k v next child ih1 ih2 =>
    cases k with
    | nil => exact absurd h id
    | cons b k =>
      obtain ⟨-, hv, hn, hc⟩ := h
      have h1 := ih1 hn p
      have h2 := ih2 hc (p ++ b :: k)
      simp only [Tree.size, sibs, entries, List.length_append, List.length_map]
      rcases hv with hv | hv
      · obtain ⟨w, rfl⟩ := Option.isSome_iff_exists.1 hv
        simp only [Option.toList_some, List.length_singleton]
        omega
      · have := multi_sibs hv
        omega

theorem entries_pos {v : Option V} {child : Tree V} (hc : Wf child) (h : v.isSome = true ∨ child.multi = true) (p : Key) :
    1 ≤ v.toList.length + (entries p child).length := by
  rcases h with h | h
  · obtain ⟨w, rfl⟩ := Option.isSome_iff_exists.1 h
    simp
  · have h1 := multi_sibs h
    have h2 := size_le hc p
    omega

/-- Bytes of all keys together. -/
def keyBytes (l : List (Key × V)) : Nat := (l.map fun e => e.1.length).sum

theorem keyBytes_append (a b : List (Key × V)) : keyBytes (a ++ b) = keyBytes a + keyBytes b := by simp [keyBytes]

theorem keyBytes_val (p : Key) (v : Option V) : keyBytes (v.toList.map fun v => (p, v)) = v.toList.length * p.length := by
  cases v <;> simp [keyBytes]

theorem bytes_le {t : Tree V} (h : Wf t) (p : Key) : t.bytes + (entries p t).length * p.length ≤ keyBytes (entries p t) := by
  induction t generalizing p with
  | nil => simp [Tree.bytes, entries, keyBytes]
  | node k v next child ih1 ih2 =>
    cases k with
    | nil => exact absurd h id
    | cons b k =>
      obtain ⟨-, hv, hn, hc⟩ := h
      have h1 := ih1 hn p
      have h2 := ih2 hc (p ++ b :: k)
      have h3 := entries_pos hc hv (p ++ b :: k)
      simp only [Tree.bytes, entries, keyBytes_append, keyBytes_val, List.length_append, List.length_map] at *
      have h4 : (b :: k).length ≤ (v.toList.length + (entries (p ++ b :: k) child).length) * (b :: k).length :=
        Nat.le_mul_of_pos_left _ h3
      simp only [Nat.add_mul, Nat.mul_add] at *
      omega

/-- **C66, space.**  In every reachable map there are at most twice as many nodes as entries (one node if there are no
entries), and the nodes hold together no more bytes of keys than the keys of the entries have; this holds after removals
too.  `l` is what `iter` yields. -/
theorem C66_space {s : RadixMap V} (h : Reached s) :
    ∃ l, s.iter = some l ∧ s.len = l.length ∧ s.root.size ≤ max 1 (2 * l.length) ∧
      s.root.bytes ≤ (l.map fun e => e.1.length).sum := by
  obtain ⟨hr, hl⟩ := reached_inv h
  refine ⟨_, iter_eq h, hl, ?_, ?_⟩
  · cases hs : s.root with
    | nil => simp [Tree.size]
    | node k v next child =>
      rw [hs] at hr
      obtain ⟨rfl, hc, -⟩ := hr
      have h1 := size_le hc k
      simp only [entries, Tree.size, List.nil_append, List.append_nil, List.length_append, List.length_map] at *
      cases child with
      | nil => simp only [Tree.size]; omega
      | node => simp only [sibs] at h1; omega
  · cases hs : s.root with
    | nil => simp [Tree.bytes]
    | node k v next child =>
      rw [hs] at hr
      obtain ⟨rfl, hc, hk⟩ := hr
      have h1 := bytes_le hc k
      show _ ≤ keyBytes _
      simp only [entries, Tree.bytes, List.nil_append, List.append_nil, keyBytes_append, keyBytes_val] at *
      rcases hk with rfl | hk
      · simp only [List.length_nil, Nat.mul_zero] at *; omega
      · have h3 := entries_pos hc hk k
        have h4 : k.length ≤ (v.toList.length + (entries k child).length) * k.length := Nat.le_mul_of_pos_left _ h3
        rw [Nat.add_mul] at h4
        omega

/-! ### Concrete cases -/

/-- Keys "ab", "ac", "b" inserted in this order. -/
def costOps : List (MapOp Key Nat) := [.insert [97, 98] 1, .insert [97, 99] 2, .insert [98] 3]

/-- The bounds are met with equality for one entry, and for three entries there are five nodes: the empty root, "a", its
children "b" and "c", and "b". -/
example : (∃ s h, runNew [MapOp.insert [97] 1] = some (s, h) ∧ s.root.size = 2 * s.len ∧ s.root.bytes = 1) ∧
    ∃ s h, runNew costOps = some (s, h) ∧ (∀ op ∈ costOps, Supported op) ∧ s.len = 3 ∧ s.root.size = 5 ∧
      s.root.bytes = 4 ∧ (getC [97, 99] s.root).2 = 5 ∧ (getC [98] s.root).2 = 3 ∧ (removeC [97, 99] s.root).2 = 5 ∧
      (insertC [97, 100] 4 s.root).2 = 7 := by
  refine ⟨⟨_, _, rfl, by decide, by decide⟩, _, _, rfl, ?_, by decide, by decide, by decide, by decide, by decide, by decide, by decide⟩
  intro op h
  simp only [costOps, List.mem_cons, List.not_mem_nil, or_false] at h
  rcases h with rfl | rfl | rfl <;> trivial

end Verif.Radix
