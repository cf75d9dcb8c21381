/- Model of the mutable in-order iterators (`iter_mut`) of the AVL, red-black, splay and treap maps.
A `&mut` into the tree is modelled by the path from the root to the node it points at; the tree
itself is the store that reads and writes through such references go to. -/
import Verif.Bst.Lemmas

namespace Verif.Bst

/-- One step down the tree (`node.left` / `node.right`). -/
inductive Dir
  | left
  | right
  deriving DecidableEq

/-- A reference to a (possibly absent) subtree: the way to it from the root. -/
abbrev Path := List Dir

namespace Tree

variable {A K V : Type}

/-- The subtree a reference points at. -/
def sub : Tree A K V → Path → Tree A K V
  | t, [] => t
  | nil, _ :: _ => nil
  | node _ l _ _ _, .left :: p => l.sub p
  | node _ _ _ _ r, .right :: p => r.sub p

/-- The entry of the node a reference points at. -/
def entryAt (t : Tree A K V) (p : Path) : Option (K × V) :=
  match t.sub p with
  | nil => none
  | node _ _ k v _ => some (k, v)

/-- `*value = f(*value)` through a reference to a node's value. -/
def writeAt (f : V → V) : Tree A K V → Path → Tree A K V
  | nil, _ => nil
  | node a l k v r, [] => node a l k (f v) r
  | node a l k v r, .left :: p => node a (writeAt f l p) k v r
  | node a l k v r, .right :: p => node a l k v (writeAt f r p)

end Tree

/-- `AvlMapIterMut` and its copies: avl_tree/map.rs:457-460, red_black_tree/map.rs:473-476,
splay_tree/map.rs:464-467, treap/map.rs:654-657.  `current` is `None` or a reference to a subtree;
the stack holds references to an entry and to the right subtree beside it. -/
structure IterMut where
  current : Option Path
  stack : List (Path × Path)

namespace IterMut

variable {A K V : Type}

/-- The loop of `next`: avl_tree/map.rs:474-479, red_black_tree/map.rs:490-495, splay_tree/map.rs:481-486,
treap/map.rs:671-676.  The first argument is the subtree `current` points at. -/
def descend : Tree A K V → Path → List (Path × Path) → List (Path × Path)
  | .nil, _, st => st
  | .node _ l _ _ _, p, st => descend l (p ++ [.left]) ((p, p ++ [.right]) :: st)

/-- `next`: avl_tree/map.rs:469-492, red_black_tree/map.rs:485-508, splay_tree/map.rs:476-499,
treap/map.rs:666-689.  Returns the reference to the entry. -/
def next (t : Tree A K V) (it : IterMut) : Option Path × IterMut :=
  match (match it.current with
    | none => it.stack
    | some p => descend (t.sub p) p it.stack) with
  | [] => (none, ⟨none, []⟩)
  | (p, r) :: st => (some p, ⟨some r, st⟩)

/-- `iter_mut()`: avl_tree/map.rs:344-349, red_black_tree/map.rs:360-365, splay_tree/map.rs:351-356,
treap/map.rs:541-546. -/
def start : IterMut := ⟨some [], []⟩

/-- The references returned by the first `n` calls of `next`, no write happening in between. -/
def take (t : Tree A K V) : Nat → IterMut → List (Option Path)
  | 0, _ => []
  | n + 1, it => (it.next t).1 :: take t n (it.next t).2

/-- One round of `for (k, v) in map.iter_mut() { *v = f(*v) }`: call `next`, report the entry seen,
write through the reference. -/
def stepWrite (t : Tree A K V) (it : IterMut) (f : V → V) :
    Option (K × V) × Tree A K V × IterMut :=
  match it.next t with
  | (none, it') => (none, t, it')
  | (some p, it') => (t.entryAt p, t.writeAt f p, it')

/-- Successive rounds with the given update functions. -/
def runWrite : List (V → V) → Tree A K V → IterMut → List (Option (K × V)) × Tree A K V × IterMut
  | [], t, it => ([], t, it)
  | f :: fs, t, it =>
    let (e, t', it') := stepWrite t it f
    let (es, t'', it'') := runWrite fs t' it'
    (e :: es, t'', it'')

end IterMut

/-! ### Lemmas -/

theorem modify_append_lt {α : Type} (f : α → α) (l r : List α) {i : Nat} (h : i < l.length) :
    (l ++ r).modify i f = l.modify i f ++ r := by
  induction l generalizing i with
  | nil => simp at h
  | cons a l ih =>
    cases i with
    | zero => rfl
    | succ i => simp at h; simp [ih h]

theorem modify_append_add {α : Type} (f : α → α) (l r : List α) (i : Nat) :
    (l ++ r).modify (l.length + i) f = l ++ r.modify i f := by
  induction l with
  | nil => simp
  | cons a l ih => rw [List.length_cons, Nat.add_right_comm, List.cons_append, List.modify_succ_cons, ih]; rfl

namespace Tree

variable {A K V : Type}

/-- References to all nodes, in order. -/
def paths : Tree A K V → List Path
  | nil => []
  | node _ l _ _ r => l.paths.map (.left :: ·) ++ [] :: r.paths.map (.right :: ·)

/-- The tree without its contents. -/
def shape : Tree A K V → Tree Unit Unit Unit
  | nil => nil
  | node _ l _ _ r => node () l.shape () () r.shape

theorem paths_shape (t : Tree A K V) : t.shape.paths = t.paths := by
  induction t with
  | nil => rfl
  | node a l k v r ihl ihr => simp [shape, paths, ihl, ihr]

theorem shape_sub (t : Tree A K V) (p : Path) : (t.sub p).shape = t.shape.sub p := by
  induction t generalizing p with
  | nil => cases p <;> rfl
  | node a l k v r ihl ihr =>
    cases p with
    | nil => rfl
    | cons d p => cases d <;> simp [sub, shape, ihl, ihr]

theorem shape_writeAt (f : V → V) (t : Tree A K V) (p : Path) : (t.writeAt f p).shape = t.shape := by
  induction t generalizing p with
  | nil => cases p <;> rfl
  | node a l k v r ihl ihr =>
    cases p with
    | nil => rfl
    | cons d p => cases d <;> simp [writeAt, shape, ihl, ihr]

theorem length_paths (t : Tree A K V) : t.paths.length = t.toList.length := by
  induction t with
  | nil => rfl
  | node a l k v r ihl ihr => simp [paths, ihl, ihr]

theorem sub_append (t : Tree A K V) (p q : Path) : t.sub (p ++ q) = (t.sub p).sub q := by
  induction p generalizing t with
  | nil => cases t <;> rfl
  | cons d p ih =>
    cases t with
    | nil => simp only [List.cons_append, sub]; cases q <;> rfl
    | node a l k v r => cases d <;> simp [sub, ih]

theorem entryAt_paths (t : Tree A K V) : t.paths.map t.entryAt = t.toList.map some := by
  induction t with
  | nil => rfl
  | node a l k v r ihl ihr =>
    simp only [paths, List.map_append, List.map_cons, List.map_map, toList_node, ← ihl, ← ihr]
    rfl

theorem paths_nodup (t : Tree A K V) : t.paths.Nodup := by
  induction t with
  | nil => simp [paths]
  | node a l k v r ihl ihr =>
    simp only [paths, List.nodup_append, List.nodup_cons]
    refine ⟨List.Pairwise.map _ (fun a b h h' => h (by simpa using h')) ihl,
      ⟨by simp, List.Pairwise.map _ (fun a b h h' => h (by simpa using h')) ihr⟩, ?_⟩
    simp

theorem toList_writeAt (f : V → V) (t : Tree A K V) {i : Nat} {p : Path} (h : t.paths[i]? = some p) :
    (t.writeAt f p).toList = t.toList.modify i (fun e => (e.1, f e.2)) := by
  induction t generalizing i p with
  | nil => simp [paths] at h
  | node a l k v r ihl ihr =>
    simp only [paths] at h
    rw [List.getElem?_append] at h
    simp only [List.length_map] at h
    split at h
    · rename_i hi
      simp only [List.getElem?_map, Option.map_eq_some_iff] at h
      obtain ⟨q, hq, rfl⟩ := h
      simp only [writeAt, toList_node, ihl hq]
      rw [modify_append_lt _ _ _ (by rw [← length_paths]; exact hi)]
    · rename_i hi
      obtain ⟨j, rfl⟩ := Nat.exists_eq_add_of_le (Nat.not_lt.1 hi)
      rw [length_paths] at h ⊢
      rw [Nat.add_sub_cancel_left] at h
      cases j with
      | zero =>
        simp at h; subst h
        rw [toList_node, modify_append_add]
        simp [writeAt]
      | succ j =>
        simp only [List.getElem?_cons_succ, List.getElem?_map, Option.map_eq_some_iff] at h
        obtain ⟨q, hq, rfl⟩ := h
        simp only [writeAt, toList_node, ihr hq]
        rw [modify_append_add]
        simp

end Tree

namespace IterMut

variable {A K V : Type}

/-- References the iterator still has to hand out. -/
def pending (t : Tree Unit Unit Unit) (it : IterMut) : List Path :=
  (match it.current with
    | none => []
    | some p => (t.sub p).paths.map (p ++ ·)) ++
    it.stack.flatMap fun q => q.1 :: (t.sub q.2).paths.map (q.2 ++ ·)

theorem flatMap_descend (t : Tree A K V) (s : Tree A K V) (p : Path) (st) (hs : s = t.sub p) :
    (descend s p st).flatMap (fun q => q.1 :: (t.shape.sub q.2).paths.map (q.2 ++ ·)) =
      s.paths.map (p ++ ·) ++ st.flatMap (fun q => q.1 :: (t.shape.sub q.2).paths.map (q.2 ++ ·)) := by
  induction s generalizing p st with
  | nil => simp [descend, Tree.paths]
  | node a l k v r ihl ihr =>
    rw [descend, ihl _ _ (by rw [Tree.sub_append, ← hs]; cases l <;> rfl)]
    have : t.sub (p ++ [.right]) = r := by rw [Tree.sub_append, ← hs]; cases r <;> rfl
    simp only [List.flatMap_cons, ← Tree.shape_sub, this, Tree.paths, List.map_append, List.map_cons,
      List.map_map, Tree.paths_shape]
    simp [Function.comp_def]

theorem next_eq (t : Tree A K V) (it : IterMut) :
    (it.next t).1 = (pending t.shape it).head? ∧
      pending t.shape (it.next t).2 = (pending t.shape it).tail := by
  obtain ⟨cur, st⟩ := it
  cases cur with
  | none =>
    cases st with
    | nil => simp [next, pending]
    | cons q st => simp [next, pending]
  | some p =>
    have h := flatMap_descend t (t.sub p) p st rfl
    unfold next pending
    simp only [← Tree.shape_sub t p, Tree.paths_shape, ← h]
    cases descend (t.sub p) p st with
    | nil => simp
    | cons q st => simp

theorem take_eq (t : Tree A K V) (it : IterMut) (n : Nat) :
    it.take t n = (List.range n).map fun i => (pending t.shape it)[i]? := by
  induction n generalizing it with
  | zero => rfl
  | succ n ih =>
    obtain ⟨h1, h2⟩ := next_eq t it
    rw [take, ih, h2, h1, List.range_succ_eq_map, List.map_cons, List.map_map]
    congr 1
    · cases pending t.shape it <;> rfl
    · apply List.map_congr_left; intro i _; cases pending t.shape it <;> simp

theorem pending_start (t : Tree A K V) : pending t.shape start = t.paths := by
  simp only [pending, start]
  rw [← Tree.shape_sub, Tree.paths_shape]
  cases t <;> simp [Tree.sub]

/-- What remains to be written after the first `i` entries. -/
def modifyFrom (l : List (K × V)) : Nat → List (V → V) → List (K × V)
  | _, [] => l
  | i, f :: fs => modifyFrom (l.modify i fun e => (e.1, f e.2)) (i + 1) fs

theorem runWrite_eq (fs : List (V → V)) (t : Tree A K V) (it : IterMut) (i : Nat)
    (h : pending t.shape it = t.paths.drop i) :
    (runWrite fs t it).1 = (List.range fs.length).map (fun j => t.toList[i + j]?) ∧
      (runWrite fs t it).2.1.toList = modifyFrom t.toList i fs ∧
      (runWrite fs t it).2.1.shape = t.shape := by
  induction fs generalizing t it i with
  | nil => simp [runWrite, modifyFrom]
  | cons f fs ih =>
    obtain ⟨h1, h2⟩ := next_eq t it
    rw [h] at h1 h2
    rw [List.head?_drop] at h1
    rw [List.tail_drop] at h2
    have hent : ∀ p, t.paths[i]? = some p → t.entryAt p = t.toList[i]? := by
      intro p hp
      have := congrArg (fun l => l[i]?) t.entryAt_paths
      simp only [List.getElem?_map, hp, Option.map_some] at this
      cases hx : t.toList[i]? with
      | none => rw [hx] at this; simp at this
      | some e => rw [hx] at this; simpa using this
    cases hp : t.paths[i]? with
    | none =>
      have hlen := List.getElem?_eq_none_iff.1 hp
      rw [Tree.length_paths] at hlen
      have hn : it.next t = (none, (it.next t).2) := by rw [← hp, ← h1]
      obtain ⟨g1, g2, g3⟩ := ih t (it.next t).2 (i + 1) h2
      rw [runWrite, stepWrite, hn]
      simp only
      refine ⟨?_, ?_, g3⟩
      · rw [g1, List.length_cons, List.range_succ_eq_map, List.map_cons, List.map_map]
        simp only [Nat.add_zero, List.getElem?_eq_none_iff.2 hlen, List.cons.injEq, true_and]
        apply List.map_congr_left; intro j _; simp only [Function.comp]; congr 1; omega
      · rw [g2, modifyFrom, List.modify_eq_self hlen]
    | some p =>
      have hn : it.next t = (some p, (it.next t).2) := by rw [← hp, ← h1]
      have hw := Tree.toList_writeAt f t hp
      have hsh := Tree.shape_writeAt f t p
      obtain ⟨g1, g2, g3⟩ := ih (t.writeAt f p) (it.next t).2 (i + 1) (by
        rw [hsh, h2, ← Tree.paths_shape (t.writeAt f p), hsh, Tree.paths_shape])
      rw [runWrite, stepWrite, hn]
      simp only
      refine ⟨?_, ?_, by rw [g3, hsh]⟩
      · rw [g1, List.length_cons, List.range_succ_eq_map, List.map_cons, List.map_map, hent p hp]
        simp only [Nat.add_zero, List.cons.injEq, true_and]
        apply List.map_congr_left
        intro j _
        simp only [Function.comp]
        rw [hw, List.getElem?_modify]
        have : i ≠ i + 1 + j := by omega
        simp only [this, if_false]
        rw [show i + 1 + j = i + j.succ by omega]
        simp
      · rw [g2, hw]; rfl

theorem getElem?_modifyFrom (fs : List (V → V)) (l : List (K × V)) (i j : Nat) :
    (modifyFrom l i fs)[j]? =
      l[j]?.map fun e => (e.1, if i ≤ j then fs.getD (j - i) id e.2 else e.2) := by
  induction fs generalizing l i with
  | nil => simp [modifyFrom]
  | cons f fs ih =>
    rw [modifyFrom, ih, List.getElem?_modify]
    cases l[j]? with
    | none => simp
    | some e =>
      rcases Nat.lt_trichotomy i j with h | h | h
      · obtain ⟨d, rfl⟩ := Nat.exists_eq_add_of_lt h
        have h1 : i + 1 ≤ i + d + 1 := by omega
        have h2 : i ≤ i + d + 1 := by omega
        have h3 : i + d + 1 - (i + 1) = d := by omega
        have h4 : i + d + 1 - i = d + 1 := by omega
        have h5 : i ≠ i + d + 1 := by omega
        simp [h1, h2, h3, h4, h5]
      · subst h
        have h1 : ¬ i + 1 ≤ i := by omega
        simp [h1]
      · have h1 : ¬ i + 1 ≤ j := by omega
        have h2 : ¬ i ≤ j := by omega
        have h3 : i ≠ j := by omega
        simp [h1, h2, h3]

end IterMut

end Verif.Bst
