/- Lemmas on the shared binary-search-tree functions: each equals a sorted-list operation on the
in-order list. -/
import Verif.Bst.Model
import Verif.Lib.SortedList

namespace Verif.Bst

open Verif.SL (Sorted)

namespace Tree

variable {A K V : Type}

/-- In-order list of entries. -/
def toList : Tree A K V → List (K × V)
  | nil => []
  | node _ l k v r => l.toList ++ (k, v) :: r.toList

@[simp] theorem toList_nil : (nil : Tree A K V).toList = [] := rfl
@[simp] theorem toList_node (a : A) (l : Tree A K V) (k : K) (v : V) (r : Tree A K V) :
    (node a l k v r).toList = l.toList ++ (k, v) :: r.toList := rfl

theorem size_eq_length (t : Tree A K V) : t.size = t.toList.length := by
  induction t with
  | nil => rfl
  | node a l k v r ihl ihr => simp [size, ihl, ihr]; omega

variable [LinearOrder K]

theorem get_eq (t : Tree A K V) (k : K) (hs : Sorted t.toList) : t.get k = SL.find k t.toList := by
  induction t with
  | nil => rfl
  | node a l x v r ihl ihr =>
    obtain ⟨h1, h2, _, _⟩ := SL.sorted_mid.1 hs
    simp only [get, toList_node]
    split
    · rw [ihl h1, SL.find_mid_lt hs ‹_›]
    · split
      · rw [ihr h2, SL.find_mid_gt hs ‹_›]
      · have : x = k := by grind
        subst this; rw [SL.find_mid_eq hs]

theorem getMut_fst (t : Tree A K V) (k : K) (f : V → V) : (t.getMut k f).1 = t.get k := by
  induction t with
  | nil => rfl
  | node a l x v r ihl ihr =>
    simp only [getMut, get]
    split
    · exact ihl
    · split
      · exact ihr
      · rfl

theorem getMut_snd (t : Tree A K V) (k : K) (f : V → V) (hs : Sorted t.toList) :
    (t.getMut k f).2.toList = SL.upd k f t.toList := by
  induction t with
  | nil => rfl
  | node a l x v r ihl ihr =>
    obtain ⟨h1, h2, _, _⟩ := SL.sorted_mid.1 hs
    simp only [getMut, toList_node]
    split
    · rw [SL.upd_mid_lt hs ‹_›, ← ihl h1]; rfl
    · split
      · rw [SL.upd_mid_gt hs ‹_›, ← ihr h2]; rfl
      · have : x = k := by grind
        subst this; rw [SL.upd_mid_eq hs]; rfl

theorem ceil_eq (t : Tree A K V) (k : K) (hs : Sorted t.toList) : t.ceil k = SL.ceil k t.toList := by
  induction t with
  | nil => rfl
  | node a l x v r ihl ihr =>
    obtain ⟨h1, h2, _, _⟩ := SL.sorted_mid.1 hs
    simp only [ceil, toList_node]
    split
    · rw [ihr h2, SL.ceil_mid_gt hs ‹_›]
    · split
      · rw [ihl h1, SL.ceil_mid_le hs (le_of_lt ‹_›)]
        cases SL.ceil k l.toList <;> rfl
      · have : x = k := by grind
        subst this; rw [SL.ceil_mid_eq hs]

theorem floor_eq (t : Tree A K V) (k : K) (hs : Sorted t.toList) : t.floor k = SL.floor k t.toList := by
  induction t with
  | nil => rfl
  | node a l x v r ihl ihr =>
    obtain ⟨h1, h2, _, _⟩ := SL.sorted_mid.1 hs
    simp only [floor, toList_node]
    split
    · rw [ihl h1, SL.floor_mid_lt hs ‹_›]
    · split
      · rw [ihr h2, SL.floor_mid_ge hs (le_of_lt ‹_›)]
        cases SL.floor k r.toList <;> rfl
      · have : x = k := by grind
        subst this; rw [SL.floor_mid_eq hs]

omit [LinearOrder K] in
theorem min_eq (t : Tree A K V) : t.min = t.toList.head? := by
  induction t with
  | nil => rfl
  | node a l x v r ihl ihr =>
    cases l with
    | nil => rfl
    | node a' l' x' v' r' =>
      rw [min, ihl]; simp

omit [LinearOrder K] in
theorem max_eq (t : Tree A K V) : t.max = t.toList.getLast? := by
  induction t with
  | nil => rfl
  | node a l x v r ihl ihr =>
    cases r with
    | nil => simp [max]
    | node a' l' x' v' r' =>
      rw [max, ihr]
      simp only [toList_node, List.getLast?_append, List.getLast?_cons]
      cases (r'.toList).getLast? <;> simp

end Tree

namespace Iter

variable {A K V : Type}

/-- The entries an iterator still has to yield. -/
def pending (it : Iter A K V) : List (K × V) :=
  it.current.toList ++ it.stack.flatMap fun p => p.1 :: p.2.toList

theorem flatMap_descend (t : Tree A K V) (st) :
    (descend t st).flatMap (fun p => p.1 :: p.2.toList) =
      t.toList ++ st.flatMap (fun p => p.1 :: p.2.toList) := by
  induction t generalizing st with
  | nil => simp [descend]
  | node a l k v r ihl ihr => simp [descend, ihl]

theorem next_eq (it : Iter A K V) :
    (it.next).1 = it.pending.head? ∧ (it.next).2.pending = it.pending.tail := by
  have h := flatMap_descend it.current it.stack
  unfold next pending
  rw [← h]
  cases descend it.current it.stack with
  | nil => simp
  | cons p st => simp

theorem take_eq (it : Iter A K V) (n : Nat) :
    it.take n = (List.range n).map fun i => it.pending[i]? := by
  induction n generalizing it with
  | zero => rfl
  | succ n ih =>
    obtain ⟨h1, h2⟩ := next_eq it
    rw [take, ih, h2, h1, List.range_succ_eq_map, List.map_cons, List.map_map]
    congr 1
    · cases it.pending <;> rfl
    · apply List.map_congr_left; intro i _; cases it.pending <;> simp

theorem collect_eq (it : Iter A K V) : it.collect = it.pending := by
  generalize hn : it.todo = n
  induction n using Nat.strongRecOn generalizing it with
  | ind n ih =>
    obtain ⟨h1, h2⟩ := next_eq it
    rw [collect]
    split
    · rename_i h; rw [h1] at h; exact (List.head?_eq_none_iff.1 h).symm
    · rename_i e h
      rw [ih _ (hn ▸ todo_next it h) _ rfl, h2]
      rw [h1] at h
      cases hp : it.pending with
      | nil => rw [hp] at h; simp at h
      | cons a l => rw [hp] at h; simp at h; simp [h]

theorem collect_start (t : Tree A K V) : (start t).collect = t.toList := by
  rw [collect_eq]; simp [start, pending]

theorem pending_start (t : Tree A K V) : (start t).pending = t.toList := by
  simp [start, pending]

end Iter

end Verif.Bst
