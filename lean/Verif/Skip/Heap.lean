/- The memory shared by the models of `skiplist/map.rs` and `skiplist/list.rs`: a heap of nodes, each with an
entry and a tower of links.  Dereferencing a null, dangling or freed pointer, indexing a tower out of bounds
and reading the uninitialised entry of a head node are undefined behaviour in the code and `none` here. -/

namespace Verif.Skip

/-- A non-null node address. -/
abbrev Addr := Nat

/-- skiplist/map.rs:10-15 and skiplist/list.rs:14-19 `Node`.  `entry` is `none` for the head node, whose
entry is never written (map.rs:44-52, list.rs:48-56); `links.length` is `links_len`. -/
structure Node (E L : Type) where
  entry : Option E
  links : List L
  deriving DecidableEq

/-- The allocated nodes. -/
abbrev Heap (E L : Type) := Addr → Option (Node E L)

variable {E L : Type}

/-- Write a whole node: `ptr::write` in `Node::new` (map.rs:20-26, list.rs:24-30) and `Node::allocate`. -/
def Heap.put (m : Heap E L) (a : Addr) (n : Node E L) : Heap E L := fun b => if b = a then some n else m b

/-- `Node::deallocate` (map.rs:54-58, list.rs:58-62); freeing what is not allocated is undefined. -/
def Heap.free (m : Heap E L) (a : Addr) : Option (Heap E L) :=
  match m a with
  | none => none
  | some _ => some fun b => if b = a then none else m b

/-- `*(*a).get_pointer(i)` (map.rs:28-30) / `(*a).get_pointer(i)` (list.rs:32-34), both unchecked accesses. -/
def getLink (m : Heap E L) (a : Addr) (i : Nat) : Option L :=
  match m a with
  | none => none
  | some n => n.links[i]?

/-- Assignment through `get_pointer_mut(i)` (map.rs:32-34) / `get_pointer_mut(i)` (list.rs:36-38). -/
def setLink (m : Heap E L) (a : Addr) (i : Nat) (l : L) : Option (Heap E L) :=
  match m a with
  | none => none
  | some n => if i < n.links.length then some (m.put a ⟨n.entry, n.links.set i l⟩) else none

/-- `(*a).entry` / `(*a).value`. -/
def entryAt (m : Heap E L) (a : Addr) : Option E :=
  match m a with
  | none => none
  | some n => n.entry

/-- `ptr::write_bytes(links, 0, n)` on the whole tower (map.rs:399, 592-593, 628-632; list.rs:441): every
link becomes `z`. -/
def zeroLinks (m : Heap E L) (z : L) (a : Addr) : Option (Heap E L) :=
  match m a with
  | none => none
  | some n => some (m.put a ⟨n.entry, List.replicate n.links.length z⟩)

/-- Entry and tower size of every allocated node. -/
def shape (m : Heap E L) (a : Addr) : Option (Option E × Nat) := (m a).map fun n => (n.entry, n.links.length)

theorem shape_eq {m : Heap E L} {a : Addr} {e : Option E} {n : Nat} (h : shape m a = some (e, n)) :
    ∃ ls, m a = some ⟨e, ls⟩ ∧ ls.length = n := by
  unfold shape at h
  cases hm : m a with
  | none => rw [hm] at h; simp at h
  | some x =>
    rw [hm] at h; simp at h
    obtain ⟨rfl, rfl⟩ := h
    exact ⟨x.links, rfl, rfl⟩

theorem entryAt_of_shape {m : Heap E L} {a : Addr} {e : Option E} {n : Nat} (h : shape m a = some (e, n)) :
    entryAt m a = e := by
  obtain ⟨ls, h1, _⟩ := shape_eq h
  simp [entryAt, h1]

theorem getLink_isSome {m : Heap E L} {a : Addr} {e : Option E} {n i : Nat} (h : shape m a = some (e, n))
    (hi : i < n) : ∃ l, getLink m a i = some l := by
  obtain ⟨ls, h1, h2⟩ := shape_eq h
  subst h2
  exact ⟨ls[i], by simp [getLink, h1]⟩

theorem setLink_ok {m : Heap E L} {a : Addr} {e : Option E} {n i : Nat} (h : shape m a = some (e, n))
    (hi : i < n) (l : L) : ∃ m', setLink m a i l = some m' ∧ shape m' = shape m ∧
      ∀ b j, getLink m' b j = if b = a ∧ j = i then some l else getLink m b j := by
  obtain ⟨ls, h1, h2⟩ := shape_eq h
  subst h2
  refine ⟨m.put a ⟨e, ls.set i l⟩, by simp [setLink, h1, hi], ?_, ?_⟩
  · funext b
    simp only [shape, Heap.put]
    by_cases hb : b = a
    · subst hb; simp [h1]
    · simp [hb]
  · intro b j
    simp only [getLink, Heap.put]
    by_cases hb : b = a
    · subst hb
      simp only [h1, if_pos, true_and, List.getElem?_set]
      by_cases hj : j = i
      · subst hj; simp [hi]
      · simp [hj, Ne.symm hj]
    · simp [hb]

theorem zeroLinks_ok {m : Heap E L} {a : Addr} {e : Option E} {n : Nat} (h : shape m a = some (e, n))
    (z : L) : ∃ m', zeroLinks m z a = some m' ∧ shape m' = shape m ∧
      ∀ b j, getLink m' b j = if b = a then (if j < n then some z else none) else getLink m b j := by
  obtain ⟨ls, h1, h2⟩ := shape_eq h
  subst h2
  refine ⟨m.put a ⟨e, List.replicate ls.length z⟩, by simp [zeroLinks, h1], ?_, ?_⟩
  · funext b
    simp only [shape, Heap.put]
    by_cases hb : b = a
    · subst hb; simp [h1]
    · simp [hb]
  · intro b j
    simp only [getLink, Heap.put]
    by_cases hb : b = a
    · subst hb
      simp [List.getElem?_replicate]
    · simp [hb]

theorem free_ok {m : Heap E L} {a : Addr} {p} (h : shape m a = some p) : ∃ m', m.free a = some m' ∧
    (∀ b, shape m' b = if b = a then none else shape m b) ∧
    ∀ b j, getLink m' b j = if b = a then none else getLink m b j := by
  obtain ⟨e, n⟩ := p
  obtain ⟨ls, h1, h2⟩ := shape_eq h
  refine ⟨fun b => if b = a then none else m b, by simp [Heap.free, h1], ?_, ?_⟩
  · intro b; simp only [shape]; split <;> simp_all
  · intro b j; simp only [getLink]; by_cases hb : b = a <;> simp [hb]

theorem shape_put (m : Heap E L) (a : Addr) (n : Node E L) (b : Addr) :
    shape (m.put a n) b = if b = a then some (n.entry, n.links.length) else shape m b := by
  simp only [shape, Heap.put]; by_cases hb : b = a <;> simp [hb]

theorem getLink_put (m : Heap E L) (a : Addr) (n : Node E L) (b : Addr) (j : Nat) :
    getLink (m.put a n) b j = if b = a then n.links[j]? else getLink m b j := by
  simp only [getLink, Heap.put]; by_cases hb : b = a <;> simp [hb]

end Verif.Skip
