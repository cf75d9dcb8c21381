/- Model of the consuming iterators `SkipMapIntoIter` (map.rs:996-1027) and `SkipListIntoIter`
(list.rs:554-585), with a log of the elements handed out and of the elements dropped.
`nx` reads the `next` pointer of a link (the link itself in a map, its field `next` in a list). -/
import Verif.Skip.Heap
import Mathlib.Data.List.Nodup
import Mathlib.Tactic.Tauto

namespace Verif.Skip

variable {E L : Type}

/-- The iterator: its pointer, the memory, and what has happened to the elements so far. -/
structure IntoIter (E L : Type) where
  mem : Heap E L
  current : Option Addr
  handed : List E
  dropped : List E

/-- map.rs:1003-1014, list.rs:561-572 `next`: read the element out of the node, deallocate the node. -/
def IntoIter.next (nx : L → Option Addr) (it : IntoIter E L) : Option (IntoIter E L) :=
  match it.current with
  | none => some it
  | some a => do
    let e ← entryAt it.mem a
    let l ← getLink it.mem a 0
    let m ← it.mem.free a
    return { it with mem := m, current := nx l, handed := it.handed ++ [e] }

/-- `n` calls of `next`. -/
def IntoIter.advance (nx : L → Option Addr) : Nat → IntoIter E L → Option (IntoIter E L)
  | 0, it => some it
  | n + 1, it =>
    match it.next nx with
    | none => none
    | some it => IntoIter.advance nx n it

/-- `ptr::drop_in_place` of the element of a node. -/
def IntoIter.dropInPlace (it : IntoIter E L) (a : Addr) : Option (IntoIter E L) :=
  (entryAt it.mem a).map fun e => { it with dropped := it.dropped ++ [e] }

/-- map.rs:60-63, list.rs:64-67 `Node::free`: drop the element, deallocate the node. -/
def IntoIter.freeNode (it : IntoIter E L) (a : Addr) : Option (IntoIter E L) := do
  let it ← it.dropInPlace a
  let m ← it.mem.free a
  return { it with mem := m }

/-- map.rs:1018-1026, list.rs:576-584 `drop`; the first argument bounds the number of iterations. -/
def IntoIter.drop (nx : L → Option Addr) : Nat → IntoIter E L → Option (IntoIter E L)
  | 0, it =>
    match it.current with
    | none => some it
    | some _ => none
  | f + 1, it =>
    match it.current with
    | none => some it
    | some a => do
      let it ← it.dropInPlace a
      let l ← getLink it.mem a 0
      let it ← it.freeNode a
      IntoIter.drop nx f { it with current := nx l }

/-- What C16 asks for: every element is handed out or dropped, exactly once in total. -/
def ExactlyOnce (elems handed dropped : List E) : Prop := (handed ++ dropped).Perm elems

/-- A linked list of nodes from a pointer. -/
def Linked (nx : L → Option Addr) (m : Heap E L) : Option Addr → List (Addr × E) → Prop
  | o, [] => o = none
  | o, (a, e) :: l => o = some a ∧ ∃ k, getLink m a 0 = some k ∧ (∃ n, shape m a = some (some e, n)) ∧ Linked nx m (nx k) l

theorem linked_frame {nx : L → Option Addr} {m m' : Heap E L} {o : Option Addr} {l : List (Addr × E)}
    (h : ∀ a ∈ l.map (·.1), shape m' a = shape m a ∧ getLink m' a 0 = getLink m a 0)
    (hl : Linked nx m o l) : Linked nx m' o l := by
  induction l generalizing o with
  | nil => exact hl
  | cons p l ih =>
    obtain ⟨a, e⟩ := p
    obtain ⟨h1, k, h2, h3, h4⟩ := hl
    obtain ⟨g1, g2⟩ := h a (by simp)
    exact ⟨h1, k, by rw [g2]; exact h2, by rw [g1]; exact h3, ih (fun x hx => h x (by simp [hx])) h4⟩

/-- One node is unlinked from the front and deallocated. -/
theorem linked_free {nx : L → Option Addr} {m : Heap E L} {a : Addr} {e : E} {k : L} {l : List (Addr × E)} {n : Nat}
    (hn : (((a, e) :: l).map (·.1)).Nodup) (hs : shape m a = some (some e, n)) (hl : Linked nx m (nx k) l) :
    ∃ m', m.free a = some m' ∧ Linked nx m' (nx k) l ∧ ∀ b, shape m' b = if b = a then none else shape m b := by
  obtain ⟨m', h1, h2, h3⟩ := free_ok hs
  refine ⟨m', h1, linked_frame (fun b hb => ?_) hl, h2⟩
  have : b ≠ a := by
    rintro rfl
    exact (List.nodup_cons.1 hn).1 hb
  exact ⟨by rw [h2, if_neg this], by rw [h3, if_neg this]⟩

theorem advance_ok {nx : L → Option Addr} (n : Nat) {it : IntoIter E L} {l : List (Addr × E)}
    (hn : (l.map (·.1)).Nodup) (hl : Linked nx it.mem it.current l) :
    ∃ it', it.advance nx n = some it' ∧ it'.handed = it.handed ++ (l.take n).map (·.2) ∧ it'.dropped = it.dropped ∧
      Linked nx it'.mem it'.current (l.drop n) ∧
      ∀ b, shape it'.mem b = if b ∈ (l.take n).map (·.1) then none else shape it.mem b := by
  induction n generalizing it l with
  | zero => exact ⟨it, rfl, by simp, rfl, by simpa using hl, by simp⟩
  | succ n ih =>
    cases l with
    | nil =>
      have hc : it.current = none := hl
      have hnx : it.next nx = some it := by simp [IntoIter.next, hc]
      obtain ⟨it', h1, h2, h3, h4, h5⟩ := ih (it := it) (l := []) (by simp) hl
      exact ⟨it', by simp only [IntoIter.advance, hnx]; exact h1, by simpa using h2, h3, by simpa using h4, by simpa using h5⟩
    | cons p l =>
      obtain ⟨a, e⟩ := p
      obtain ⟨hc, k, hk, ⟨j, hj⟩, hl⟩ := hl
      obtain ⟨m', g1, g2, g3⟩ := linked_free hn hj hl
      have hnx : it.next nx = some { it with mem := m', current := nx k, handed := it.handed ++ [e] } := by
        simp [IntoIter.next, hc, entryAt_of_shape hj, hk, g1]
      obtain ⟨it', h1, h2, h3, h4, h5⟩ := ih (it := { it with mem := m', current := nx k, handed := it.handed ++ [e] })
        (l := l) (List.nodup_cons.1 hn).2 g2
      refine ⟨it', by simp only [IntoIter.advance, hnx]; exact h1, by simp [h2], h3, by simpa using h4, fun b => ?_⟩
      rw [h5]
      simp only [g3, List.take_succ_cons, List.map_cons, List.mem_cons]
      by_cases e1 : b ∈ (l.take n).map (·.1)
      · rw [if_pos e1, if_pos (.inr e1)]
      · rw [if_neg e1]
        by_cases e2 : b = a
        · rw [if_pos e2, if_pos (.inl e2)]
        · rw [if_neg e2, if_neg (by tauto)]

theorem drop_all_ok {nx : L → Option Addr} {it : IntoIter E L} {l : List (Addr × E)} (f : Nat) (hf : l.length ≤ f)
    (hn : (l.map (·.1)).Nodup) (hl : Linked nx it.mem it.current l) :
    ∃ it', it.drop nx f = some it' ∧ it'.handed = it.handed ∧
      it'.dropped = it.dropped ++ (l.map (·.2)).flatMap (fun e => [e, e]) ∧
      ∀ b, shape it'.mem b = if b ∈ l.map (·.1) then none else shape it.mem b := by
  induction f generalizing it l with
  | zero =>
    have : l = [] := List.eq_nil_of_length_eq_zero (by omega)
    subst this
    have hc : it.current = none := hl
    exact ⟨it, by simp only [IntoIter.drop, hc], rfl, by simp, by simp⟩
  | succ f ih =>
    cases l with
    | nil =>
      have hc : it.current = none := hl
      exact ⟨it, by simp only [IntoIter.drop, hc], rfl, by simp, by simp⟩
    | cons p l =>
      obtain ⟨a, e⟩ := p
      obtain ⟨hc, k, hk, ⟨j, hj⟩, hl⟩ := hl
      obtain ⟨m', g1, g2, g3⟩ := linked_free hn hj hl
      have he := entryAt_of_shape hj
      obtain ⟨it', h1, h2, h3, h5⟩ := ih (it := { it with mem := m', current := nx k, dropped := (it.dropped ++ [e]) ++ [e] })
        (l := l) (by simpa using hf) (List.nodup_cons.1 hn).2 g2
      refine ⟨it', ?_, h2, by simp [h3], fun b => ?_⟩
      · simp only [IntoIter.drop, hc, IntoIter.freeNode, IntoIter.dropInPlace, he, hk, g1, Option.map_some, Option.bind_eq_bind, Option.bind_some]
        exact h1
      · rw [h5]
        simp only [g3, List.map_cons, List.mem_cons]
        by_cases e1 : b ∈ l.map (·.1)
        · rw [if_pos e1, if_pos (.inr e1)]
        · rw [if_neg e1]
          by_cases e2 : b = a
          · rw [if_pos e2, if_pos (.inl e2)]
          · rw [if_neg e2, if_neg (by tauto)]

theorem not_once (l : List E) (n : Nat) (hn : n < l.length) :
    ¬ ExactlyOnce l (l.take n) ((l.drop n).flatMap fun e => [e, e]) := by
  intro h
  have h1 := h.length_eq
  have h2 : ∀ l : List E, (l.flatMap fun e => [e, e]).length = 2 * l.length := by
    intro l
    induction l with
    | nil => rfl
    | cons a l ih => simp [ih]; omega
  rw [List.length_append, h2, List.length_take, List.length_drop] at h1
  omega

end Verif.Skip
