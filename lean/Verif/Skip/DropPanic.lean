/- `clear` and `drop` of `SkipMap` and `SkipList` when the destructor of an element panics (C76).

The loops of `Skip.MapModel` and `Skip.ListModel` once more, with the destructors: `boom e` says that the destructor of
the element `e` panics.  A node whose element has been dropped but which is still allocated has the entry `none`, as
the head node: reading or dropping the element of such a node is undefined.
`nx` reads the `next` pointer of a link (the link itself in a map, its field `next` in a list). -/
import Verif.Skip.IntoIter
import Verif.Spec.Destructors

namespace Verif.Skip

open Verif.Spec

variable {E L : Type}

/-- How a call that frees nodes ends. -/
inductive Ended (α : Type) where
  /-- It returns or unwinds. -/
  | done (a : α)
  /-- It does something undefined: it uses freed memory, or an element that has been dropped. -/
  | undefined
  /-- The loop needs more steps than it was given. -/
  | more
  deriving DecidableEq

/-- The memory left behind, the elements whose destructors were started, in order, and whether one panicked. -/
structure Freed (E L : Type) where
  mem : Heap E L
  started : List E
  panicked : Bool

/-- map.rs:60-63, list.rs:64-67 `Node::free`: run the destructor of the element; if it returns, deallocate the node.
Gives the memory, the element and whether its destructor panicked. -/
def freeNodeD (boom : E → Bool) (m : Heap E L) (a : Addr) : Option (Heap E L × E × Bool) :=
  match m a with
  | none => none
  | some n =>
    match n.entry with
    | none => none
    | some e => if boom e then some (m.put a ⟨none, n.links⟩, e, true) else (m.free a).map fun m => (m, e, false)

/-- map.rs:395-398, 944-947; list.rs:438-441, 504-507: free the nodes of the bottom level.  The pointer has moved on
before `Node::free` is called. -/
def freeAllD (boom : E → Bool) (nx : L → Option Addr) : Nat → Heap E L → Option Addr → List E → Ended (Freed E L)
  | _, m, none, log => .done ⟨m, log, false⟩
  | 0, _, some _, _ => .more
  | f + 1, m, some a, log =>
    match getLink m a 0 with
    | none => .undefined
    | some l =>
      match freeNodeD boom m a with
      | none => .undefined
      | some (m, e, true) => .done ⟨m, log ++ [e], true⟩
      | some (m, e, false) => freeAllD boom nx f m (nx l) (log ++ [e])

/-- map.rs:391-401, list.rs:434-444 `clear`, from the head node: the links of the head are zeroed last. -/
def clearD (boom : E → Bool) (nx : L → Option Addr) (zero : L) (steps : Nat) (m : Heap E L) (head : Addr) :
    Ended (Freed E L) :=
  match getLink m head 0 with
  | none => .undefined
  | some l =>
    match freeAllD boom nx steps m (nx l) [] with
    | .undefined => .undefined
    | .more => .more
    | .done r =>
      if r.panicked then .done r
      else
        match zeroLinks r.mem zero head with
        | none => .undefined
        | some m => .done ⟨m, r.started, false⟩

/-- map.rs:939-950, list.rs:499-510 `drop`, from the head node. -/
def dropD (boom : E → Bool) (nx : L → Option Addr) (steps : Nat) (m : Heap E L) (head : Addr) : Ended (Freed E L) :=
  match getLink m head 0 with
  | none => .undefined
  | some l =>
    match m.free head with
    | none => .undefined
    | some m => freeAllD boom nx steps m (nx l) []

/-! ### What the loop does -/

theorem linked_alloc {nx : L → Option Addr} {m : Heap E L} {o : Option Addr} {l : List (Addr × E)} (hl : Linked nx m o l)
    {b : Addr} (hb : b ∈ l.map (·.1)) : (m b).isSome := by
  induction l generalizing o with
  | nil => simp at hb
  | cons q l ih =>
    obtain ⟨c, g⟩ := q
    obtain ⟨_, k, _, ⟨j, hj⟩, hl⟩ := hl
    simp only [List.map_cons, List.mem_cons] at hb
    rcases hb with rfl | hb
    · obtain ⟨_, h, _⟩ := shape_eq hj
      simp [h]
    · exact ih hl hb

theorem freeAllD_ok {boom : E → Bool} {nx : L → Option Addr} (f : Nat) {m : Heap E L} {o : Option Addr}
    {l : List (Addr × E)} (log : List E) (hf : l.length ≤ f) (hn : (l.map (·.1)).Nodup) (hl : Linked nx m o l) :
    ∃ m', freeAllD boom nx f m o log = .done ⟨m', log ++ startedOf boom (l.map (·.2)), (l.map (·.2)).any boom⟩ ∧
      (∀ b, b ∉ l.map (·.1) → m' b = m b) ∧
      (∀ p t, l = p :: t → entryAt m' p.1 = none) ∧
      ((l.map (·.2)).any boom = false → ∀ b ∈ l.map (·.1), m' b = none) ∧
      ((l.map (·.2)).any boom = true → ∀ b ∈ l.map (·.1),
        ((m' b).isSome ↔ b ∈ (l.map (·.1)).drop ((startedOf boom (l.map (·.2))).length - 1))) := by
  induction f generalizing m o l log with
  | zero =>
    have : l = [] := List.eq_nil_of_length_eq_zero (by omega)
    subst this
    have hc : o = none := hl
    subst hc
    exact ⟨m, by simp [freeAllD, startedOf], fun _ _ => rfl, by simp, by simp, by simp⟩
  | succ f ih =>
    cases l with
    | nil =>
      have hc : o = none := hl
      subst hc
      exact ⟨m, by simp [freeAllD, startedOf], fun _ _ => rfl, by simp, by simp, by simp⟩
    | cons p l =>
      obtain ⟨a, e⟩ := p
      obtain ⟨rfl, k, hk, ⟨j, hj⟩, hl⟩ := hl
      obtain ⟨ls, hma, _⟩ := shape_eq hj
      have hal := (List.nodup_cons.1 hn).1
      by_cases hb : boom e = true
      · refine ⟨m.put a ⟨none, ls⟩, ?_, ?_, ?_, ?_, ?_⟩
        · simp [freeAllD, hk, freeNodeD, hma, hb, startedOf]
        · intro b hb'
          have : b ≠ a := by rintro rfl; simp at hb'
          simp [Heap.put, this]
        · rintro p t hp
          simp only [List.cons.injEq] at hp
          obtain ⟨rfl, _⟩ := hp
          simp [entryAt, Heap.put]
        · intro h; simp [hb] at h
        · intro _ b hb'
          simp only [List.map_cons, startedOf, hb, if_true, List.length_singleton, Nat.sub_self, List.drop_zero]
          refine ⟨fun _ => hb', fun _ => ?_⟩
          by_cases e1 : b = a
          · simp [Heap.put, e1]
          · simp only [Heap.put, e1, if_false]
            simp only [List.map_cons, List.mem_cons, e1, false_or] at hb'
            exact linked_alloc hl hb'
      · have hb' : boom e = false := by simpa using hb
        obtain ⟨m1, g1, g2, g3⟩ := linked_free hn hj hl
        obtain ⟨m', h1, h2, h3, h4, h5⟩ := ih (log := log ++ [e]) (by simpa using hf) (List.nodup_cons.1 hn).2 g2
        have hm1 : m1 = fun b => if b = a then none else m b := by
          simp only [Heap.free, hma, Option.some.injEq] at g1
          exact g1.symm
        have hra : m' a = none := by rw [h2 a hal, hm1]; simp
        refine ⟨m', ?_, ?_, ?_, ?_, ?_⟩
        · simp only [freeAllD, hk, freeNodeD, hma, hb', Bool.false_eq_true, if_false, g1, Option.map_some]
          rw [h1]
          simp [startedOf, hb']
        · intro b hbn
          simp only [List.map_cons, List.mem_cons, not_or] at hbn
          rw [h2 b hbn.2, hm1]
          simp [hbn.1]
        · rintro p t hp
          simp only [List.cons.injEq] at hp
          obtain ⟨rfl, _⟩ := hp
          simp [entryAt, hra]
        · intro h b hbm
          simp only [List.map_cons, List.any_cons, hb', Bool.false_or] at h
          simp only [List.map_cons, List.mem_cons] at hbm
          rcases hbm with rfl | hbm
          · exact hra
          · exact h4 h b hbm
        · intro h b hbm
          simp only [List.map_cons, List.any_cons, hb', Bool.false_or] at h
          have hpos : 1 ≤ (startedOf boom (l.map (·.2))).length := by
            cases l with
            | nil => simp at h
            | cons q l => simp only [List.map_cons, startedOf]; split <;> simp
          have hd : (startedOf boom (((a, e) :: l).map (·.2))).length - 1 =
              ((startedOf boom (l.map (·.2))).length - 1) + 1 := by
            simp only [List.map_cons, startedOf, hb', Bool.false_eq_true, if_false, List.length_cons]
            omega
          rw [hd, List.map_cons, List.drop_succ_cons]
          simp only [List.map_cons, List.mem_cons] at hbm
          rcases hbm with rfl | hbm
          · constructor
            · intro h; simp [hra] at h
            · intro h; exact absurd (List.mem_of_mem_drop h) hal
          · exact h5 h b hbm

/-- After a panic the first node is gone or its element is, but the head still leads to it: dropping is undefined. -/
theorem dropD_undefined {boom : E → Bool} {nx : L → Option Addr} {m : Heap E L} {head a : Addr} {l : L} {n : Nat}
    {e : Option E} (hh : shape m head = some (e, n)) (h1 : getLink m head 0 = some l) (h2 : nx l = some a) (h3 : entryAt m a = none)
    (hne : a ≠ head) (f : Nat) : dropD boom nx (f + 1) m head = .undefined := by
  obtain ⟨m', g1, g2, g3⟩ := free_ok hh
  have hfr : freeNodeD boom m' a = none := by
    have h : entryAt m' a = none := by
      have hs := g2 a
      rw [if_neg hne] at hs
      cases hm : m' a with
      | none => simp [entryAt, hm]
      | some x =>
        cases hm2 : m a with
        | none => simp [shape, hm, hm2] at hs
        | some y =>
          simp only [shape, hm, hm2, Option.map_some, Option.some.injEq, Prod.mk.injEq] at hs
          simp only [entryAt, hm2] at h3
          simp [entryAt, hm, hs.1, h3]
    unfold freeNodeD
    cases hm : m' a with
    | none => rfl
    | some x =>
      simp only [entryAt, hm] at h
      simp [h]
  simp only [dropD, h1, g1, freeAllD, h2]
  cases getLink m' a 0 with
  | none => rfl
  | some k => simp only [hfr]

/-- Nor can it be cleared again. -/
theorem clearD_undefined {boom : E → Bool} {nx : L → Option Addr} {zero : L} {m : Heap E L} {head a : Addr} {l : L}
    (h1 : getLink m head 0 = some l) (h2 : nx l = some a) (h3 : entryAt m a = none) (f : Nat) :
    clearD boom nx zero (f + 1) m head = .undefined := by
  have hfr : freeNodeD boom m a = none := by
    unfold freeNodeD
    cases hm : m a with
    | none => rfl
    | some x => simp only [entryAt, hm] at h3; simp [h3]
  simp only [clearD, h1, freeAllD, h2]
  cases hg : getLink m a 0 with
  | none => simp
  | some k => simp [hfr]

/-- A head node and the nodes `l` reached from it on the bottom level; nothing else is allocated. -/
structure Owned (nx : L → Option Addr) (m : Heap E L) (head : Addr) (l : List (Addr × E)) : Prop where
  hd : ∃ n, shape m head = some (none, n)
  lk : ∃ k, getLink m head 0 = some k ∧ Linked nx m (nx k) l
  nodup : (head :: l.map (·.1)).Nodup
  only : ∀ a, a ≠ head → a ∉ l.map (·.1) → m a = none

theorem dropD_ok {boom : E → Bool} {nx : L → Option Addr} {m : Heap E L} {head : Addr} {l : List (Addr × E)}
    (h : Owned nx m head l) :
    ∃ r, dropD boom nx l.length m head = .done r ∧ r.started = startedOf boom (l.map (·.2)) ∧
      r.panicked = (l.map (·.2)).any boom ∧ (r.panicked = false → ∀ a, r.mem a = none) ∧
      (r.panicked = true → ∃ B : List Addr, B.Nodup ∧ B.length = (neverStarted boom (l.map (·.2))).length + 1 ∧
        ∀ a, (r.mem a).isSome ↔ a ∈ B) := by
  obtain ⟨⟨n, hd⟩, ⟨k, hk, hl⟩, hn, ho⟩ := h
  obtain ⟨hn1, hn2⟩ := List.nodup_cons.1 hn
  obtain ⟨ls, hhd, _⟩ := shape_eq hd
  have hfree : m.free head = some fun b => if b = head then none else m b := by simp [Heap.free, hhd]
  have hl' : Linked nx (fun b => if b = head then none else m b) (nx k) l := by
    refine linked_frame (fun a ha => ?_) hl
    have : a ≠ head := by rintro rfl; exact hn1 ha
    simp [shape, getLink, this]
  obtain ⟨m', h1, h2, _, h4, h5⟩ := freeAllD_ok (boom := boom) l.length [] (Nat.le_refl _) hn2 hl'
  refine ⟨⟨m', startedOf boom (l.map (·.2)), (l.map (·.2)).any boom⟩, ?_, rfl, rfl, ?_, ?_⟩
  · simp only [dropD, hk, hfree, h1, List.nil_append]
  · intro hp a
    by_cases ha : a ∈ l.map (·.1)
    · exact h4 hp a ha
    · have := h2 a ha
      simp only at this ⊢
      rw [this]
      split
      · rfl
      · rename_i hne; exact ho a hne ha
  · intro hp
    refine ⟨(l.map (·.1)).drop ((startedOf boom (l.map (·.2))).length - 1), hn2.sublist (List.drop_sublist _ _), ?_, ?_⟩
    · have hpos : 1 ≤ (startedOf boom (l.map (·.2))).length := by
        cases l with
        | nil => simp at hp
        | cons q l => simp only [List.map_cons, startedOf]; split <;> simp
      have hle : (startedOf boom (l.map (·.2))).length ≤ l.length := by
        have := congrArg List.length (startedOf_append boom (l.map (·.2)))
        simp only [List.length_append, List.length_map] at this
        omega
      simp only [neverStarted, List.length_drop, List.length_map]
      omega
    · intro a
      by_cases ha : a ∈ l.map (·.1)
      · exact h5 hp a ha
      · have hm : m' a = none := by
          rw [h2 a ha]
          split
          · rfl
          · rename_i hne; exact ho a hne ha
        simp only [hm, Option.isSome_none, Bool.false_eq_true, false_iff]
        intro hc
        exact ha (List.mem_of_mem_drop hc)

/-- No destructor panics: the call returns, and the memory is as the one of the model without destructors. -/
theorem clearD_ok {boom : E → Bool} {nx : L → Option Addr} {zero : L} {m : Heap E L} {head : Addr} {l : List (Addr × E)}
    (h : Owned nx m head l) (hb : (l.map (·.2)).any boom = false) :
    ∃ k m₁ m₂, getLink m head 0 = some k ∧ freeAllD boom nx l.length m (nx k) [] = .done ⟨m₁, l.map (·.2), false⟩ ∧
      zeroLinks m₁ zero head = some m₂ ∧ clearD boom nx zero l.length m head = .done ⟨m₂, l.map (·.2), false⟩ := by
  obtain ⟨⟨n, hd⟩, ⟨k, hk, hl⟩, hn, ho⟩ := h
  obtain ⟨hn1, hn2⟩ := List.nodup_cons.1 hn
  obtain ⟨ls, hhd, _⟩ := shape_eq hd
  obtain ⟨m', h1, h2, _, _, _⟩ := freeAllD_ok (boom := boom) l.length [] (Nat.le_refl _) hn2 hl
  have hst : startedOf boom (l.map (·.2)) = l.map (·.2) := startedOf_all fun e he => by
    have := List.any_eq_false.1 hb e he
    simpa using this
  rw [hb, hst, List.nil_append] at h1
  obtain ⟨m₂, g1, _, _⟩ := zeroLinks_ok (m := m') (a := head) (e := none) (n := n) (by rw [shape, h2 head hn1]; exact hd) zero
  exact ⟨k, m', m₂, hk, h1, g1, by simp [clearD, hk, h1, g1]⟩

/-- A destructor panics: the head still leads to the first node, which is gone or has lost its element. -/
theorem clearD_panic {boom : E → Bool} {nx : L → Option Addr} {zero : L} {m : Heap E L} {head : Addr} {l : List (Addr × E)}
    (h : Owned nx m head l) (hb : (l.map (·.2)).any boom = true) :
    ∃ m', clearD boom nx zero l.length m head = .done ⟨m', startedOf boom (l.map (·.2)), true⟩ ∧ m' head = m head ∧
      ∃ k a, getLink m' head 0 = some k ∧ nx k = some a ∧ a ≠ head ∧ entryAt m' a = none := by
  obtain ⟨_, ⟨k, hk, hl⟩, hn, ho⟩ := h
  obtain ⟨hn1, hn2⟩ := List.nodup_cons.1 hn
  obtain ⟨m', h1, h2, h3, _, _⟩ := freeAllD_ok (boom := boom) l.length [] (Nat.le_refl _) hn2 hl
  have h2' := h2 head hn1
  rw [hb, List.nil_append] at h1
  refine ⟨m', by simp [clearD, hk, h1], h2', ?_⟩
  cases l with
  | nil => simp at hb
  | cons p t =>
    refine ⟨k, p.1, ?_, hl.1, ?_, h3 p t rfl⟩
    · rw [← hk]; simp only [getLink, h2']
    · rintro rfl; simp at hn1

end Verif.Skip
