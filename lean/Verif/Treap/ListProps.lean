/- Property C12: `TreapList` behaves as a sequence. -/
import Verif.Treap.ListModel
import Verif.Treap.Lemmas

namespace Verif.Treap.Implicit

open Verif.Bst Verif.Spec

variable {V : Type}

/-- The values of a tree, in order. -/
def vals (t : ITree V) : List V := t.toList.map (·.2)

@[simp] theorem vals_nil : vals (.nil : ITree V) = [] := rfl

@[simp] theorem vals_node (a : Ann) (l : ITree V) (k : Unit) (v : V) (r : ITree V) :
    vals (.node a l k v r) = vals l ++ v :: vals r := by simp [vals]

@[simp] theorem vals_mk (p : Nat) (l : ITree V) (k : Unit) (v : V) (r : ITree V) :
    vals (mk p l k v r) = vals l ++ v :: vals r := by simp [vals]

@[simp] theorem vals_merge (l r : ITree V) : vals (merge l r) = vals l ++ vals r := by
  simp [vals, toList_merge]

theorem len_vals {b : Nat} {t : ITree V} (h : Wf b t) : len t = (vals t).length := by
  rw [len_eq h]; simp [vals]

theorem split_spec {b : Nat} (index : Nat) (hi : 1 ≤ index) (t : ITree V) (h : Wf b t) :
    vals (split true index t).1 = (vals t).take (index - 1) ∧
      vals (split true index t).2 = (vals t).drop (index - 1) ∧
      Wf b (split true index t).1 ∧ Wf b (split true index t).2 := by
  induction t generalizing b index with
  | nil => simp [split]
  | node a l k v r ihl ihr =>
    obtain ⟨h1, h2, h3, h4⟩ := h
    have hl := len_vals h3
    unfold split
    simp only [implicitKey, hl]
    split
    · rename_i hc
      obtain ⟨i1, i2, i3, i4⟩ := ihl index hi h3
      have hlen : index - 1 ≤ (vals l).length := by omega
      refine ⟨?_, ?_, i3.mono h1, wf_mk h1 i4 h4⟩
      · simp only [i1, vals_node, List.take_append_of_le_length hlen]
      · simp only [vals_mk, i2, vals_node, List.drop_append_of_le_length hlen]
    · rename_i hc
      have hgt : (vals l).length + 1 < index := by
        by_contra hn; apply hc
        rcases Nat.lt_or_ge index ((vals l).length + 1) with h | h
        · exact .inl h
        · exact .inr ⟨by omega, trivial⟩
      obtain ⟨i1, i2, i3, i4⟩ := ihr (index - ((vals l).length + 1)) (by omega) h4
      have e : index - 1 = (vals l).length + ((index - ((vals l).length + 1) - 1) + 1) := by omega
      refine ⟨?_, ?_, wf_mk h1 h3 i3, i4.mono h1⟩
      · simp only [vals_mk, i1, vals_node]
        conv_rhs => rw [e, List.take_length_add_append, List.take_succ_cons]
      · simp only [i2, vals_node]
        conv_rhs => rw [e, List.drop_length_add_append, List.drop_succ_cons]

theorem insert_spec {b : Nat} (i p : Nat) (v : V) (t : ITree V) (h : Wf b t) :
    (i ≤ (vals t).length → ∃ t' b', insert (i + 1) p v t = some t' ∧
        vals t' = (vals t).take i ++ v :: (vals t).drop i ∧ Wf b' t') ∧
      (¬ i ≤ (vals t).length → insert (i + 1) p v t = none) := by
  constructor
  · intro hi
    obtain ⟨i1, i2, i3, i4⟩ := split_spec (i + 1) (by omega) t h
    refine ⟨merge (merge (split true (i + 1) t).1 (.node ⟨p, 1⟩ .nil () v .nil)) (split true (i + 1) t).2,
      max b p, ?_, ?_, ?_⟩
    · unfold insert
      rw [if_pos (by rw [len_vals h]; omega)]
    · simp [i1, i2]
    · refine wf_merge (wf_merge (i3.mono (le_max_left _ _)) ?_) (i4.mono (le_max_left _ _))
      exact ⟨le_max_right _ _, rfl, trivial, trivial⟩
  · intro hi
    unfold insert
    rw [if_neg (by rw [len_vals h]; omega)]

theorem remove_spec {b : Nat} (i : Nat) (t : ITree V) (h : Wf b t) :
    (∀ v, (vals t)[i]? = some v → ∃ t', remove (i + 1) t = some (t', v) ∧
        vals t' = (vals t).take i ++ (vals t).drop (i + 1) ∧ Wf b t') ∧
      ((vals t)[i]? = none → remove (i + 1) t = none) := by
  induction t generalizing b i with
  | nil => simp [remove]
  | node a l k w r ihl ihr =>
    have hlen := len_vals h
    obtain ⟨h1, h2, h3, h4⟩ := h
    have hl := len_vals h3
    rw [len_node] at hlen
    constructor
    · intro v hv
      have hi : i < (vals (.node a l k w r)).length := (List.getElem?_eq_some_iff.1 hv).1
      unfold remove
      rw [if_pos (by omega)]
      simp only [implicitKey, hl]
      rw [vals_node] at hv hi ⊢
      rcases Nat.lt_trichotomy i (vals l).length with hc | hc | hc
      · rw [if_pos (by omega)]
        rw [List.getElem?_append_left hc] at hv
        obtain ⟨t', e1, e2, e3⟩ := (ihl i h3).1 v hv
        refine ⟨mk a.prio t' k w r, by simp [e1], ?_, wf_mk h1 e3 h4⟩
        rw [vals_mk, e2, List.take_append_of_le_length (by omega),
          List.drop_append_of_le_length (by omega)]
        simp
      · rw [if_neg (by omega), if_neg (by omega)]
        subst hc
        rw [List.getElem?_append_right (by omega)] at hv
        simp at hv; subst hv
        refine ⟨merge l r, rfl, ?_, wf_merge (h3.mono h1) (h4.mono h1)⟩
        simp [List.drop_append]
      · rw [if_neg (by omega), if_pos (by omega)]
        obtain ⟨j, rfl⟩ := Nat.exists_eq_add_of_lt hc
        have e : (vals l).length + j + 1 + 1 - ((vals l).length + 1) = j + 1 := by omega
        rw [e]
        have e' : (vals l).length + j + 1 = (vals l).length + (j + 1) := by omega
        rw [e', List.getElem?_append_right (by omega), Nat.add_sub_cancel_left,
          List.getElem?_cons_succ] at hv
        obtain ⟨t', e1, e2, e3⟩ := (ihr j h4).1 v hv
        refine ⟨mk a.prio l k w t', by simp [e1], ?_, wf_mk h1 h3 e3⟩
        rw [vals_mk, e2, e', List.take_length_add_append, Nat.add_assoc, List.drop_length_add_append]
        simp
    · intro hv
      have hi := List.getElem?_eq_none_iff.1 hv
      unfold remove
      rw [if_neg (by omega)]

theorem get_spec {b : Nat} (i : Nat) (t : ITree V) (h : Wf b t) : get (i + 1) t = (vals t)[i]? := by
  induction t generalizing b i with
  | nil => simp [get]
  | node a l k w r ihl ihr =>
    obtain ⟨h1, h2, h3, h4⟩ := h
    have hl := len_vals h3
    unfold get
    simp only [implicitKey, hl, vals_node]
    rcases Nat.lt_trichotomy i (vals l).length with hc | hc | hc
    · rw [if_pos (by omega), ihl i h3, List.getElem?_append_left hc]
    · rw [if_neg (by omega), if_neg (by omega)]
      subst hc
      simp
    · rw [if_neg (by omega), if_pos (by omega)]
      obtain ⟨j, rfl⟩ := Nat.exists_eq_add_of_lt hc
      have e : (vals l).length + j + 1 + 1 - ((vals l).length + 1) = j + 1 := by omega
      rw [e, ihr j h4, List.getElem?_append_right (by omega)]
      have e' : (vals l).length + j + 1 - (vals l).length = j + 1 := by omega
      rw [e', List.getElem?_cons_succ]

theorem getMut_spec {b : Nat} (f : V → V) (i : Nat) (t : ITree V) (h : Wf b t) :
    (getMut f (i + 1) t).1 = (vals t)[i]? ∧ vals (getMut f (i + 1) t).2 = (vals t).modify i f ∧
      Wf b (getMut f (i + 1) t).2 := by
  suffices H : (getMut f (i + 1) t).1 = (vals t)[i]? ∧
      vals (getMut f (i + 1) t).2 = (vals t).modify i f ∧ Wf b (getMut f (i + 1) t).2 ∧
      len (getMut f (i + 1) t).2 = len t from ⟨H.1, H.2.1, H.2.2.1⟩
  induction t generalizing b i with
  | nil => simp [getMut]
  | node a l k w r ihl ihr =>
    obtain ⟨h1, h2, h3, h4⟩ := h
    have hl := len_vals h3
    unfold getMut
    simp only [implicitKey, hl, vals_node]
    rcases Nat.lt_trichotomy i (vals l).length with hc | hc | hc
    · rw [if_pos (by omega)]
      obtain ⟨i1, i2, i3, i4⟩ := ihl i h3
      refine ⟨by rw [i1, List.getElem?_append_left hc], ?_, ⟨h1, by rw [i4]; exact h2, i3, h4⟩, rfl⟩
      rw [vals_node, i2, modify_append_lt _ _ _ hc]
    · rw [if_neg (by omega), if_neg (by omega)]
      subst hc
      refine ⟨by simp, ?_, ⟨h1, h2, h3, h4⟩, rfl⟩
      have := modify_append_add f (vals l) (w :: vals r) 0
      rw [Nat.add_zero] at this
      rw [vals_node, this]
      rfl
    · rw [if_neg (by omega), if_pos (by omega)]
      obtain ⟨j, rfl⟩ := Nat.exists_eq_add_of_lt hc
      have e : (vals l).length + j + 1 + 1 - ((vals l).length + 1) = j + 1 := by omega
      rw [e]
      obtain ⟨i1, i2, i3, i4⟩ := ihr j h4
      refine ⟨?_, ?_, ⟨h1, by rw [i4]; exact h2, h3, i3⟩, rfl⟩
      · have e' : (vals l).length + j + 1 - (vals l).length = j + 1 := by omega
        rw [i1, List.getElem?_append_right (by omega), e', List.getElem?_cons_succ]
      · rw [vals_node, i2, Nat.add_assoc, modify_append_add]
        simp

theorem shape_len {K : Type} {s t : TTree K V} (h : s.shape = t.shape) : s.toList.length = t.toList.length := by
  rw [← Tree.length_paths, ← Tree.length_paths, ← Tree.paths_shape s, h, Tree.paths_shape]

theorem wf_writeAt {b : Nat} (f : V → V) (t : ITree V) (p : Path) (h : Wf b t) :
    Wf b (t.writeAt f p) ∧ len (t.writeAt f p) = len t := by
  induction t generalizing b p with
  | nil => cases p <;> exact ⟨trivial, rfl⟩
  | node a l k v r ihl ihr =>
    obtain ⟨h1, h2, h3, h4⟩ := h
    cases p with
    | nil => exact ⟨⟨h1, h2, h3, h4⟩, rfl⟩
    | cons d p =>
      cases d with
      | left =>
        obtain ⟨i1, i2⟩ := ihl p h3
        exact ⟨⟨h1, by rw [i2]; exact h2, i1, h4⟩, rfl⟩
      | right =>
        obtain ⟨i1, i2⟩ := ihr p h4
        exact ⟨⟨h1, by rw [i2]; exact h2, h3, i1⟩, rfl⟩

theorem wf_runWrite {b : Nat} (fs : List (V → V)) (t : ITree V) (it : IterMut) (h : Wf b t) :
    Wf b (IterMut.runWrite fs t it).2.1 := by
  induction fs generalizing t it with
  | nil => exact h
  | cons f fs ih =>
    simp only [IterMut.runWrite, IterMut.stepWrite]
    cases it.next t with
    | mk o it' =>
      cases o with
      | none => exact ih t it' h
      | some p => exact ih _ it' (wf_writeAt f t p h).1

theorem getElem?_updateEach (fs : List (V → V)) (l : List V) (i : Nat) :
    (updateEach fs l)[i]? = l[i]?.map fun v => fs.getD i id v := by
  induction fs generalizing l i with
  | nil => simp [updateEach]
  | cons f fs ih =>
    cases l with
    | nil => simp [updateEach]
    | cons v l =>
      cases i with
      | zero => simp [updateEach]
      | succ i => simp [updateEach, ih]

/-- The simulation of `TreapList` by lists. -/
def sim (V : Type) : SeqSim (impl V) where
  rel s l := vals s.tree = l ∧ ∃ b, Wf b s.tree
  empty := ⟨rfl, 0, trivial⟩
  step := by
    rintro ⟨t⟩ l op d ⟨rfl, b, hb⟩
    change Wf b t at hb
    simp only [impl]
    have hins : ∀ i v, (TreapList.insert ⟨t⟩ i v d).map (·.2) = (insertAt (vals t) i v).map (·.2) ∧
        ∀ s' r l' r', TreapList.insert ⟨t⟩ i v d = some (s', r) → insertAt (vals t) i v = some (l', r') →
          vals s'.tree = l' ∧ ∃ b, Wf b s'.tree := by
      intro i v
      obtain ⟨g1, g2⟩ := insert_spec i d v t hb
      unfold insertAt TreapList.insert
      by_cases hi : i ≤ (vals t).length
      · obtain ⟨t', b', e1, e2, e3⟩ := g1 hi
        simp only [e1, if_pos hi, Option.map_some, true_and]
        rintro s' r l' r' h1 h2
        simp only [Option.some.injEq, Prod.mk.injEq] at h1 h2
        obtain ⟨rfl, _⟩ := h1
        obtain ⟨rfl, _⟩ := h2
        exact ⟨e2, b', e3⟩
      · simp [g2 hi, hi]
    have hrem : ∀ i, (TreapList.remove ⟨t⟩ i).map (·.2) = (removeAt (vals t) i).map (·.2) ∧
        ∀ s' r l' r', TreapList.remove ⟨t⟩ i = some (s', r) → removeAt (vals t) i = some (l', r') →
          vals s'.tree = l' ∧ ∃ b, Wf b s'.tree := by
      intro i
      obtain ⟨g1, g2⟩ := remove_spec i t hb
      unfold removeAt TreapList.remove
      cases hi : (vals t)[i]? with
      | none => simp [g2 hi]
      | some v =>
        obtain ⟨t', e1, e2, e3⟩ := g1 v hi
        simp only [e1, Option.map_some, true_and]
        rintro s' r l' r' h1 h2
        simp only [Option.some.injEq, Prod.mk.injEq] at h1 h2
        obtain ⟨rfl, _⟩ := h1
        obtain ⟨rfl, _⟩ := h2
        exact ⟨e2, b, e3⟩
    have hlen := len_vals hb
    have hsame : ∀ {r r' : SeqRes V} {s' : TreapList V} {l' : List V},
        some (({ tree := t } : TreapList V), r) = some (s', r') → some (vals t, r) = some (l', r') →
        vals s'.tree = l' ∧ ∃ b, Wf b s'.tree := by
      intro r r' s' l' h1 h2
      simp only [Option.some.injEq, Prod.mk.injEq] at h1 h2
      obtain ⟨rfl, _⟩ := h1
      obtain ⟨rfl, _⟩ := h2
      exact ⟨rfl, b, hb⟩
    cases op with
    | insert i v => exact hins i v
    | remove i => exact hrem i
    | pushFront v =>
      have := hins 0 v
      simp only [insertAt, Nat.zero_le, if_true, List.take_zero, List.drop_zero, List.nil_append] at this
      exact this
    | pushBack v =>
      have := hins (vals t).length v
      simp only [insertAt, le_refl, if_true, List.take_length, List.drop_length] at this
      simp only [step, hlen]
      exact this
    | popFront => exact hrem 0
    | popBack =>
      simp only [step, SeqOp.exec, hlen]
      cases hv : vals t with
      | nil => simp [decr]
      | cons v l =>
        have := hrem (l.length)
        rw [hv] at this
        simpa [decr] using this
    | get i =>
      simp only [step, SeqOp.exec, get_spec i t hb]
      refine ⟨rfl, ?_⟩
      rintro s' r l' r' h1 h2
      simp only [Option.some.injEq, Prod.mk.injEq] at h1 h2
      obtain ⟨rfl, _⟩ := h1
      obtain ⟨rfl, _⟩ := h2
      exact ⟨rfl, b, hb⟩
    | index i =>
      simp only [step, SeqOp.exec, get_spec i t hb]
      cases (vals t)[i]? with
      | none => simp
      | some v =>
        refine ⟨rfl, ?_⟩
        rintro s' r l' r' h1 h2
        simp only [Option.map_some, Option.some.injEq, Prod.mk.injEq] at h1 h2
        obtain ⟨rfl, _⟩ := h1
        obtain ⟨rfl, _⟩ := h2
        exact ⟨rfl, b, hb⟩
    | getMut i f =>
      obtain ⟨g1, g2, g3⟩ := getMut_spec f i t hb
      simp only [step, SeqOp.exec, g1]
      refine ⟨rfl, ?_⟩
      rintro s' r l' r' h1 h2
      simp only [Option.some.injEq, Prod.mk.injEq] at h1 h2
      obtain ⟨rfl, _⟩ := h1
      obtain ⟨rfl, _⟩ := h2
      exact ⟨g2, b, g3⟩
    | len =>
      simp only [step, SeqOp.exec, hlen]
      refine ⟨rfl, ?_⟩
      rintro s' r l' r' h1 h2
      simp only [Option.some.injEq, Prod.mk.injEq] at h1 h2
      obtain ⟨rfl, _⟩ := h1
      obtain ⟨rfl, _⟩ := h2
      exact ⟨rfl, b, hb⟩
    | isEmpty =>
      refine ⟨?_, ?_⟩
      · simp only [step, SeqOp.exec]
        cases t with
        | nil => rfl
        | node a l k v r => simp
      · rintro s' r l' r' h1 h2
        simp only [step, SeqOp.exec, Option.some.injEq, Prod.mk.injEq] at h1 h2
        obtain ⟨rfl, _⟩ := h1
        obtain ⟨rfl, _⟩ := h2
        exact ⟨rfl, b, hb⟩
    | clear =>
      refine ⟨rfl, ?_⟩
      rintro s' r l' r' h1 h2
      simp only [step, SeqOp.exec, Option.some.injEq, Prod.mk.injEq] at h1 h2
      obtain ⟨rfl, _⟩ := h1
      obtain ⟨rfl, _⟩ := h2
      exact ⟨rfl, b, trivial⟩
    | iter n =>
      refine ⟨?_, ?_⟩
      · simp [step, SeqOp.exec, Iter.take_eq, Iter.pending_start, vals, Function.comp_def]
      · rintro s' r l' r' h1 h2
        simp only [step, SeqOp.exec, Option.some.injEq, Prod.mk.injEq] at h1 h2
        obtain ⟨rfl, _⟩ := h1
        obtain ⟨rfl, _⟩ := h2
        exact ⟨rfl, b, hb⟩
    | iterMut fs =>
      obtain ⟨g1, g2, _⟩ := IterMut.runWrite_eq fs t IterMut.start 0
        (by rw [IterMut.pending_start]; rfl)
      refine ⟨?_, ?_⟩
      · simp [step, SeqOp.exec, g1, vals, Function.comp_def]
      · rintro s' r l' r' h1 h2
        simp only [step, SeqOp.exec, Option.some.injEq, Prod.mk.injEq] at h1 h2
        obtain ⟨rfl, _⟩ := h1
        obtain ⟨rfl, _⟩ := h2
        refine ⟨?_, b, wf_runWrite fs t _ hb⟩
        refine List.ext_getElem? fun i => ?_
        rw [getElem?_updateEach]
        simp only [vals, List.getElem?_map, g2, IterMut.getElem?_modifyFrom]
        cases t.toList[i]? <;> simp

/-- The lists a program can build: by any list call, with any priorities, and by `+`. -/
inductive Reach : TreapList V → Prop
  | new : Reach TreapList.new
  | step {s s' op d r} : Reach s → step s op d = some (s', r) → Reach s'
  | add {a b} : Reach a → Reach b → Reach (a.add b)

theorem rel_of_reach {s : TreapList V} (h : Reach s) : ∃ b, Wf b s.tree := by
  induction h with
  | new => exact ⟨0, trivial⟩
  | step _ hstep ih =>
    rename_i s s' op d r _
    obtain ⟨h1, h2⟩ := (sim V).step s _ op d ⟨rfl, ih⟩
    have h3 : (impl V).step s op d = some (s', r) := hstep
    cases h4 : op.exec (vals s.tree) with
    | none => rw [h3, h4] at h1; cases h1
    | some q => exact (h2 s' r q.1 q.2 h3 h4).2
  | add _ _ iha ihb =>
    obtain ⟨x, hx⟩ := iha
    obtain ⟨y, hy⟩ := ihb
    exact ⟨max x y, wf_merge (hx.mono (le_max_left _ _)) (hy.mono (le_max_right _ _))⟩

/-- **C12, histories.** From the empty list, every sequence of calls returns what the plain sequence
returns and panics exactly where that is out of range, whatever priorities are drawn. -/
theorem C12_treap_list_history (V : Type) : (impl V).Represents TreapList.new [] :=
  (sim V).represents (sim V).empty

/-- Every list a program can build behaves as some plain sequence. -/
theorem C12_treap_list_represents {s : TreapList V} (h : Reach s) : ∃ l, (impl V).Represents s l :=
  ⟨_, (sim V).represents ⟨rfl, rel_of_reach h⟩⟩

/-- **C12, concatenation.** `a + b` behaves as the concatenation of what `a` and `b` behave as. -/
theorem C12_treap_list_add {a b : TreapList V} {la lb : List V} (ha : Reach a) (hb : Reach b)
    (hla : (impl V).Represents a la) (hlb : (impl V).Represents b lb) :
    (impl V).Represents (a.add b) (la ++ lb) := by
  have h1 := seqRepresents_unique (I := impl V) (0 : Nat) hla ((sim V).represents ⟨rfl, rel_of_reach ha⟩)
  have h2 := seqRepresents_unique (I := impl V) (0 : Nat) hlb ((sim V).represents ⟨rfl, rel_of_reach hb⟩)
  refine (sim V).represents ⟨?_, rel_of_reach (.add ha hb)⟩
  rw [h1, h2]
  exact vals_merge a.tree b.tree

/-- A run with an insertion in the middle, a removal, iteration, and a panic at the end. -/
example : (impl Nat).run TreapList.new ([(.pushBack 1, 5), (.pushBack 2, 3), (.pushFront 0, 9),
      (.insert 2 7, 4), (.remove 1, 0), (.getMut 1 (· + 1), 0), (.iter 4, 0), (.popBack, 0),
      (.iterMut [(· + 1)], 0), (.get 0, 0), (.remove 2, 0), (.len, 0)] : List (SeqOp Nat × Nat)) =
    [some .unit, some .unit, some .unit, some .unit, some (.val 1), some (.opt (some 7)),
      some (.opts [some 0, some 8, some 2, none]), some (.val 2), some (.opts [some 0]),
      some (.opt (some 1)), none] := by decide

end Verif.Treap.Implicit
