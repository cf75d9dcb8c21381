/- The entries of a radix tree in order, the iterator, and the simulation by sorted lists.
Proof machinery only; nothing here models code. -/
import Verif.Radix.Lemmas

namespace Verif.Radix

open Verif.Spec

variable {V : Type}

/-- The entries of a sibling list whose keys are prefixed by `p`, in the order of the tree. -/
def entries (p : Key) : Tree V → List (Key × V)
  | .nil => []
  | .node k v next child => (v.toList.map fun v => (p ++ k, v)) ++ entries (p ++ k) child ++ entries p next

/-- All entries of a child list extend the prefix properly. -/
theorem entries_prefix {t : Tree V} (h : Wf t) (p : Key) : ∀ e ∈ entries p t, ∃ c s, e.1 = p ++ c :: s := by
  induction t generalizing p with
  | nil => intro e he; simp [entries] at he
  | node k v next child ih1 ih2 =>
    cases k with
    | nil => exact absurd h id
    | cons d k =>
      intro e he
      simp only [entries, List.mem_append] at he
      rcases he with (he | he) | he
      · obtain ⟨w, _, rfl⟩ := List.mem_map.1 he
        exact ⟨d, k, rfl⟩
      · obtain ⟨c, s, hs⟩ := ih2 h.2.2.2 _ e he
        exact ⟨d, k ++ c :: s, by rw [hs]; simp⟩
      · exact ih1 h.2.2.1 p e he

theorem entries_above {t : Tree V} (h : Wf t) {b : Byte} (ha : Above b t) (p : Key) :
    ∀ e ∈ entries p t, ∃ c s, e.1 = p ++ c :: s ∧ b < c := by
  induction t generalizing b p with
  | nil => intro e he; simp [entries] at he
  | node k v next child ih1 ih2 =>
    cases k with
    | nil => exact absurd h id
    | cons d k =>
      intro e he
      simp only [entries, List.mem_append] at he
      rcases he with (he | he) | he
      · obtain ⟨w, _, rfl⟩ := List.mem_map.1 he
        exact ⟨d, k, rfl, ha⟩
      · obtain ⟨c, s, hs⟩ := entries_prefix h.2.2.2 _ e he
        exact ⟨d, k ++ c :: s, by rw [hs]; simp, ha⟩
      · obtain ⟨c, s, h1, h2⟩ := ih1 h.2.2.1 h.1 p e he
        exact ⟨c, s, h1, lt_trans ha h2⟩

theorem mem_entries_node {k : Key} {v : Option V} {next child : Tree V} (hc : Wf child)
    (hd : ∀ s, strip k s ≠ none → look next s = none)
    (ih2 : ∀ p q w, (q, w) ∈ entries p child ↔ ∃ s, q = p ++ s ∧ look child s = some w)
    (ih1 : ∀ p q w, (q, w) ∈ entries p next ↔ ∃ s, q = p ++ s ∧ look next s = some w) (p q : Key) (w : V) :
    (q, w) ∈ entries p (.node k v next child) ↔ ∃ s, q = p ++ s ∧ look (.node k v next child) s = some w := by
  simp only [entries, List.mem_append, List.mem_map, Option.mem_toList, ih2, ih1]
  constructor
  · rintro ((⟨u, hu, e⟩ | ⟨s, rfl, hs⟩) | ⟨s, rfl, hs⟩)
    · obtain ⟨rfl, rfl⟩ := Prod.mk.inj e
      refine ⟨k, rfl, ?_⟩
      rw [look_node, strip_self, atRest_nil]
      have : v = some u := by simpa using hu
      rw [this]; rfl
    · refine ⟨k ++ s, by simp, ?_⟩
      rw [look_node, strip_append]
      cases s with
      | nil => rw [look_empty hc] at hs; cases hs
      | cons a s => rw [atRest_cons, hs]; rfl
    · refine ⟨s, rfl, ?_⟩
      rw [look_node]
      cases e : strip k s with
      | none => simpa using hs
      | some r => rw [hd s (by rw [e]; simp)] at hs; cases hs
  · rintro ⟨s, rfl, hs⟩
    rw [look_node] at hs
    cases e : strip k s with
    | none => rw [e] at hs; exact .inr ⟨s, rfl, by simpa using hs⟩
    | some r =>
      rw [hd s (by rw [e]; simp), e, Option.or_none] at hs
      rw [strip_eq_some] at e; subst e
      left
      cases r with
      | nil => exact .inl ⟨w, by simpa using hs, by simp⟩
      | cons a r => exact .inr ⟨a :: r, by simp, hs⟩

theorem look_next_of_strip {b : Byte} {k : Key} {v : Option V} {next child : Tree V}
    (h : Wf (.node (b :: k) v next child)) (s : Key) (hs : strip (b :: k) s ≠ none) : look next s = none := by
  cases s with
  | nil => exact look_empty h.2.2.1
  | cons c s =>
    refine look_above h.2.2.1 h.1 ?_
    simp only [strip] at hs
    split at hs
    · rename_i e; exact le_of_eq e.symm
    · exact absurd rfl hs

theorem mem_entries {t : Tree V} (h : Wf t) (p q : Key) (w : V) :
    (q, w) ∈ entries p t ↔ ∃ s, q = p ++ s ∧ look t s = some w := by
  induction t generalizing p q w with
  | nil => simp [entries, look_nil]
  | node k v next child ih1 ih2 =>
    cases k with
    | nil => exact absurd h id
    | cons d k =>
      exact mem_entries_node h.2.2.2 (look_next_of_strip h) (fun p q w => ih2 h.2.2.2 p q w)
        (fun p q w => ih1 h.2.2.1 p q w) p q w

theorem lt_append (p : Key) {a b : Key} (h : a < b) : p ++ a < p ++ b := List.append_left_lt h

theorem lt_ext (p : Key) (c : Byte) (s : Key) : p < p ++ c :: s := by
  have := lt_append p (List.nil_lt_cons c s)
  simpa using this

theorem sorted_entries_node {k : Key} {v : Option V} {next child : Tree V} (hc : Wf child)
    (hs2 : ∀ p, SL.Sorted (entries p child)) (p : Key) (hs1 : SL.Sorted (entries p next))
    (hlt : ∀ e ∈ entries p next, ∀ s, p ++ (k ++ s) < e.1) :
    SL.Sorted (entries p (.node k v next child)) := by
  simp only [entries]
  rw [SL.sorted_append, SL.sorted_append]
  refine ⟨⟨?_, hs2 _, ?_⟩, hs1, ?_⟩
  · cases v <;> simp [SL.Sorted]
  · intro a ha b hb
    obtain ⟨u, _, rfl⟩ := List.mem_map.1 ha
    obtain ⟨c, s, hs⟩ := entries_prefix hc _ b hb
    rw [hs]; exact lt_ext _ _ _
  · intro a ha b hb
    rcases List.mem_append.1 ha with ha | ha
    · obtain ⟨u, _, rfl⟩ := List.mem_map.1 ha
      simpa using hlt b hb []
    · obtain ⟨c, s, hs⟩ := entries_prefix hc _ a ha
      rw [hs, List.append_assoc]; exact hlt b hb _

theorem sorted_entries {t : Tree V} (h : Wf t) (p : Key) : SL.Sorted (entries p t) := by
  induction t generalizing p with
  | nil => simp [entries, SL.Sorted]
  | node k v next child ih1 ih2 =>
    cases k with
    | nil => exact absurd h id
    | cons d k =>
      refine sorted_entries_node h.2.2.2 (ih2 h.2.2.2) p (ih1 h.2.2.1 p) fun e he s => ?_
      obtain ⟨c, r, hr, hc⟩ := entries_above h.2.2.1 h.1 p e he
      rw [hr]
      exact lt_append p (List.cons_lt_cons_iff.2 (.inl hc))

theorem entries_ne_nil {t : Tree V} (h : Wf t) (hn : t.isNil = false) (p : Key) : entries p t ≠ [] := by
  induction t generalizing p with
  | nil => cases hn
  | node k v next child ih1 ih2 =>
    cases k with
    | nil => exact absurd h id
    | cons d k =>
      intro e
      simp only [entries, List.append_eq_nil_iff] at e
      rcases h.2.1 with hv | hv
      · cases v with
        | none => cases hv
        | some v => simp at e
      · exact ih2 h.2.2.2 (not_nil_of_multi hv) _ e.1.2

/-- A root: `nil` after the last key has been removed. -/
def RootOk : Tree V → Prop
  | .nil => True
  | .node k v next child => next = .nil ∧ Wf child ∧ (k = [] ∨ v.isSome = true ∨ child.multi = true)

theorem root_lists {t : Tree V} (h : RootOk t) : Lists (look t) (entries [] t) := by
  cases t with
  | nil => exact ⟨by simp [entries], fun k v => by simp [entries, look_nil]⟩
  | node k v next child =>
    obtain ⟨rfl, hc, _⟩ := h
    refine ⟨sorted_entries_node hc (sorted_entries hc) [] (by simp [entries, SL.Sorted]) (by simp [entries]), ?_⟩
    intro q w
    rw [mem_entries_node hc (fun _ _ => rfl) (fun p q w => mem_entries hc p q w) (fun p q w => by simp [entries, look_nil])]
    simp

theorem root_abs {t : Tree V} (h : RootOk t) : SL.abs (entries [] t) = look t := by
  funext k
  have h1 := root_lists h
  have h2 := SL.lists_abs (l := entries [] t) h1.1
  cases e : look t k with
  | some v => exact (h2.2 k v).1 ((h1.2 k v).2 e)
  | none =>
    cases e' : SL.abs (entries [] t) k with
    | none => rfl
    | some v => rw [(h1.2 k v).1 ((h2.2 k v).2 e')] at e; cases e

theorem entries_eq {t : Tree V} (h : RootOk t) {l : List (Key × V)} (hl : SL.Sorted l) (he : ∀ k, look t k = SL.abs l k) :
    entries [] t = l := by
  refine SL.lists_unique (root_lists h) ?_
  have : look t = SL.abs l := funext he
  rw [this]; exact SL.lists_abs hl

/-! ### min and max -/

theorem minKey_eq {t : Tree V} (h : Wf t ∨ RootOk t) (p : Key) : minKey p t = (entries p t).head?.map (·.1) := by
  induction t generalizing p with
  | nil => rfl
  | node k v next child ih1 ih2 =>
    cases v with
    | some v => rfl
    | none =>
      have hc : Wf child := by
        rcases h with h | h
        · cases k with
          | nil => exact absurd h id
          | cons d k => exact h.2.2.2
        · exact h.2.1
      have e : minKey p (.node k none next child) = minKey (p ++ k) child := rfl
      rw [e, ih2 (.inl hc)]
      simp only [entries, Option.toList_none, List.map_nil, List.nil_append]
      cases hcn : child.isNil with
      | false =>
        obtain ⟨a, l, hl⟩ := List.exists_cons_of_ne_nil (entries_ne_nil hc hcn (p ++ k))
        rw [hl]; rfl
      | true =>
        have : child = .nil := by cases child <;> simp_all [Tree.isNil]
        subst this
        rcases h with h | h
        · cases k with
          | nil => exact absurd h id
          | cons d k => have := h.2.1; simp [Tree.multi] at this
        · rw [h.1]; rfl

theorem maxKey_eq {t : Tree V} (h : Wf t ∨ RootOk t) (p : Key) : maxKey p t = (entries p t).getLast?.map (·.1) := by
  induction t generalizing p with
  | nil => rfl
  | node k v next child ih1 ih2 =>
    have hc : Wf child := by
      rcases h with h | h
      · cases k with
        | nil => exact absurd h id
        | cons d k => exact h.2.2.2
      · exact h.2.1
    simp only [maxKey]
    cases hn : next.isNil with
    | true =>
      have : next = .nil := by cases next <;> simp_all [Tree.isNil]
      subst this
      simp only [if_true, entries, List.append_nil]
      cases hcn : child.isNil with
      | true =>
        have : child = .nil := by cases child <;> simp_all [Tree.isNil]
        subst this
        cases v <;> simp [maxKey, entries]
      | false =>
        simp only [Bool.false_eq_true, and_false, if_false]
        rw [ih2 (.inl hc), List.getLast?_append_of_ne_nil _ (entries_ne_nil hc hcn _)]
    | false =>
      simp only [Bool.false_eq_true, if_false]
      have hw : Wf next := by
        rcases h with h | h
        · cases k with
          | nil => exact absurd h id
          | cons d k => exact h.2.2.1
        · rw [h.1] at hn; cases hn
      rw [ih1 (.inl hw)]
      simp only [entries]
      rw [List.getLast?_append_of_ne_nil _ (entries_ne_nil hw hn _)]

/-! ### The iterator -/

def pendStack (p : Key) : List (Tree V × Nat) → List (Key × V)
  | [] => []
  | (t, n) :: st => entries (p.take (p.length - n)) t ++ pendStack (p.take (p.length - n)) st

def StackOk (p : Key) : List (Tree V × Nat) → Prop
  | [] => True
  | (_, n) :: st => n ≤ p.length ∧ StackOk (p.take (p.length - n)) st

/-- What the iterator has still to yield. -/
def pend (it : Iter V) : List (Key × V) := entries it.pre it.current ++ pendStack it.pre it.stack

def weight (it : Iter V) : Nat :=
  2 * it.current.size + (it.stack.map fun e => 2 * e.1.size + 1).sum

theorem next_spec (f : Nat) (it : Iter V) (hf : weight it < f) (hok : StackOk it.pre it.stack) :
    (pend it = [] ∧ ∃ it', it.next f = some (none, it')) ∨
    ∃ e r it', pend it = e :: r ∧ it.next f = some (some e, it') ∧ pend it' = r ∧
      StackOk it'.pre it'.stack ∧ weight it' ≤ weight it := by
  induction f generalizing it with
  | zero => omega
  | succ f ih =>
    obtain ⟨p, cur, st⟩ := it
    cases cur with
    | node k v next child =>
      have htk : (p ++ k).take ((p ++ k).length - k.length) = p := by simp
      have hok' : StackOk (p ++ k) ((next, k.length) :: st) := ⟨by simp, by rw [htk]; exact hok⟩
      have hp : pend ⟨p, .node k v next child, st⟩ =
          (v.toList.map fun v => (p ++ k, v)) ++ pend ⟨p ++ k, child, (next, k.length) :: st⟩ := by
        simp [pend, entries, pendStack]
      have hw : weight ⟨p ++ k, child, (next, k.length) :: st⟩ < weight ⟨p, .node k v next child, st⟩ := by
        simp only [weight, Tree.size, List.map_cons, List.sum_cons]; omega
      cases v with
      | some v => exact .inr ⟨_, _, _, hp, rfl, rfl, hok', le_of_lt hw⟩
      | none =>
        have e : Iter.next (f + 1) ⟨p, .node k none next child, st⟩ =
          Iter.next f ⟨p ++ k, child, (next, k.length) :: st⟩ := rfl
        rw [e, hp]
        rcases ih ⟨p ++ k, child, (next, k.length) :: st⟩ (by omega) hok' with h | ⟨e, r, it', h1, h2, h3, h4, h5⟩
        · exact .inl h
        · exact .inr ⟨e, r, it', h1, h2, h3, h4, by omega⟩
    | nil =>
      cases st with
      | nil => exact .inl ⟨rfl, _, rfl⟩
      | cons a st =>
        obtain ⟨t, n⟩ := a
        have e : Iter.next (f + 1) ⟨p, .nil, (t, n) :: st⟩ = Iter.next f ⟨p.take (p.length - n), t, st⟩ := by
          simp only [Iter.next]
          rw [if_pos hok.1]
        have hw : weight ⟨p.take (p.length - n), t, st⟩ < weight ⟨p, .nil, (t, n) :: st⟩ := by
          simp only [weight, Tree.size, List.map_cons, List.sum_cons]; omega
        have hp : pend ⟨p, .nil, (t, n) :: st⟩ = pend ⟨p.take (p.length - n), t, st⟩ := rfl
        rw [e, hp]
        rcases ih ⟨p.take (p.length - n), t, st⟩ (by omega) hok.2 with h | ⟨e, r, it', h1, h2, h3, h4, h5⟩
        · exact .inl h
        · exact .inr ⟨e, r, it', h1, h2, h3, h4, by omega⟩

theorem collect_spec (budget n : Nat) (it : Iter V) (hb : weight it < budget) (hn : (pend it).length < n)
    (hok : StackOk it.pre it.stack) : it.collect budget n = some (pend it) := by
  induction n generalizing it with
  | zero => omega
  | succ n ih =>
    rcases next_spec budget it hb hok with ⟨h, it', e⟩ | ⟨a, r, it', h1, h2, h3, h4, h5⟩
    · simp only [Iter.collect, e, h]
    · simp only [Iter.collect, h2]
      rw [ih it' (by omega) (by rw [h3]; rw [h1] at hn; simpa using hn) h4, h3, h1]; rfl

/-! ### Simulation -/

/-- The state after some calls: the tree and the length. -/
def Inv (m : RadixMap V) : Prop := RootOk m.root ∧ m.len = (entries [] m.root).length

theorem insert_root {t : Tree V} (h : RootOk t) (hn : t.isNil = false) (key : Key) (value : V) :
    ∃ t', insert key value t = some (t', look t key) ∧ RootOk t' ∧ t'.isNil = false ∧
      ∀ x, look t' x = if x = key then some value else look t x := by
  cases t with
  | nil => cases hn
  | node k v next child =>
    obtain ⟨rfl, hc, hk⟩ := h
    obtain ⟨k', v', c', e, hw, hn, _, hl⟩ := insertNode_spec (k := k) (v := v) (next := .nil)
      (key := key) value (sub := insertIn (key.drop k.length) value child) hc hk (by
        intro b s n hg hn he
        rw [he]
        obtain ⟨c', h1, h2, h3, _, h4⟩ := insertIn_spec hc (s := s) value hg hn
        exact ⟨c', h1, h2, h3.2, h4⟩)
    refine ⟨.node k' v' .nil c', ?_, ⟨rfl, hw, hn⟩, rfl, fun x => ?_⟩
    · rw [insert, e, look_node, look_nil, Option.or_none]
    · rw [look_node, hl, look_node, look_nil, Option.or_none, Option.or_none]

theorem remove_root {t : Tree V} (h : RootOk t) (key : Key) :
    ∃ t', remove key t = some (t', look t key) ∧ RootOk t' ∧
      (∀ x, look t' x = if x = key then none else look t x) ∧ (t'.isNil = true ↔ ∀ x, look t' x = none) := by
  cases t with
  | nil => exact ⟨.nil, rfl, trivial, fun x => by simp [look_nil], by simp [look_nil, Tree.isNil]⟩
  | node k v next child =>
    obtain ⟨rfl, hc, hk⟩ := h
    obtain ⟨t', e, hcase⟩ := removeNode_spec (k := k) (v := v) .nil
      (key := key) (sub := removeIn (key.drop k.length) child) hc hk (by
        intro b s he
        rw [he]
        obtain ⟨c', h1, h2, _, h4⟩ := removeIn_spec hc b s
        exact ⟨c', h1, h2, h4⟩)
    refine ⟨t', by rw [remove, e, look_node, look_nil, Option.or_none], ?_⟩
    rcases hcase with ⟨rfl, hx⟩ | ⟨k', v', c', rfl, _, hw, hn, hl⟩
    · refine ⟨trivial, fun x => ?_, by simp [look_nil, Tree.isNil]⟩
      by_cases hxk : x = key
      · rw [if_pos hxk]; rfl
      · rw [if_neg hxk, look_node, look_nil, Option.or_none]
        rcases hx x with e | e
        · rw [e]
        · exact absurd e hxk
    · have hok : RootOk (.node k' v' .nil c') := ⟨rfl, hw, .inr hn⟩
      refine ⟨hok, fun x => ?_, by simp [Tree.isNil], fun hall => ?_⟩
      · rw [look_node, hl, look_node, look_nil, Option.or_none, Option.or_none]
      · exfalso
        rcases hn with hn | hn
        · have := hall k'
          rw [look_node, strip_self, atRest_nil] at this
          cases v' with
          | none => cases hn
          | some v => cases this
        · obtain ⟨⟨q, w⟩, l, hl⟩ := List.exists_cons_of_ne_nil (entries_ne_nil hw (not_nil_of_multi hn) k')
          have := (mem_entries hw k' q w).1 (by rw [hl]; simp)
          obtain ⟨s, rfl, hs⟩ := this
          have h2 := hall (k' ++ s)
          rw [look_node, strip_append] at h2
          cases s with
          | nil => rw [look_empty hw] at hs; cases hs
          | cons a s => rw [atRest_cons, hs] at h2; cases h2

theorem get_root {t : Tree V} (h : RootOk t) (key : Key) : get key t = some (look t key) := by
  cases t with
  | nil => rfl
  | node k v next child =>
    obtain ⟨rfl, hc, hk⟩ := h
    rw [get, getNode_spec (child := child) (fun b s he => by rw [he]; exact getIn_spec hc b s), look_node,
      look_nil, Option.or_none]

theorem getMut_root {t : Tree V} (h : RootOk t) (key : Key) (f : V → V) :
    ∃ t', getMut key f t = some (t', look t key) ∧ RootOk t' ∧ t'.isNil = t.isNil ∧
      ∀ x, look t' x = if x = key then (look t x).map f else look t x := by
  cases t with
  | nil => exact ⟨.nil, rfl, trivial, rfl, fun x => by simp [look_nil]⟩
  | node k v next child =>
    obtain ⟨rfl, hc, hk⟩ := h
    obtain ⟨v', c', e, hw, hn, hv, hl⟩ := getMutNode_spec (k := k) (v := v) .nil
      (key := key) f (sub := getMutIn (key.drop k.length) f child) hc (by
        intro b s he
        rw [he]
        obtain ⟨c', h1, h2, h3, _, h4⟩ := getMutIn_spec hc b s f
        exact ⟨c', h1, h2, h3.2, h4⟩)
    refine ⟨.node k v' .nil c', ?_, ⟨rfl, hw, by rw [hv, hn]; exact hk⟩, rfl, fun x => ?_⟩
    · rw [getMut, e, look_node, look_nil, Option.or_none]
    · simp only [look_node, hl, look_nil, Option.or_none]

theorem find_eq {t : Tree V} (h : RootOk t) (k : Key) : SL.find k (entries [] t) = (look t k).map fun v => (k, v) := by
  rw [SL.find_eq_map, root_abs h]

theorem step_insert_nil {m : RadixMap V} (h : m.root.isNil = true) (k : Key) (v : V) : step m (.insert k v) = none := by
  obtain ⟨root, len⟩ := m
  cases root with
  | nil => rfl
  | node _ _ _ _ => cases h

/-- Whether the root is gone after a call. -/
def goneAfter (op : MapOp Key V) (l' : List (Key × V)) (gone : Bool) : Bool :=
  match op with
  | .remove _ => l'.isEmpty
  | .clear => false
  | _ => gone

theorem step_sim {m : RadixMap V} (h : Inv m) (op : MapOp Key V) (hs : Supported op)
    (hi : ∀ k v, op = .insert k v → m.root.isNil = false) :
    ∃ m', step m op = some (m', SL.res (entries [] m.root) op) ∧ Inv m' ∧
      entries [] m'.root = SL.next (entries [] m.root) op ∧
      m'.root.isNil = goneAfter op (SL.next (entries [] m.root) op) m.root.isNil := by
  obtain ⟨hr, hlen⟩ := h
  have hsort : SL.Sorted (entries [] m.root) := (root_lists hr).1
  have habs := root_abs hr
  have same : ∀ r, step m op = some (m, r) → SL.res (entries [] m.root) op = r →
      SL.next (entries [] m.root) op = entries [] m.root →
      goneAfter op (entries [] m.root) m.root.isNil = m.root.isNil → ∃ m', step m op = some (m', SL.res (entries [] m.root) op) ∧ Inv m' ∧
      entries [] m'.root = SL.next (entries [] m.root) op ∧
      m'.root.isNil = goneAfter op (SL.next (entries [] m.root) op) m.root.isNil := by
    intro r h1 h2 h3 h4
    exact ⟨m, by rw [h2]; exact h1, ⟨hr, hlen⟩, h3.symm, by rw [h3, h4]⟩
  cases op with
  | insert k v =>
    have hn := hi k v rfl
    obtain ⟨t', e, hok, hn', hl⟩ := insert_root hr hn k v
    have he : entries [] t' = SL.ins k v (entries [] m.root) := by
      refine entries_eq hok (SL.sorted_ins hsort) fun x => ?_
      rw [hl, SL.abs, SL.find_ins hsort]
      split
      · rfl
      · rw [find_eq hr]; simp
    refine ⟨⟨t', if (look m.root k).isSome then m.len + 1 - 1 else m.len + 1⟩, ?_, ⟨hok, ?_⟩, he, ?_⟩
    · simp only [step, RadixMap.insert, e, Option.map_some, SL.res, find_eq hr]
    · show (if _ then _ else _) = _
      simp only [he]
      rw [SL.length_ins hsort, find_eq hr, Option.isSome_map, ← hlen]; rfl
    · show t'.isNil = m.root.isNil
      rw [hn, hn']
  | remove k =>
    obtain ⟨t', e, hok, hl, hnil⟩ := remove_root hr k
    have he : entries [] t' = SL.del k (entries [] m.root) := by
      refine entries_eq hok (SL.sorted_del hsort) fun x => ?_
      rw [hl, SL.abs, SL.find_del]
      split
      · rfl
      · rw [find_eq hr]; simp
    have hgone : t'.isNil = (SL.del k (entries [] m.root)).isEmpty := by
      rw [Bool.eq_iff_iff, hnil, ← he, List.isEmpty_iff]
      constructor
      · intro h
        rw [List.eq_nil_iff_forall_not_mem]
        rintro ⟨q, w⟩ hq
        rw [(root_lists hok).2, h] at hq; cases hq
      · intro h x
        cases hx : look t' x with
        | none => rfl
        | some w => have := ((root_lists hok).2 x w).2 hx; rw [h] at this; simp at this
    cases hk : look m.root k with
    | none =>
      refine ⟨⟨t', m.len⟩, ?_, ⟨hok, ?_⟩, he, hgone⟩
      · simp only [step, RadixMap.remove, e, hk, Option.map_some, SL.res, find_eq hr]; rfl
      · show m.len = _
        simp only [he]
        rw [SL.length_del hsort, find_eq hr, hk, hlen]; rfl
    | some w =>
      have hpos : 1 ≤ m.len := by
        rw [hlen]
        exact List.length_pos_of_mem (((root_lists hr).2 k w).2 hk)
      refine ⟨⟨t', m.len - 1⟩, ?_, ⟨hok, ?_⟩, he, hgone⟩
      · simp only [step, RadixMap.remove, e, hk, SL.res, find_eq hr]
        rw [if_pos hpos]; rfl
      · show m.len - 1 = _
        simp only [he]
        rw [SL.length_del hsort, find_eq hr, hk, hlen]; rfl
  | get k =>
    exact same (.val (look m.root k)) (by simp only [step, get_root hr, Option.map_some])
      (by simp only [SL.res, find_eq hr]; simp) rfl rfl
  | containsKey k =>
    exact same (.bool (look m.root k).isSome) (by simp only [step, get_root hr, Option.map_some])
      (by simp only [SL.res, find_eq hr]; simp) rfl rfl
  | getMut k f =>
    obtain ⟨t', e, hok, hn, hl⟩ := getMut_root hr k f
    have he : entries [] t' = SL.upd k f (entries [] m.root) := by
      refine entries_eq hok (SL.sorted_upd hsort) fun x => ?_
      rw [hl, SL.abs, SL.find_upd, find_eq hr]
      cases look m.root x <;> simp; split <;> rfl
    refine ⟨⟨t', m.len⟩, ?_, ⟨hok, ?_⟩, he, hn⟩
    · simp only [step, e, Option.map_some, SL.res, find_eq hr]; simp
    · show m.len = _
      simp only [he]
      rw [SL.length_upd, hlen]
  | floor k => exact absurd hs id
  | ceil k => exact absurd hs id
  | min => exact same _ rfl (by simp only [SL.res, minKey_eq (.inr hr)]) rfl rfl
  | max => exact same _ rfl (by simp only [SL.res, maxKey_eq (.inr hr)]) rfl rfl
  | len => exact same _ rfl (by simp only [SL.res, hlen]) rfl rfl
  | isEmpty =>
    refine same _ rfl ?_ rfl rfl
    simp only [SL.res, hlen]
    cases entries [] m.root <;> rfl
  | iter =>
    refine same (.list (entries [] m.root)) ?_ rfl rfl rfl
    have hp : pend ⟨[], m.root, []⟩ = entries [] m.root := by simp [pend, pendStack]
    have := collect_spec (3 * m.root.size + 1) (m.len + 1) ⟨[], m.root, []⟩
      (by simp only [weight, List.map_nil, List.sum_nil]; omega) (by rw [hp, hlen]; omega) trivial
    simp only [step, RadixMap.iter, this, hp, Option.map_some]
  | clear => exact ⟨RadixMap.new, rfl, ⟨⟨rfl, trivial, .inl rfl⟩, rfl⟩, rfl, rfl⟩

theorem inv_new : Inv (RadixMap.new : RadixMap V) := ⟨⟨rfl, trivial, .inl rfl⟩, rfl⟩

end Verif.Radix
