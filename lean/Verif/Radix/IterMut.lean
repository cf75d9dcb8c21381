/- Property C63: the mutable iterator of `RadixMap` (radix/map.rs:318-324, 456-495).
A `&mut` into the tree is modelled by the way from the root to the node it points at; the tree itself is the store
that reads and writes through such references go to. -/
import Verif.Radix.Props
import Verif.Bst.IterMut
import Mathlib.Data.List.Nodup

namespace Verif.Radix

open Verif.Spec

variable {V : Type}

/-! ### The model -/

/-- One step: `node.next` or `node.child`. -/
inductive Dir
  | next
  | child
  deriving DecidableEq

/-- A reference to a (possibly absent) node: the way to it from the root. -/
abbrev Ref := List Dir

namespace Tree

/-- The tree a reference points at. -/
def sub : Tree V → Ref → Tree V
  | t, [] => t
  | nil, _ :: _ => nil
  | node _ _ n _, .next :: q => n.sub q
  | node _ _ _ c, .child :: q => c.sub q

/-- The value of the node a reference points at. -/
def valueAt (t : Tree V) (q : Ref) : Option V :=
  match t.sub q with
  | nil => none
  | node _ v _ _ => v

/-- `*value = f(*value)` through a reference to the value of a node. -/
def writeAt (f : V → V) : Tree V → Ref → Tree V
  | nil, _ => nil
  | node k v n c, [] => node k (v.map f) n c
  | node k v n c, .next :: q => node k v (writeAt f n q) c
  | node k v n c, .child :: q => node k v n (writeAt f c q)

/-- `tree.as_mut().map(|node| &mut **node)`. -/
def asMut (t : Tree V) (q : Ref) : Option Ref := if (t.sub q).isNil then none else some q

end Tree

/-- map.rs:456-460 `RadixMapIterMut`; the stack has its top first. -/
structure IterMut where
  pre : Key
  current : Option Ref
  stack : List (Ref × Nat)

/-- map.rs:467-494 `RadixMapIterMut::next`: the key and a reference to the node whose value is lent out.  The first
argument bounds the number of loop rounds. -/
def IterMut.next (t : Tree V) : Nat → IterMut → Option (Option (Key × Ref) × IterMut)
  | 0, _ => none
  | f + 1, it =>
    match it.current, it.stack with
    | some q, stack =>
      match t.sub q with
      | .nil => none
      | .node k v _ _ =>
        let it' : IterMut := ⟨it.pre ++ k, t.asMut (q ++ [.child]), (q ++ [.next], k.length) :: stack⟩
        match v with
        | some _ => some (some (it.pre ++ k, q), it')
        | none => IterMut.next t f it'
    | none, (q, n) :: stack =>
      if n ≤ it.pre.length then IterMut.next t f ⟨it.pre.take (it.pre.length - n), t.asMut q, stack⟩ else none
    | none, [] => some (none, it)

/-- map.rs:318-324 `iter_mut`. -/
def IterMut.start (t : Tree V) : IterMut := ⟨[], t.asMut [], []⟩

/-- The references given out by the first `n` calls of `next` (`None` when it is exhausted). -/
def IterMut.take (t : Tree V) (budget : Nat) : Nat → IterMut → Option (List (Option (Key × Ref)))
  | 0, _ => some []
  | n + 1, it =>
    match it.next t budget with
    | none => none
    | some (e, it) => (IterMut.take t budget n it).map (e :: ·)

/-- Rounds of `for (k, v) in map.iter_mut() { *v = f(*v) }` with the given functions: call `next`, report the entry
seen, write through the reference. -/
def IterMut.runWrite (budget : Nat) : List (V → V) → Tree V → IterMut → Option (List (Option (Key × Option V)) × Tree V)
  | [], t, _ => some ([], t)
  | f :: fs, t, it =>
    match it.next t budget with
    | none => none
    | some (none, it) => (IterMut.runWrite budget fs t it).map fun r => (none :: r.1, r.2)
    | some (some (k, q), it) =>
      (IterMut.runWrite budget fs (t.writeAt f q) it).map fun r => (some (k, t.valueAt q) :: r.1, r.2)

/-! ### Lemmas -/

namespace Tree

/-- The tree without its values, only where there are some. -/
def shape : Tree V → Tree Unit
  | nil => nil
  | node k v n c => node k (v.map fun _ => ()) n.shape c.shape

/-- References to the nodes with a value, in the order of the keys. -/
def refs (p : Key) : Tree V → List (Key × Ref)
  | nil => []
  | node k v n c => (v.toList.map fun _ => (p ++ k, [])) ++ (refs (p ++ k) c).map (fun e => (e.1, Dir.child :: e.2)) ++
      (refs p n).map (fun e => (e.1, Dir.next :: e.2))

theorem refs_shape (p : Key) (t : Tree V) : refs p t.shape = refs p t := by
  induction t generalizing p with
  | nil => rfl
  | node k v n c ih1 ih2 => cases v <;> simp [shape, refs, ih1, ih2]

theorem sub_shape (t : Tree V) (q : Ref) : t.shape.sub q = (t.sub q).shape := by
  induction t generalizing q with
  | nil => cases q <;> rfl
  | node k v n c ih1 ih2 =>
    match q with
    | [] => rfl
    | .next :: q => simp [shape, sub, ih1]
    | .child :: q => simp [shape, sub, ih2]

theorem sub_append (t : Tree V) (q r : Ref) : t.sub (q ++ r) = (t.sub q).sub r := by
  induction t generalizing q with
  | nil => cases q <;> cases r <;> rfl
  | node k v n c ih1 ih2 =>
    match q with
    | [] => rfl
    | .next :: q => simp [sub, ih1]
    | .child :: q => simp [sub, ih2]

theorem isNil_shape (t : Tree V) : t.shape.isNil = t.isNil := by cases t <;> rfl

theorem size_shape (t : Tree V) : t.shape.size = t.size := by
  induction t with
  | nil => rfl
  | node k v n c ih1 ih2 => simp [shape, size, ih1, ih2]

theorem shape_writeAt (f : V → V) (t : Tree V) (q : Ref) : (t.writeAt f q).shape = t.shape := by
  induction t generalizing q with
  | nil => rfl
  | node k v n c ih1 ih2 =>
    match q with
    | [] => cases v <;> rfl
    | .next :: q => simp [writeAt, shape, ih1]
    | .child :: q => simp [writeAt, shape, ih2]

theorem length_refs (p : Key) (t : Tree V) : (refs p t).length = (entries p t).length := by
  induction t generalizing p with
  | nil => rfl
  | node k v n c ih1 ih2 => simp [refs, entries, ih1, ih2]

/-- The `i`-th reference reads the `i`-th entry, and writing through it changes that entry only. -/
theorem refs_get (t : Tree V) (p : Key) (i : Nat) (k : Key) (q : Ref) (h : (refs p t)[i]? = some (k, q)) (f : V → V) :
    (entries p t)[i]? = (t.valueAt q).map (fun v => (k, v)) ∧ (t.valueAt q).isSome ∧
      entries p (t.writeAt f q) = (entries p t).modify i fun e => (e.1, f e.2) := by
  induction t generalizing p i q with
  | nil => simp [refs] at h
  | node k' v n c ih1 ih2 =>
    simp only [refs, List.append_assoc] at h
    rw [List.getElem?_append] at h
    simp only [entries, List.append_assoc]
    split at h
    · next hi =>
      cases v with
      | none => simp at hi
      | some v =>
        simp only [Option.toList_some, List.map_cons, List.map_nil, List.length_singleton, Nat.lt_one_iff] at hi h
        subst hi
        simp only [List.getElem?_cons_zero, Option.some.injEq, Prod.mk.injEq] at h
        obtain ⟨rfl, rfl⟩ := h
        simp [valueAt, sub, writeAt, entries, List.modify_cons]
    · next hi =>
      simp only [List.length_map, not_lt] at hi
      have hv : (v.toList.map fun v => (p ++ k', v)).length = v.toList.length := by simp
      obtain ⟨j, rfl⟩ : ∃ j, i = v.toList.length + j := ⟨i - v.toList.length, by omega⟩
      simp only [List.length_map, Nat.add_sub_cancel_left] at h
      rw [List.getElem?_append] at h
      rw [List.getElem?_append_right (by rw [hv]; omega), hv, Nat.add_sub_cancel_left]
      split at h
      · next hj =>
        simp only [List.length_map] at hj
        simp only [List.getElem?_map, Option.map_eq_some_iff, Prod.mk.injEq] at h
        obtain ⟨⟨k1, q1⟩, h1, rfl, rfl⟩ := h
        obtain ⟨a1, a2, a3⟩ := ih2 _ _ _ h1
        rw [length_refs] at hj
        refine ⟨?_, ?_, ?_⟩
        · rw [List.getElem?_append_left hj, a1]; rfl
        · exact a2
        · simp only [writeAt, entries, List.append_assoc]
          rw [a3, ← hv, Bst.modify_append_add, Bst.modify_append_lt _ _ _ hj]
      · next hj =>
        simp only [List.length_map, not_lt, length_refs] at hj
        simp only [List.length_map, length_refs, List.getElem?_map, Option.map_eq_some_iff, Prod.mk.injEq] at h
        obtain ⟨⟨k1, q1⟩, h1, rfl, rfl⟩ := h
        obtain ⟨a1, a2, a3⟩ := ih1 _ _ _ h1
        refine ⟨?_, ?_, ?_⟩
        · rw [List.getElem?_append_right hj, a1]; rfl
        · exact a2
        · obtain ⟨m, rfl⟩ : ∃ m, j = (entries (p ++ k') c).length + m := ⟨j - (entries (p ++ k') c).length, by omega⟩
          rw [Nat.add_sub_cancel_left] at a3
          simp only [writeAt, entries, List.append_assoc]
          rw [a3, ← hv, Bst.modify_append_add, Bst.modify_append_add]

/-- Two references are different. -/
theorem refs_nodup (p : Key) (t : Tree V) : ((refs p t).map (·.2)).Nodup := by
  induction t generalizing p with
  | nil => exact List.nodup_nil
  | node k v n c ih1 ih2 =>
    have h1 : (((refs (p ++ k) c).map (fun e => (e.1, Dir.child :: e.2))).map (·.2)).Nodup := by
      have e : ((refs (p ++ k) c).map (fun e => (e.1, Dir.child :: e.2))).map (·.2) = ((refs (p ++ k) c).map (·.2)).map (Dir.child :: ·) := by
        simp [Function.comp_def]
      rw [e]
      exact (ih2 _).map fun a b h => by simpa using h
    have h2 : (((refs p n).map (fun e => (e.1, Dir.next :: e.2))).map (·.2)).Nodup := by
      have e : ((refs p n).map (fun e => (e.1, Dir.next :: e.2))).map (·.2) = ((refs p n).map (·.2)).map (Dir.next :: ·) := by
        simp [Function.comp_def]
      rw [e]
      exact (ih1 _).map fun a b h => by simpa using h
    simp only [refs, List.map_append]
    refine List.nodup_append'.2 ⟨List.nodup_append'.2 ⟨?_, h1, ?_⟩, h2, ?_⟩
    · cases v <;> simp
    · intro a ha hb
      cases v <;> simp at ha
      subst ha
      simp at hb
    · intro a ha hb
      simp only [List.map_map, List.mem_append, List.mem_map] at ha hb
      obtain ⟨x, -, rfl⟩ := hb
      rcases ha with ⟨y, -, h⟩ | ⟨y, -, h⟩ <;> simp at h

end Tree

namespace IterMut

def pendStack (s : Tree Unit) (p : Key) : List (Ref × Nat) → List (Key × Ref)
  | [] => []
  | (q, n) :: st => ((Tree.refs (p.take (p.length - n)) (s.sub q)).map fun e => (e.1, q ++ e.2)) ++
      pendStack s (p.take (p.length - n)) st

def StackOk (p : Key) : List (Ref × Nat) → Prop
  | [] => True
  | (_, n) :: st => n ≤ p.length ∧ StackOk (p.take (p.length - n)) st

/-- What the iterator has still to give out; it depends on the shape of the tree only. -/
def pend (s : Tree Unit) (it : IterMut) : List (Key × Ref) :=
  (match it.current with
    | none => []
    | some q => (Tree.refs it.pre (s.sub q)).map fun e => (e.1, q ++ e.2)) ++ pendStack s it.pre it.stack

def weight (s : Tree Unit) (it : IterMut) : Nat :=
  (match it.current with
    | none => 0
    | some q => 2 * (s.sub q).size) + (it.stack.map fun e => 2 * (s.sub e.1).size + 1).sum

structure Ok (s : Tree Unit) (it : IterMut) : Prop where
  cur : ∀ q, it.current = some q → (s.sub q).isNil = false
  stack : StackOk it.pre it.stack

theorem asMut_spec (t : Tree V) (p : Key) (q : Ref) (st : List (Ref × Nat)) :
    pend t.shape ⟨p, t.asMut q, st⟩ = ((Tree.refs p (t.shape.sub q)).map fun e => (e.1, q ++ e.2)) ++ pendStack t.shape p st ∧
    weight t.shape ⟨p, t.asMut q, st⟩ = 2 * (t.shape.sub q).size + (st.map fun e => 2 * (t.shape.sub e.1).size + 1).sum ∧
    (StackOk p st → Ok t.shape ⟨p, t.asMut q, st⟩) := by
  unfold Tree.asMut
  cases hn : t.sub q with
  | nil => simp [Tree.isNil, pend, weight, Tree.sub_shape, hn, Tree.shape, Tree.refs, Tree.size]; exact fun h => ⟨by simp, h⟩
  | node k v n c =>
    simp only [Tree.isNil, Bool.false_eq_true, if_false, pend, weight, true_and]
    exact fun h => ⟨fun q' hq => by cases hq; rw [Tree.sub_shape, hn]; rfl, h⟩

theorem next_spec (t : Tree V) (f : Nat) (it : IterMut) (hf : weight t.shape it < f) (hok : Ok t.shape it) :
    (pend t.shape it = [] ∧ ∃ it', it.next t f = some (none, it') ∧ pend t.shape it' = [] ∧ Ok t.shape it' ∧
      weight t.shape it' ≤ weight t.shape it) ∨
    ∃ e r it', pend t.shape it = e :: r ∧ it.next t f = some (some e, it') ∧ pend t.shape it' = r ∧ Ok t.shape it' ∧
      weight t.shape it' ≤ weight t.shape it := by
  induction f generalizing it with
  | zero => omega
  | succ f ih =>
    obtain ⟨p, cur, st⟩ := it
    cases cur with
    | some q =>
      have h1 := hok.cur q rfl
      cases hs : t.sub q with
      | nil => rw [Tree.sub_shape, hs] at h1; cases h1
      | node k v n c =>
        have hs' : t.shape.sub q = (Tree.node k v n c).shape := by rw [Tree.sub_shape, hs]
        have hc : t.shape.sub (q ++ [.child]) = c.shape := by rw [Tree.sub_append, hs']; cases c <;> rfl
        have hn : t.shape.sub (q ++ [.next]) = n.shape := by rw [Tree.sub_append, hs']; cases n <;> rfl
        have htk : (p ++ k).take ((p ++ k).length - k.length) = p := by simp
        obtain ⟨a1, a2, a3⟩ := asMut_spec t (p ++ k) (q ++ [.child]) ((q ++ [.next], k.length) :: st)
        have hok' := a3 ⟨by simp, by rw [htk]; exact hok.stack⟩
        generalize hit : (⟨p ++ k, t.asMut (q ++ [.child]), (q ++ [.next], k.length) :: st⟩ : IterMut) = it' at *
        have hp : pend t.shape ⟨p, some q, st⟩ = (v.toList.map fun _ => (p ++ k, q)) ++ pend t.shape it' := by
          rw [a1, hc, pendStack, htk, hn]
          simp only [pend]
          rw [hs', Tree.refs_shape, Tree.refs_shape, Tree.refs_shape]
          cases v <;> simp [Tree.refs, Function.comp_def]
        have hw : weight t.shape it' < weight t.shape ⟨p, some q, st⟩ := by
          rw [a2, hc]
          simp only [weight, hs', hn, Tree.shape, Tree.size, List.map_cons, List.sum_cons]
          omega
        cases v with
        | some v =>
          refine .inr ⟨(p ++ k, q), _, it', hp, ?_, rfl, hok', le_of_lt hw⟩
          simp only [next, hs, hit]
        | none =>
          have e : next t (f + 1) ⟨p, some q, st⟩ = next t f it' := by simp only [next, hs, hit]
          rw [e, hp]
          rcases ih it' (by omega) hok' with ⟨h1, it'', h2, h3, h4, h5⟩ | ⟨e, r, it'', h1, h2, h3, h4, h5⟩
          · exact .inl ⟨h1, it'', h2, h3, h4, by omega⟩
          · exact .inr ⟨e, r, it'', h1, h2, h3, h4, by omega⟩
    | none =>
      cases st with
      | nil => exact .inl ⟨rfl, _, rfl, rfl, hok, le_refl _⟩
      | cons a st =>
        obtain ⟨q, n⟩ := a
        obtain ⟨a1, a2, a3⟩ := asMut_spec t (p.take (p.length - n)) q st
        have hok' := a3 hok.stack.2
        have e : next t (f + 1) ⟨p, none, (q, n) :: st⟩ = next t f ⟨p.take (p.length - n), t.asMut q, st⟩ := by
          simp only [next]
          rw [if_pos hok.stack.1]
        have hp : pend t.shape ⟨p, none, (q, n) :: st⟩ = pend t.shape ⟨p.take (p.length - n), t.asMut q, st⟩ := by
          rw [a1]; simp [pend, pendStack]
        have hw : weight t.shape ⟨p.take (p.length - n), t.asMut q, st⟩ < weight t.shape ⟨p, none, (q, n) :: st⟩ := by
          rw [a2]; simp only [weight, List.map_cons, List.sum_cons]; omega
        rw [e, hp]
        rcases ih ⟨p.take (p.length - n), t.asMut q, st⟩ (by omega) hok' with ⟨h1, it'', h2, h3, h4, h5⟩ | ⟨e, r, it'', h1, h2, h3, h4, h5⟩
        · exact .inl ⟨h1, it'', h2, h3, h4, by omega⟩
        · exact .inr ⟨e, r, it'', h1, h2, h3, h4, by omega⟩

theorem take_eq (t : Tree V) (budget : Nat) (n : Nat) (it : IterMut) (hb : weight t.shape it < budget) (hok : Ok t.shape it) :
    it.take t budget n = some ((List.range n).map fun i => (pend t.shape it)[i]?) := by
  induction n generalizing it with
  | zero => rfl
  | succ n ih =>
    rw [List.range_succ_eq_map, List.map_cons, List.map_map]
    rcases next_spec t budget it hb hok with ⟨h1, it', h2, h3, h4, h5⟩ | ⟨e, r, it', h1, h2, h3, h4, h5⟩
    · simp only [take, h2]
      rw [ih it' (by omega) h4, h1, h3]
      simp [Function.comp_def]
    · simp only [take, h2]
      rw [ih it' (by omega) h4, h1, h3]
      simp [Function.comp_def]

theorem runWrite_eq (budget : Nat) (fs : List (V → V)) (t : Tree V) (it : IterMut) (i : Nat)
    (hb : weight t.shape it < budget) (hok : Ok t.shape it) (h : pend t.shape it = (Tree.refs [] t).drop i) :
    ∃ t', it.runWrite budget fs t = some ((List.range fs.length).map fun j => (entries [] t)[i + j]?.map fun e => (e.1, some e.2), t') ∧
      entries [] t' = Bst.IterMut.modifyFrom (entries [] t) i fs ∧ t'.shape = t.shape := by
  induction fs generalizing t it i with
  | nil => exact ⟨t, rfl, rfl, rfl⟩
  | cons f fs ih =>
    rw [List.length_cons, List.range_succ_eq_map, List.map_cons, List.map_map]
    rcases next_spec t budget it hb hok with ⟨h1, it', h2, h3, h4, h5⟩ | ⟨⟨k, q⟩, r, it', h1, h2, h3, h4, h5⟩
    · have hlen : (entries [] t).length ≤ i := by
        rw [h] at h1
        rw [← Tree.length_refs]
        exact List.drop_eq_nil_iff.1 h1
      have hd : pend t.shape it' = (Tree.refs [] t).drop (i + 1) := by
        rw [h3, List.drop_of_length_le (by rw [Tree.length_refs]; omega)]
      obtain ⟨t', e1, e2, e3⟩ := ih t it' (i + 1) (by omega) h4 hd
      refine ⟨t', ?_, ?_, e3⟩
      · simp only [runWrite, h2, e1, Option.map_some]
        rw [List.getElem?_eq_none (by omega)]
        simp [Function.comp_def, Nat.add_assoc, Nat.add_comm 1]
      · rw [e2, Bst.IterMut.modifyFrom, List.modify_eq_self hlen]
    · have hi : (Tree.refs [] t)[i]? = some (k, q) := by
        rw [h1] at h
        rw [← List.head?_drop, ← h]
        rfl
      obtain ⟨g1, g2, g3⟩ := Tree.refs_get t [] i k q hi f
      obtain ⟨v, hv⟩ := Option.isSome_iff_exists.1 g2
      have hsh := Tree.shape_writeAt f t q
      have hd : pend (t.writeAt f q).shape it' = (Tree.refs [] (t.writeAt f q)).drop (i + 1) := by
        rw [hsh, h3, ← Tree.refs_shape, hsh, Tree.refs_shape, ← List.tail_drop, ← h, h1]
        rfl
      obtain ⟨t', e1, e2, e3⟩ := ih (t.writeAt f q) it' (i + 1) (by rw [hsh]; omega) (by rw [hsh]; exact h4) hd
      refine ⟨t', ?_, ?_, e3.trans hsh⟩
      · simp only [runWrite, h2, e1, Option.map_some]
        rw [g3]
        simp only [Function.comp_def, Option.some.injEq, Prod.mk.injEq, and_true, List.cons.injEq]
        constructor
        · rw [Nat.add_zero, g1, hv]; rfl
        · apply List.map_congr_left
          intro j _
          rw [List.getElem?_modify, show i + 1 + j = i + j.succ by omega]
          have : ¬ i = i + j.succ := by omega
          simp [this]
      · rw [e2, g3]; rfl

end IterMut

/-! ### Histories -/

theorem Reached.step {s s' : RadixMap V} (h : Reached s) {op : MapOp Key V} (hs : Supported op) {r : MapRes Key V}
    (e : step s op = some (s', r)) : Reached s' := by
  obtain ⟨ops, hist, h1, h2⟩ := h
  refine ⟨ops ++ [op], hist ++ [(op, r)], ?_, ?_⟩
  · intro o ho
    rcases List.mem_append.1 ho with ho | ho
    · exact h1 o ho
    · rw [List.mem_singleton.1 ho]; exact hs
  · have key : ∀ (ops : List (MapOp Key V)) (s₀ : RadixMap V) (hist : List (MapOp Key V × MapRes Key V)),
        (radix V).run s₀ (ops.map fun op => (op, ())) = some (s, hist) →
        (radix V).run s₀ ((ops ++ [op]).map fun op => (op, ())) = some (s', hist ++ [(op, r)]) := by
      intro ops
      induction ops with
      | nil =>
        intro s₀ hist h
        have h0 : some (s₀, ([] : List (MapOp Key V × MapRes Key V))) = some (s, hist) := h
        cases h0
        have e' : (radix V).step s op () = some (s', r) := e
        rw [List.nil_append, List.map_cons, run_cons (radix V) e']
        rfl
      | cons o ops ih =>
        intro s₀ hist h
        cases e1 : (radix V).step s₀ o () with
        | none => simp only [List.map_cons, MapImpl.run] at h; rw [e1] at h; cases h
        | some x =>
          obtain ⟨s₁, r₁⟩ := x
          rw [List.map_cons, run_cons (radix V) e1] at h
          rw [List.cons_append, List.map_cons, run_cons (radix V) e1]
          cases e2 : (radix V).run s₁ (ops.map fun op => (op, ())) with
          | none => rw [e2] at h; cases h
          | some y =>
            obtain ⟨s₂, h₂⟩ := y
            rw [e2] at h
            cases h
            rw [ih s₁ h₂ e2]
            rfl
    exact key ops _ hist h2

theorem shape_getMutIn (f : V → V) (t : Tree V) (key : Key) (t' : Tree V) (r : Option V)
    (h : getMutIn key f t = some (t', r)) : t'.shape = t.shape := by
  induction t generalizing key t' r with
  | nil => simp only [getMutIn, Option.some.injEq, Prod.mk.injEq] at h; rw [← h.1]
  | node k v n c ih1 ih2 =>
    unfold getMutIn at h
    split at h
    · split at h
      · simp only [Option.map_eq_some_iff, Prod.mk.injEq] at h
        obtain ⟨⟨n', r'⟩, h1, rfl, rfl⟩ := h
        simp [Tree.shape, ih1 _ _ _ h1]
      · unfold getMutNode at h
        split at h
        · simp only [Option.some.injEq, Prod.mk.injEq] at h; rw [← h.1]
        · simp only [Option.map_eq_some_iff, Prod.mk.injEq] at h
          obtain ⟨⟨n', r'⟩, h1, rfl, rfl⟩ := h
          simp [Tree.shape, ih2 _ _ _ h1]
        · simp only [Option.some.injEq, Prod.mk.injEq] at h; rw [← h.1]
        · simp only [Option.some.injEq, Prod.mk.injEq] at h
          rw [← h.1]
          cases v <;> rfl
    · cases h

theorem shape_getMut (f : V → V) (t : Tree V) (key : Key) (t' : Tree V) (r : Option V)
    (h : getMut key f t = some (t', r)) : t'.shape = t.shape := by
  cases t with
  | nil => simp only [getMut, Option.some.injEq, Prod.mk.injEq] at h; rw [← h.1]
  | node k v n c =>
    simp only [getMut, getMutNode] at h
    split at h
    · simp only [Option.some.injEq, Prod.mk.injEq] at h; rw [← h.1]
    · simp only [Option.map_eq_some_iff, Prod.mk.injEq] at h
      obtain ⟨⟨n', r'⟩, h1, rfl, rfl⟩ := h
      simp [Tree.shape, shape_getMutIn f _ _ _ _ h1]
    · simp only [Option.some.injEq, Prod.mk.injEq] at h; rw [← h.1]
    · simp only [Option.some.injEq, Prod.mk.injEq] at h
      rw [← h.1]
      cases v <;> rfl

/-- A tree is determined by its shape and its entries. -/
theorem eq_of_shape (t t' : Tree V) (p : Key) (hs : t.shape = t'.shape) (he : entries p t = entries p t') : t = t' := by
  induction t generalizing t' p with
  | nil => cases t' with
    | nil => rfl
    | node => cases hs
  | node k v n c ih1 ih2 =>
    cases t' with
    | nil => cases hs
    | node k' v' n' c' =>
      simp only [Tree.shape, Tree.node.injEq] at hs
      obtain ⟨rfl, hv, hn, hc⟩ := hs
      simp only [entries, List.append_assoc] at he
      have hl : ∀ {a b : Tree V} {p : Key}, a.shape = b.shape → (entries p a).length = (entries p b).length := by
        intro a b p h
        rw [← Tree.length_refs, ← Tree.length_refs, ← Tree.refs_shape, h, Tree.refs_shape]
      have hvl : v.toList.length = v'.toList.length := by cases v <;> cases v' <;> simp_all
      obtain ⟨h1, h2⟩ := List.append_inj he (by simpa using hvl)
      obtain ⟨h3, h4⟩ := List.append_inj h2 (hl hc)
      rw [ih1 _ _ hn h4, ih2 _ _ hc h3]
      cases v <;> cases v' <;> simp_all

/-- Writing through the `i`-th reference is `get_mut` of the `i`-th key. -/
theorem Reached.write {s : RadixMap V} (h : Reached s) (f : V → V) {i : Nat} {k : Key} {q : Ref}
    (hi : (Tree.refs [] s.root)[i]? = some (k, q)) : Reached ⟨s.root.writeAt f q, s.len⟩ := by
  have hinv := reached_inv h
  obtain ⟨s', e, hinv', hent, _⟩ := step_sim hinv (.getMut k f) trivial (by intro _ _ h; cases h)
  have hR := h.step (op := .getMut k f) trivial e
  simp only [Radix.step, Option.map_eq_some_iff, Prod.mk.injEq] at e
  obtain ⟨⟨t', r⟩, e1, e2, -⟩ := e
  dsimp only at e2
  subst e2
  obtain ⟨g1, g2, g3⟩ := Tree.refs_get s.root [] i k q hi f
  obtain ⟨v, hv⟩ := Option.isSome_iff_exists.1 g2
  rw [hv] at g1
  have hsort : SL.Sorted (entries [] s.root) := (root_lists hinv.1).1
  have : t' = s.root.writeAt f q := by
    refine eq_of_shape _ _ [] ((shape_getMut f _ _ _ _ e1).trans (Tree.shape_writeAt f _ _).symm) ?_
    rw [g3]
    refine hent.trans ?_
    refine List.ext_getElem? fun j => ?_
    simp only [SL.next, SL.upd]
    rw [List.getElem?_map, List.getElem?_modify]
    cases hj : (entries [] s.root)[j]? with
    | none => simp
    | some x =>
      have hne : x.1 = k ↔ i = j := by
        obtain ⟨a1, a2⟩ := List.getElem?_eq_some_iff.1 hj
        obtain ⟨b1, b2⟩ := List.getElem?_eq_some_iff.1 g1
        constructor
        · intro hk
          have hp := List.pairwise_iff_getElem.1 hsort
          rcases Nat.lt_trichotomy i j with hlt | heq | hgt
          · have := hp i j b1 a1 hlt
            rw [a2, b2, hk] at this
            exact absurd this (lt_irrefl _)
          · exact heq
          · have := hp j i a1 b1 hgt
            rw [a2, b2, hk] at this
            exact absurd this (lt_irrefl _)
        · rintro rfl
          rw [← a2, b2]
      by_cases hc : i = j
      · have := hne.2 hc
        simp [this, hc]
      · have h1 : ¬ x.1 = k := fun h => hc (hne.1 h)
        simp [h1, hc]
  rw [← this]
  exact hR

theorem pend_start (t : Tree V) : IterMut.pend t.shape (IterMut.start t) = Tree.refs [] t ∧
    IterMut.weight t.shape (IterMut.start t) = 2 * t.size ∧ IterMut.Ok t.shape (IterMut.start t) := by
  obtain ⟨a1, a2, a3⟩ := IterMut.asMut_spec t [] [] []
  refine ⟨?_, ?_, a3 trivial⟩
  · rw [IterMut.start, a1]
    simp [Tree.sub, Tree.refs_shape, IterMut.pendStack]
  · rw [IterMut.start, a2]
    simp [Tree.sub, Tree.size_shape]

theorem runWrite_reached (budget : Nat) (fs : List (V → V)) (s : RadixMap V) (h : Reached s) (it : IterMut) (i : Nat)
    (hb : IterMut.weight s.root.shape it < budget) (hok : IterMut.Ok s.root.shape it)
    (hp : IterMut.pend s.root.shape it = (Tree.refs [] s.root).drop i) (r : List (Option (Key × Option V))) (t' : Tree V)
    (e : it.runWrite budget fs s.root = some (r, t')) : Reached ⟨t', s.len⟩ := by
  induction fs generalizing s it i r with
  | nil =>
    simp only [IterMut.runWrite, Option.some.injEq, Prod.mk.injEq] at e
    rw [← e.2]; exact h
  | cons f fs ih =>
    rcases IterMut.next_spec s.root budget it hb hok with ⟨h1, it', h2, h3, h4, h5⟩ | ⟨⟨k, q⟩, rest, it', h1, h2, h3, h4, h5⟩
    · simp only [IterMut.runWrite, h2, Option.map_eq_some_iff, Prod.mk.injEq] at e
      obtain ⟨⟨r', t₁⟩, e1, -, rfl⟩ := e
      refine ih s h it' (i + 1) (by omega) h4 ?_ r' e1
      rw [h3]
      rw [h1] at hp
      rw [← List.tail_drop, ← hp]
      rfl
    · simp only [IterMut.runWrite, h2, Option.map_eq_some_iff, Prod.mk.injEq] at e
      obtain ⟨⟨r', t₁⟩, e1, -, rfl⟩ := e
      have hi : (Tree.refs [] s.root)[i]? = some (k, q) := by
        rw [h1] at hp
        rw [← List.head?_drop, ← hp]
        rfl
      have hsh := Tree.shape_writeAt f s.root q
      refine ih ⟨s.root.writeAt f q, s.len⟩ (h.write f hi) it' (i + 1) (by rw [hsh]; omega) (by rw [hsh]; exact h4) ?_ r' e1
      dsimp only
      rw [hsh, h3, ← Tree.refs_shape, hsh, Tree.refs_shape, ← List.tail_drop, ← hp, h1]
      rfl

theorem iter_eq {s : RadixMap V} (h : Reached s) : s.iter = some (entries [] s.root) := by
  obtain ⟨m, l, h1, h2, h3, -⟩ := C26_radix_order h
  rw [h3]
  have : m = look s.root := by
    funext k
    have := (h1 k).symm.trans (get_root (reached_inv h).1 k)
    exact Option.some.inj this
  rw [this] at h2
  rw [SL.lists_unique h2 (root_lists (reached_inv h).1)]

/-! ### The property -/

/-- **C63, `iter_mut`.**  Let `l` be what `iter` yields, that is all entries in ascending order of the keys.  Whatever
functions are applied through the references given out by successive calls of `next`, the calls report the entries of
`l` in this order and then `None`.  Afterwards the map is as after the same history with `get_mut` calls added, has the
same keys, and the value of the `i`-th key is the old one with the `i`-th function applied, untouched if `next` was
called less often.  No call takes more than `2 * size + 1` loop rounds. -/
theorem C63_radix_iter_mut {s : RadixMap V} (h : Reached s) :
    ∃ l, s.iter = some l ∧ ∀ (fs : List (V → V)), ∃ t' l',
      (IterMut.start s.root).runWrite (2 * s.root.size + 1) fs s.root =
        some ((List.range fs.length).map fun i => l[i]?.map fun e => (e.1, some e.2), t') ∧
      Reached ⟨t', s.len⟩ ∧ (RadixMap.mk t' s.len).iter = some l' ∧
      ∀ i : Nat, l'[i]? = l[i]?.map fun e => (e.1, fs.getD i id e.2) := by
  obtain ⟨a1, a2, a3⟩ := pend_start s.root
  refine ⟨_, iter_eq h, fun fs => ?_⟩
  obtain ⟨t', e1, e2, e3⟩ := IterMut.runWrite_eq (2 * s.root.size + 1) fs s.root (IterMut.start s.root) 0 (by omega) a3 (by rw [a1]; rfl)
  have hR : Reached ⟨t', s.len⟩ := runWrite_reached _ fs s h _ 0 (by omega) a3 (by rw [a1]; rfl) _ _ e1
  refine ⟨t', _, by rw [e1]; simp, hR, iter_eq hR, fun i => ?_⟩
  dsimp only
  rw [e2, Bst.IterMut.getElem?_modifyFrom]
  simp

/-- **C63, `iter_mut`, no aliasing.**  The references given out by any number of calls of `next`, with no writes in
between, point at pairwise different nodes, and reading through the `i`-th one gives the `i`-th entry. -/
theorem C63_radix_iter_mut_distinct {s : RadixMap V} (h : Reached s) (n : Nat) :
    ∃ l rs, s.iter = some l ∧ (IterMut.start s.root).take s.root (2 * s.root.size + 1) n = some rs ∧
      rs.map (fun r => r.map fun e => (e.1, s.root.valueAt e.2)) =
        ((List.range n).map fun i => l[i]?.map fun e => (e.1, some e.2)) ∧
      ∀ (i j : Nat) (ki kj : Key) (q : Ref), rs[i]? = some (some (ki, q)) → rs[j]? = some (some (kj, q)) → i = j := by
  obtain ⟨a1, a2, a3⟩ := pend_start s.root
  have ht := IterMut.take_eq s.root (2 * s.root.size + 1) n (IterMut.start s.root) (by omega) a3
  rw [a1] at ht
  refine ⟨_, _, iter_eq h, ht, ?_, ?_⟩
  · rw [List.map_map]
    apply List.map_congr_left
    intro i _
    simp only [Function.comp_apply]
    cases hi : (Tree.refs [] s.root)[i]? with
    | none =>
      rw [List.getElem?_eq_none_iff, Tree.length_refs] at hi
      rw [List.getElem?_eq_none hi]
      rfl
    | some e =>
      obtain ⟨k, q⟩ := e
      obtain ⟨g1, g2, -⟩ := Tree.refs_get s.root [] i k q hi id
      obtain ⟨v, hv⟩ := Option.isSome_iff_exists.1 g2
      rw [g1, hv]
      simp [hv]
  · intro i j ki kj q hi hj
    have get : ∀ {i : Nat} {k : Key}, ((List.range n).map fun i => (Tree.refs [] s.root)[i]?)[i]? = some (some (k, q)) →
        ((Tree.refs [] s.root).map (·.2))[i]? = some q := by
      intro i k hi
      rw [List.getElem?_map, Option.map_eq_some_iff] at hi
      obtain ⟨i', h1, h2⟩ := hi
      obtain ⟨h3, h4⟩ := List.getElem?_eq_some_iff.1 h1
      rw [List.getElem_range] at h4
      subst h4
      rw [List.getElem?_map, h2]
      rfl
    have hi := get hi
    have hj := get hj
    obtain ⟨b1, b2⟩ := List.getElem?_eq_some_iff.1 hi
    obtain ⟨c1, c2⟩ := List.getElem?_eq_some_iff.1 hj
    exact (Tree.refs_nodup [] s.root).getElem_inj_iff.1 (b2.trans c2.symm)

/-- A map with a split node without a value; adding 1, 2 and 3 through `iter_mut`, which is called once too often. -/
example : Reached demo ∧ demo.iter = some [([97, 97, 98], 1), ([97, 97, 99], 2)] ∧
    ((IterMut.start demo.root).runWrite 100 [(· + 1), (· + 2), (· + 3)] demo.root).map
      (fun r => (r.1, (RadixMap.mk r.2 2).iter)) =
      some (([some ([97, 97, 98], some 1), some ([97, 97, 99], some 2), none] : List (Option (List Byte × Option Nat))),
        (some [([97, 97, 98], 2), ([97, 97, 99], 4)] : Option (List (List Byte × Nat)))) :=
  ⟨reached_demo, by decide +kernel, rfl⟩

end Verif.Radix
