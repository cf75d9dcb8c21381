/- `AvlMap` when a comparison of keys panics and the client catches the panic (C74).

The functions of `Avl.Model` once more, following the `&mut Tree` slots: the first `b` comparisons of a call return,
the next one panics.  A panic unwinds; whatever a slot holds at that moment stays in it, and nodes held in local
variables are dropped. -/
import Verif.Avl.Lemmas
import Verif.Bst.Panic
import Verif.Lib.PanicSim

namespace Verif.Avl

open Verif.Bst Verif.Spec
open Verif.SL (Sorted)

variable {K V : Type} [LinearOrder K]

/-- avl_tree/tree.rs:63-84 `insert`: the contents of the slot `tree` afterwards, and the result (`none`: panicked).
On the way up from a panic the slots of the ancestors are as they were and `balance` is skipped. -/
def insertP : Nat → ATree K V → K → V → Option (ATree K V × Option (Option (K × V)))
  | _, .nil, k, v => some (newNode k v, some none)
  | 0, .node h l x w r, _, _ => some (.node h l x w r, none)
  | b + 1, .node h l x w r, k, v =>
    if k < x then do
      let (l', ret) ← insertP b l k v
      match ret with
      | none => return (.node h l' x w r, none)
      | some ret => do
        let t ← balance (.node h l' x w r)
        return (t, some ret)
    else if x < k then do
      let (r', ret) ← insertP b r k v
      match ret with
      | none => return (.node h l x w r', none)
      | some ret => do
        let t ← balance (.node h l x w r')
        return (t, some ret)
    else some (.node h l k v r, some (some (x, w)))

/-- avl_tree/tree.rs:86-121 `remove`: `tree.take()` (line 91) empties the slot before the comparison, and the node is
put back (lines 95, 100) only after the recursive call has returned. -/
def removeP : Nat → ATree K V → K → Option (ATree K V × Option (Option (K × V)))
  | _, .nil, _ => some (.nil, some none)
  | 0, .node .., _ => some (.nil, none)
  | b + 1, .node h l x w r, k =>
    if k < x then do
      let (l', ret) ← removeP b l k
      match ret with
      | none => return (.nil, none)
      | some ret => do
        let t ← balance (.node h l' x w r)
        return (t, some ret)
    else if x < k then do
      let (r', ret) ← removeP b r k
      match ret with
      | none => return (.nil, none)
      | some ret => do
        let t ← balance (.node h l x w r')
        return (t, some ret)
    else do
      let t ← joinChildren l r
      let t ← balance t
      return (t, some (some (x, w)))

/-- avl_tree/map.rs:65-80 `insert`: `*len += 1` (line 74) comes before the tree is searched. -/
def AvlMap.insertP (b : Nat) (m : AvlMap K V) (k : K) (v : V) :
    Option (AvlMap K V × Option (Option (K × V))) := do
  let len := m.len + 1
  let (t, ret) ← Avl.insertP b m.tree k v
  match ret with
  | none => return (⟨t, len⟩, none)
  | some none => return (⟨t, len⟩, some none)
  | some (some e) => return (⟨t, ← decr len⟩, some (some e))

/-- avl_tree/map.rs:95-109 `remove`. -/
def AvlMap.removeP (b : Nat) (m : AvlMap K V) (k : K) :
    Option (AvlMap K V × Option (Option (K × V))) := do
  let (t, ret) ← Avl.removeP b m.tree k
  match ret with
  | none => return (⟨t, m.len⟩, none)
  | some none => return (⟨t, m.len⟩, some none)
  | some (some e) => return (⟨t, ← decr m.len⟩, some (some e))

/-- The API calls (see `step`), comparison `b + 1` of the call panicking. -/
def stepP (m : AvlMap K V) (op : MapOp K V) (_ : Unit) (b : Nat) :
    Option (AvlMap K V × Option (MapRes K V)) :=
  match op with
  | .insert k v => do let (m', r) ← m.insertP b k v; return (m', r.map .pair)
  | .remove k => do let (m', r) ← m.removeP b k; return (m', r.map .pair)
  | .get k => some (m, (m.tree.getP b k).map fun e => .val (e.map (·.2)))
  | .containsKey k => some (m, (m.tree.getP b k).map fun e => .bool e.isSome)
  | .getMut k f =>
    match m.tree.getMutP b k f with
    | none => some (m, none)
    | some (e, t) => some (⟨t, m.len⟩, some (.val (e.map (·.2))))
  | .floor k => some (m, (m.tree.floorP b k).map fun e => .key (e.map (·.1)))
  | .ceil k => some (m, (m.tree.ceilP b k).map fun e => .key (e.map (·.1)))
  | op => do let (m', r) ← step m op (); return (m', some r)

/-- `AvlMap` under panicking comparisons. -/
def panicImpl (K V : Type) [LinearOrder K] : PanicImpl K V where
  State := AvlMap K V
  Draw := Unit
  empty := AvlMap.new
  step := stepP

/-- The number of comparisons of keys a call makes if none panics. -/
def comparisons (m : AvlMap K V) : MapOp K V → Nat
  | .insert k _ | .remove k | .get k | .containsKey k | .getMut k _ | .floor k | .ceil k => searchCost m.tree k
  | _ => 0

/-- What a panicking call leaves in the map. -/
def wreck (m : AvlMap K V) : MapOp K V → AvlMap K V
  | .insert _ _ => ⟨m.tree, m.len + 1⟩
  | .remove _ => ⟨.nil, m.len⟩
  | _ => m

theorem insertP_eq (b : Nat) (t : ATree K V) (k : K) (v : V) :
    insertP b t k v = if b < searchCost t k then some (t, none) else (insert t k v).map fun p => (p.1, some p.2) := by
  induction t generalizing b with
  | nil => cases b <;> simp [insertP, searchCost, insert]
  | node h l x w r ihl ihr =>
    cases b with
    | zero => simp only [insertP, searchCost]; split_ifs <;> simp_all
    | succ b =>
      simp only [insertP, searchCost, insert]
      split
      · rw [ihl]
        by_cases hb : b < searchCost l k
        · simp [hb]
        · simp only [hb, Nat.add_lt_add_iff_right, if_false]
          cases insert l k v with
          | none => rfl
          | some p =>
            simp only [Option.map_some, Option.bind_eq_bind, Option.bind_some]
            cases balance (.node h p.1 x w r) <;> rfl
      · split
        · rw [ihr]
          by_cases hb : b < searchCost r k
          · simp [hb]
          · simp only [hb, Nat.add_lt_add_iff_right, if_false]
            cases insert r k v with
            | none => rfl
            | some p =>
              simp only [Option.map_some, Option.bind_eq_bind, Option.bind_some]
              cases balance (.node h l x w p.1) <;> rfl
        · simp

theorem removeP_eq (b : Nat) (t : ATree K V) (k : K) :
    removeP b t k = if b < searchCost t k then some (.nil, none) else (remove t k).map fun p => (p.1, some p.2) := by
  induction t generalizing b with
  | nil => cases b <;> simp [removeP, searchCost, remove]
  | node h l x w r ihl ihr =>
    cases b with
    | zero => simp only [removeP, searchCost]; split_ifs <;> simp_all
    | succ b =>
      simp only [removeP, searchCost, remove]
      split
      · rw [ihl]
        by_cases hb : b < searchCost l k
        · simp [hb]
        · simp only [hb, Nat.add_lt_add_iff_right, if_false]
          cases remove l k with
          | none => rfl
          | some p =>
            simp only [Option.map_some, Option.bind_eq_bind, Option.bind_some]
            cases balance (.node h p.1 x w r) <;> rfl
      · split
        · rw [ihr]
          by_cases hb : b < searchCost r k
          · simp [hb]
          · simp only [hb, Nat.add_lt_add_iff_right, if_false]
            cases remove r k with
            | none => rfl
            | some p =>
              simp only [Option.map_some, Option.bind_eq_bind, Option.bind_some]
              cases balance (.node h l x w p.1) <;> rfl
        · rw [if_neg (by omega)]
          cases joinChildren l r with
          | none => rfl
          | some t =>
            simp only [Option.bind_eq_bind, Option.bind_some]
            cases balance t <;> rfl

/-- A call makes `comparisons m op` comparisons.  If they all return, the call is the ordinary one; if one of them
panics, what is left is `wreck m op`, whichever it was. -/
theorem stepP_eq (m : AvlMap K V) (op : MapOp K V) (b : Nat) :
    stepP m op () b = if b < comparisons m op then some (wreck m op, none)
      else (step m op ()).map fun p => (p.1, some p.2) := by
  cases op with
  | insert k v =>
    simp only [stepP, AvlMap.insertP, insertP_eq, comparisons, step, AvlMap.insert]
    by_cases hb : b < searchCost m.tree k
    · simp only [hb, if_true]; rfl
    · simp only [hb, if_false]
      cases insert m.tree k v with
      | none => rfl
      | some p => obtain ⟨t, _ | e⟩ := p <;> rfl
  | remove k =>
    simp only [stepP, AvlMap.removeP, removeP_eq, comparisons, step, AvlMap.remove]
    by_cases hb : b < searchCost m.tree k
    · simp only [hb, if_true]; rfl
    · simp only [hb, if_false]
      cases remove m.tree k with
      | none => rfl
      | some p =>
        obtain ⟨t, _ | e⟩ := p
        · rfl
        · cases hd : decr m.len <;> simp [hd]
  | get k =>
    simp only [stepP, comparisons, step, Tree.getP_eq]
    by_cases hb : b < searchCost m.tree k <;> simp only [hb, if_true, if_false] <;> rfl
  | containsKey k =>
    simp only [stepP, comparisons, step, Tree.getP_eq]
    by_cases hb : b < searchCost m.tree k <;> simp only [hb, if_true, if_false] <;> rfl
  | getMut k f =>
    simp only [stepP, comparisons, step, Tree.getMutP_eq]
    by_cases hb : b < searchCost m.tree k <;> simp only [hb, if_true, if_false] <;> rfl
  | floor k =>
    simp only [stepP, comparisons, step, Tree.floorP_eq]
    by_cases hb : b < searchCost m.tree k <;> simp only [hb, if_true, if_false] <;> rfl
  | ceil k =>
    simp only [stepP, comparisons, step, Tree.ceilP_eq]
    by_cases hb : b < searchCost m.tree k <;> simp only [hb, if_true, if_false] <;> rfl
  | _ => simp [stepP, comparisons, step]

/-- An ordinary call on a map whose `len` may be too large. -/
theorem step_over (t : ATree K V) (n : Nat) (op : MapOp K V) (hs : Sorted t.toList) (hn : t.toList.length ≤ n) :
    ∃ s' r, step ⟨t, n⟩ op () = some (s', r) ∧
      Counted.Ret op ⟨SL.abs t.toList, n⟩ r ⟨SL.abs s'.tree.toList, s'.len⟩ ∧
      Sorted s'.tree.toList ∧ s'.tree.toList.length ≤ s'.len := by
  suffices H : ∃ s', step ⟨t, n⟩ op () = some (s', SL.countRes t.toList n op) ∧
      s'.tree.toList = SL.next t.toList op ∧ s'.len = SL.countNext t.toList n op by
    obtain ⟨s', h1, h2, h3⟩ := H
    refine ⟨s', _, h1, ?_⟩
    rw [h2, h3]
    exact SL.counted_ret hs op hn
  cases op with
  | insert k v =>
    obtain ⟨t', h1, h2⟩ := insert_spec t k v hs
    cases hf : SL.find k t.toList with
    | none =>
      rw [hf] at h1
      exact ⟨⟨t', n + 1⟩, by simp [step, AvlMap.insert, h1, SL.countRes, SL.res, hf], h2, by simp [SL.countNext, hf]⟩
    | some e =>
      rw [hf] at h1
      exact ⟨⟨t', n⟩, by simp [step, AvlMap.insert, h1, SL.countRes, SL.res, hf, decr], h2, by simp [SL.countNext, hf]⟩
  | remove k =>
    obtain ⟨t', h1, h2⟩ := remove_spec t k hs
    cases hf : SL.find k t.toList with
    | none =>
      rw [hf] at h1
      exact ⟨⟨t', n⟩, by simp [step, AvlMap.remove, h1, SL.countRes, SL.res, hf], h2, by simp [SL.countNext, hf]⟩
    | some e =>
      rw [hf] at h1
      have hp := List.length_pos_of_mem (SL.find_some_mem hf)
      obtain ⟨n', rfl⟩ : ∃ n', n = n' + 1 := ⟨n - 1, by omega⟩
      exact ⟨⟨t', n'⟩, by simp [step, AvlMap.remove, h1, SL.countRes, SL.res, hf, decr], h2, by simp [SL.countNext, hf]⟩
  | get k => exact ⟨⟨t, n⟩, by simp [step, SL.countRes, SL.res, Tree.get_eq t k hs], rfl, rfl⟩
  | containsKey k => exact ⟨⟨t, n⟩, by simp [step, SL.countRes, SL.res, Tree.get_eq t k hs], rfl, rfl⟩
  | getMut k f =>
    exact ⟨⟨(t.getMut k f).2, n⟩, by simp [step, SL.countRes, SL.res, Tree.getMut_fst, Tree.get_eq t k hs],
      Tree.getMut_snd t k f hs, rfl⟩
  | floor k => exact ⟨⟨t, n⟩, by simp [step, SL.countRes, SL.res, Tree.floor_eq t k hs], rfl, rfl⟩
  | ceil k => exact ⟨⟨t, n⟩, by simp [step, SL.countRes, SL.res, Tree.ceil_eq t k hs], rfl, rfl⟩
  | min => exact ⟨⟨t, n⟩, by simp [step, SL.countRes, SL.res, Tree.min_eq], rfl, rfl⟩
  | max => exact ⟨⟨t, n⟩, by simp [step, SL.countRes, SL.res, Tree.max_eq], rfl, rfl⟩
  | len => exact ⟨⟨t, n⟩, rfl, rfl, rfl⟩
  | isEmpty => exact ⟨⟨t, n⟩, rfl, rfl, rfl⟩
  | iter => exact ⟨⟨t, n⟩, by simp [step, SL.countRes, SL.res, Iter.collect_start], rfl, rfl⟩
  | clear => exact ⟨⟨.nil, 0⟩, rfl, rfl, rfl⟩

/-- The simulation of `AvlMap` under panicking comparisons. -/
def panicSim (K V : Type) [LinearOrder K] :
    SL.PanicSim (panicImpl K V) Counted.empty Counted.Ret Counted.Uprooted where
  rel s σ := σ = ⟨SL.abs s.tree.toList, s.len⟩ ∧ Sorted s.tree.toList ∧ s.tree.toList.length ≤ s.len
  empty := ⟨rfl, by simp [panicImpl, AvlMap.new, Sorted], Nat.le_refl _⟩
  step := by
    rintro ⟨t, n⟩ σ op d b ⟨rfl, hs, hn⟩
    simp only [panicImpl]
    change Sorted t.toList at hs
    change t.toList.length ≤ n at hn
    change ∃ s' o σ', stepP ⟨t, n⟩ op () b = some (s', o) ∧ _
    rw [stepP_eq]
    by_cases hb : b < comparisons ⟨t, n⟩ op
    · rw [if_pos hb]
      cases op with
      | insert k v => exact ⟨_, none, _, rfl, ⟨rfl, hs, by simp only [wreck]; omega⟩, rfl⟩
      | remove k => exact ⟨_, none, _, rfl, ⟨rfl, by simp [wreck, Sorted], by simp [wreck]⟩, rfl⟩
      | get k => exact ⟨_, none, _, rfl, ⟨rfl, hs, hn⟩, rfl⟩
      | containsKey k => exact ⟨_, none, _, rfl, ⟨rfl, hs, hn⟩, rfl⟩
      | getMut k f => exact ⟨_, none, _, rfl, ⟨rfl, hs, hn⟩, rfl⟩
      | floor k => exact ⟨_, none, _, rfl, ⟨rfl, hs, hn⟩, rfl⟩
      | ceil k => exact ⟨_, none, _, rfl, ⟨rfl, hs, hn⟩, rfl⟩
      | _ => simp [comparisons] at hb
    · rw [if_neg hb]
      obtain ⟨s', r, h1, h2, h3, h4⟩ := step_over t n op hs hn
      exact ⟨s', some r, _, by rw [h1]; rfl, ⟨rfl, h3, h4⟩, h2⟩

end Verif.Avl
