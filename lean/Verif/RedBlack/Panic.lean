/- `RedBlackMap` when a comparison of keys panics and the client catches the panic (C74).

The functions of `RedBlack.Model` once more, following the `&mut Tree` slots: the first `b` comparisons of a call
return, the next one panics.  A panic unwinds; whatever a slot holds at that moment stays in it, and nodes held in
local variables are dropped. -/
import Verif.RedBlack.Lemmas
import Verif.Bst.Panic
import Verif.Lib.PanicSim

namespace Verif.RedBlack

open Verif.Bst Verif.Spec
open Verif.SL (Sorted)

variable {K V : Type} [LinearOrder K]

/-- red_black_tree/tree.rs:62-103 `insert`: the contents of the slot `tree` afterwards, and the result (`none`:
panicked).  On the way up from a panic the fix-up of lines 81-100 is skipped. -/
def insertP : Nat → RTree K V → K → V → Option (RTree K V × Option (Option (K × V)))
  | _, .nil, k, v => some (newNode k v, some none)
  | 0, .node c l x w r, _, _ => some (.node c l x w r, none)
  | b + 1, .node c l x w r, k, v =>
    if k < x then do
      let (l', ret) ← insertP b l k v
      match ret with
      | none => return (.node c l' x w r, none)
      | some ret => do
        let t ← fixInsert (.node c l' x w r)
        return (t, some ret)
    else if x < k then do
      let (r', ret) ← insertP b r k v
      match ret with
      | none => return (.node c l x w r', none)
      | some ret => do
        let t ← fixInsert (.node c l x w r')
        return (t, some ret)
    else do
      let t ← fixInsert (.node c l k v r)
      return (t, some (some (x, w)))

/-- red_black_tree/tree.rs:105-172 `remove` (the first argument is fuel, the second the budget of comparisons):
`tree.take()` (line 110) empties the slot before the comparisons `<` (112) and `==` (132, 148), and the node is put
back (125, 161) only after the recursive call has returned. -/
def removeP : Nat → Nat → RTree K V → K → Option (RTree K V × Option (Option (K × V)))
  | 0, _, _, _ => none
  | _ + 1, _, .nil, _ => some (.nil, some none)
  | _ + 1, 0, .node .., _ => some (.nil, none)
  | n + 1, b + 1, .node c l x w r, k =>
    if k < x then do
      let t ← moveLeft (.node c l x w r)
      match t with
      | .nil => none
      | .node c l x w r =>
        let (l', ret) ← removeP n b l k
        match ret with
        | none => return (.nil, none)
        | some ret => do
          let t ← balance (.node c l' x w r)
          return (t, some ret)
    else do
      let t ← moveRight₁ (.node c l x w r)
      match t with
      | .nil => none
      | .node c l x w r =>
        match b with
        | 0 => return (.nil, none)
        | b + 1 =>
          if k = x ∧ isNil r = true then
            if isNil l then some (.nil, some (some (x, w))) else none
          else
            let t ← moveRight₂ (.node c l x w r)
            match t with
            | .nil => none
            | .node c l x w r =>
              match b with
              | 0 => return (.nil, none)
              | b + 1 =>
                if k = x then
                  let t ← combineSubtrees l r c
                  let t ← balance t
                  return (t, some (some (x, w)))
                else
                  let (r', ret) ← removeP n b r k
                  match ret with
                  | none => return (.nil, none)
                  | some ret => do
                    let t ← balance (.node c l x w r')
                    return (t, some ret)

/-- red_black_tree/map.rs:66-87 `insert`: `*len += 1` (line 75) comes before the tree is searched; a panic skips the
blackening of the root (82-84). -/
def RedBlackMap.insertP (b : Nat) (m : RedBlackMap K V) (k : K) (v : V) :
    Option (RedBlackMap K V × Option (Option (K × V))) := do
  let len := m.len + 1
  let (t, ret) ← RedBlack.insertP b m.tree k v
  match ret with
  | none => return (⟨t, len⟩, none)
  | some none => return (⟨blacken t, len⟩, some none)
  | some (some e) => return (⟨blacken t, ← decr len⟩, some (some e))

/-- red_black_tree/map.rs:102-125 `remove`. -/
def RedBlackMap.removeP (b : Nat) (m : RedBlackMap K V) (k : K) :
    Option (RedBlackMap K V × Option (Option (K × V))) := do
  let (t, ret) ← RedBlack.removeP (m.tree.size + 1) b (fixRoot m.tree) k
  match ret with
  | none => return (⟨t, m.len⟩, none)
  | some none => return (⟨blacken t, m.len⟩, some none)
  | some (some e) => return (⟨blacken t, ← decr m.len⟩, some (some e))

/-- The API calls (see `step`), comparison `b + 1` of the call panicking. -/
def stepP (m : RedBlackMap K V) (op : MapOp K V) (_ : Unit) (b : Nat) :
    Option (RedBlackMap K V × Option (MapRes K V)) :=
  match op with
  | .insert k v => do let (m', r) ← m.insertP b k v; return (m', r.map .pair)
  | .remove k => do let (m', r) ← m.removeP b k; return (m', r.map .pair)
  | .get k => some (m, (m.tree.getP b k).map fun e => .val (e.map (·.2)))
  | .containsKey k => some (m, (m.tree.getP b k).map fun e => .bool e.isSome)
  | .getMut k f =>
    match m.tree.getMutP b k f with
    | none => some (m, none)
    | some (e, t) => some (⟨t, m.len⟩, some (.val (e.map (·.2))))
  | .floor k => some (m, (m.tree.floorP b k).map fun e => .key (e.map (·.1)))
  | .ceil k => some (m, (m.tree.ceilP b k).map fun e => .key (e.map (·.1)))
  | op => do let (m', r) ← step m op (); return (m', some r)

/-- `RedBlackMap` under panicking comparisons. -/
def panicImpl (K V : Type) [LinearOrder K] : PanicImpl K V where
  State := RedBlackMap K V
  Draw := Unit
  empty := RedBlackMap.new
  step := stepP

/-- The comparisons of `remove` (red_black_tree/tree.rs:112, 132, 148), the first argument being fuel. -/
def removeCost : Nat → RTree K V → K → Nat
  | 0, _, _ => 0
  | _ + 1, .nil, _ => 0
  | n + 1, .node c l x w r, k =>
    if k < x then
      match moveLeft (.node c l x w r) with
      | some (.node _ l _ _ _) => removeCost n l k + 1
      | _ => 1
    else
      match moveRight₁ (.node c l x w r) with
      | some (.node c l x w r) =>
        if k = x ∧ isNil r = true then 2
        else
          match moveRight₂ (.node c l x w r) with
          | some (.node _ _ x _ r) => if k = x then 3 else removeCost n r k + 3
          | _ => 2
      | _ => 1

/-- The number of comparisons of keys a call makes if none panics. -/
def comparisons (m : RedBlackMap K V) : MapOp K V → Nat
  | .remove k => removeCost (m.tree.size + 1) (fixRoot m.tree) k
  | .insert k _ | .get k | .containsKey k | .getMut k _ | .floor k | .ceil k => searchCost m.tree k
  | _ => 0

/-- What a panicking call leaves in the map. -/
def wreck (m : RedBlackMap K V) : MapOp K V → RedBlackMap K V
  | .insert _ _ => ⟨m.tree, m.len + 1⟩
  | .remove _ => ⟨.nil, m.len⟩
  | _ => m

theorem insertP_eq (b : Nat) (t : RTree K V) (k : K) (v : V) :
    insertP b t k v = if b < searchCost t k then some (t, none) else (insert t k v).map fun p => (p.1, some p.2) := by
  induction t generalizing b with
  | nil => cases b <;> simp [insertP, searchCost, insert]
  | node h l x w r ihl ihr =>
    cases b with
    | zero => simp only [insertP, searchCost]; split_ifs <;> simp_all
    | succ b =>
      simp only [insertP, searchCost, insert]
      split
      · rw [ihl]
        by_cases hb : b < searchCost l k
        · simp [hb]
        · simp only [hb, Nat.add_lt_add_iff_right, if_false]
          cases insert l k v with
          | none => rfl
          | some p =>
            simp only [Option.map_some, Option.bind_eq_bind, Option.bind_some]
            cases fixInsert (.node h p.1 x w r) <;> rfl
      · split
        · rw [ihr]
          by_cases hb : b < searchCost r k
          · simp [hb]
          · simp only [hb, Nat.add_lt_add_iff_right, if_false]
            cases insert r k v with
            | none => rfl
            | some p =>
              simp only [Option.map_some, Option.bind_eq_bind, Option.bind_some]
              cases fixInsert (.node h l x w p.1) <;> rfl
        · rw [if_neg (by omega)]
          cases fixInsert (.node h l k v r) <;> rfl

theorem removeP_eq (n b : Nat) (t : RTree K V) (k : K) {p : RTree K V × Option (K × V)}
    (hp : remove n t k = some p) :
    removeP n b t k = if b < removeCost n t k then some (.nil, none) else some (p.1, some p.2) := by
  induction n generalizing b t p with
  | zero => simp [remove] at hp
  | succ n ih =>
    cases t with
    | nil =>
      simp only [remove, Option.some.injEq] at hp
      subst hp
      cases b <;> simp [removeP, removeCost]
    | node c l x w r =>
      simp only [remove] at hp
      cases b with
      | zero =>
        have : 0 < removeCost (n + 1) (.node c l x w r) k := by
          simp only [removeCost]; split
          · split <;> omega
          · split
            · split
              · omega
              · split
                · split <;> omega
                · omega
            · omega
        rw [if_pos this]; rfl
      | succ b =>
        simp only [removeP, removeCost]
        split at hp
        · rename_i h
          simp only [h, if_true]
          cases ht : moveLeft (.node c l x w r) with
          | none => simp [ht] at hp
          | some t =>
            simp only [ht, Option.bind_eq_bind, Option.bind_some] at hp ⊢
            cases t with
            | nil => simp at hp
            | node c l x w r =>
              simp only at hp ⊢
              cases hr : remove n l k with
              | none => simp [hr] at hp
              | some q =>
                rw [ih b l hr]
                simp only [hr, Option.bind_some] at hp
                by_cases hb : b < removeCost n l k
                · simp [hb]
                · simp only [hb, Nat.add_lt_add_iff_right, if_false, Option.bind_some]
                  cases hbal : balance (.node c q.1 x w r) with
                  | none => simp [hbal] at hp
                  | some t =>
                    simp only [hbal, Option.bind_some, pure, Option.some.injEq] at hp ⊢
                    subst hp; rfl
        · rename_i h
          simp only [h, if_false]
          cases ht : moveRight₁ (.node c l x w r) with
          | none => simp [ht] at hp
          | some t =>
            simp only [ht, Option.bind_eq_bind, Option.bind_some] at hp ⊢
            cases t with
            | nil => simp at hp
            | node c l x w r =>
              simp only at hp ⊢
              cases b with
              | zero =>
                have : 1 < (if k = x ∧ isNil r = true then 2 else
                    match moveRight₂ (.node c l x w r) with
                    | some (.node _ _ x _ r) => if k = x then 3 else removeCost n r k + 3
                    | _ => 2) := by
                  split
                  · omega
                  · cases moveRight₂ (.node c l x w r) with
                    | none => simp
                    | some t =>
                      cases t with
                      | nil => simp
                      | node _ _ x' _ r' =>
                        simp only
                        by_cases h : k = x' <;> simp only [h, if_true, if_false] <;> omega
                rw [if_pos this]; rfl
              | succ b =>
                simp only
                split at hp
                · rename_i h2
                  simp only [h2, if_true] at hp ⊢
                  split at hp
                  · rename_i h3
                    simp only [Option.some.injEq] at hp
                    subst hp
                    simp [h3]
                  · simp at hp
                · rename_i h2
                  simp only [h2, if_false]
                  cases ht2 : moveRight₂ (.node c l x w r) with
                  | none => simp [ht2] at hp
                  | some t =>
                    simp only [ht2, Option.bind_some] at hp ⊢
                    cases t with
                    | nil => simp at hp
                    | node c l x w r =>
                      simp only at hp ⊢
                      cases b with
                      | zero =>
                        have : 2 < (if k = x then 3 else removeCost n r k + 3) := by split <;> omega
                        rw [if_pos this]; rfl
                      | succ b =>
                        simp only
                        split at hp
                        · rename_i h3
                          simp only [h3, if_true] at hp ⊢
                          rw [if_neg (by omega)]
                          cases hc : combineSubtrees l r c with
                          | none => simp [hc] at hp
                          | some t =>
                            simp only [hc, Option.bind_some] at hp ⊢
                            cases hbal : balance t with
                            | none => simp [hbal] at hp
                            | some t =>
                              simp only [hbal, Option.bind_some, pure, Option.some.injEq] at hp ⊢
                              subst hp; rfl
                        · rename_i h3
                          simp only [h3, if_false]
                          cases hr : remove n r k with
                          | none => simp [hr] at hp
                          | some q =>
                            rw [ih b r hr]
                            simp only [hr, Option.bind_some] at hp
                            by_cases hb : b < removeCost n r k
                            · simp [hb]
                            · simp only [hb, Nat.add_lt_add_iff_right, if_false, Option.bind_some]
                              cases hbal : balance (.node c l x w q.1) with
                              | none => simp [hbal] at hp
                              | some t =>
                                simp only [hbal, Option.bind_some, pure, Option.some.injEq] at hp ⊢
                                subst hp; rfl

/-- A call makes `comparisons m op` comparisons.  If they all return, the call is the ordinary one; if one of them
panics, what is left is `wreck m op`, whichever it was. -/
theorem stepP_eq (m : RedBlackMap K V) (op : MapOp K V) (b : Nat) (hm : step m op () ≠ none) :
    stepP m op () b = if b < comparisons m op then some (wreck m op, none)
      else (step m op ()).map fun p => (p.1, some p.2) := by
  cases op with
  | insert k v =>
    simp only [stepP, RedBlackMap.insertP, insertP_eq, comparisons, step, RedBlackMap.insert]
    by_cases hb : b < searchCost m.tree k
    · simp only [hb, if_true]; rfl
    · simp only [hb, if_false]
      cases insert m.tree k v with
      | none => rfl
      | some p => obtain ⟨t, _ | e⟩ := p <;> rfl
  | remove k =>
    cases hr : remove (m.tree.size + 1) (fixRoot m.tree) k with
    | none => exact absurd (by simp [step, RedBlackMap.remove, hr]) hm
    | some p =>
      simp only [stepP, RedBlackMap.removeP, removeP_eq _ b _ _ hr, comparisons, step, RedBlackMap.remove, hr]
      by_cases hb : b < removeCost (m.tree.size + 1) (fixRoot m.tree) k
      · simp only [hb, if_true]; rfl
      · simp only [hb, if_false]
        obtain ⟨t, _ | e⟩ := p
        · rfl
        · cases hd : decr m.len <;> simp [hd]
  | get k =>
    simp only [stepP, comparisons, step, Tree.getP_eq]
    by_cases hb : b < searchCost m.tree k <;> simp only [hb, if_true, if_false] <;> rfl
  | containsKey k =>
    simp only [stepP, comparisons, step, Tree.getP_eq]
    by_cases hb : b < searchCost m.tree k <;> simp only [hb, if_true, if_false] <;> rfl
  | getMut k f =>
    simp only [stepP, comparisons, step, Tree.getMutP_eq]
    by_cases hb : b < searchCost m.tree k <;> simp only [hb, if_true, if_false] <;> rfl
  | floor k =>
    simp only [stepP, comparisons, step, Tree.floorP_eq]
    by_cases hb : b < searchCost m.tree k <;> simp only [hb, if_true, if_false] <;> rfl
  | ceil k =>
    simp only [stepP, comparisons, step, Tree.ceilP_eq]
    by_cases hb : b < searchCost m.tree k <;> simp only [hb, if_true, if_false] <;> rfl
  | _ => simp [stepP, comparisons, step]

/-- An ordinary call on a map whose `len` may be too large. -/
theorem step_over (t : RTree K V) (n : Nat) (op : MapOp K V) (hs : Sorted t.toList) (hi : Inv t)
    (hn : t.toList.length ≤ n) :
    ∃ s' r, step ⟨t, n⟩ op () = some (s', r) ∧
      Counted.Ret op ⟨SL.abs t.toList, n⟩ r ⟨SL.abs s'.tree.toList, s'.len⟩ ∧
      Sorted s'.tree.toList ∧ s'.tree.toList.length ≤ s'.len ∧ Inv s'.tree := by
  suffices H : ∃ s', step ⟨t, n⟩ op () = some (s', SL.countRes t.toList n op) ∧
      s'.tree.toList = SL.next t.toList op ∧ s'.len = SL.countNext t.toList n op ∧ Inv s'.tree by
    obtain ⟨s', h1, h2, h3, h4⟩ := H
    obtain ⟨h5, h6, h7⟩ := SL.counted_ret hs op hn
    refine ⟨s', _, h1, ?_, ?_, ?_, h4⟩
    · rw [h2, h3]; exact h5
    · rw [h2]; exact h6
    · rw [h2, h3]; exact h7
  cases op with
  | insert k v =>
    obtain ⟨_, hll⟩ := hi
    obtain ⟨t', h1, h2, h2', _⟩ := insert_spec t k v hll hs
    obtain ⟨c', h2'⟩ := h2' rfl
    have h4 := blacken_inv h2'
    have h5 := blacken_toList t'
    rw [h2] at h5
    cases hf : SL.find k t.toList with
    | none =>
      rw [hf] at h1
      exact ⟨⟨blacken t', n + 1⟩, by simp [step, RedBlackMap.insert, h1, SL.countRes, SL.res, hf], h5,
        by simp [SL.countNext, hf], h4⟩
    | some e =>
      rw [hf] at h1
      exact ⟨⟨blacken t', n⟩, by simp [step, RedBlackMap.insert, h1, SL.countRes, SL.res, hf, decr], h5,
        by simp [SL.countNext, hf], h4⟩
  | remove k =>
    obtain ⟨_, c, hll, hrd⟩ := fixRoot_spec hi
    have hfr := fixRoot_toList t
    obtain ⟨t', h1, h2, c', h2', _⟩ := remove_spec (t.size + 1) (k := k) (.inl ⟨hll, hrd⟩)
      (by rw [hfr]; exact hs) (by rw [hfr, Tree.size_eq_length]; omega)
    rw [hfr] at h1 h2
    have h4 := blacken_inv h2'
    have h5 := blacken_toList t'
    rw [h2] at h5
    cases hf : SL.find k t.toList with
    | none =>
      rw [hf] at h1
      exact ⟨⟨blacken t', n⟩, by simp [step, RedBlackMap.remove, h1, SL.countRes, SL.res, hf], h5,
        by simp [SL.countNext, hf], h4⟩
    | some e =>
      rw [hf] at h1
      have hp := List.length_pos_of_mem (SL.find_some_mem hf)
      obtain ⟨n', rfl⟩ : ∃ n', n = n' + 1 := ⟨n - 1, by omega⟩
      exact ⟨⟨blacken t', n'⟩, by simp [step, RedBlackMap.remove, h1, SL.countRes, SL.res, hf, decr], h5,
        by simp [SL.countNext, hf], h4⟩
  | get k => exact ⟨⟨t, n⟩, by simp [step, SL.countRes, SL.res, Tree.get_eq t k hs], rfl, rfl, hi⟩
  | containsKey k => exact ⟨⟨t, n⟩, by simp [step, SL.countRes, SL.res, Tree.get_eq t k hs], rfl, rfl, hi⟩
  | getMut k f =>
    obtain ⟨_, hll⟩ := hi
    exact ⟨⟨(t.getMut k f).2, n⟩, by simp [step, SL.countRes, SL.res, Tree.getMut_fst, Tree.get_eq t k hs],
      Tree.getMut_snd t k f hs, rfl, _, getMut_ll t k f hll⟩
  | floor k => exact ⟨⟨t, n⟩, by simp [step, SL.countRes, SL.res, Tree.floor_eq t k hs], rfl, rfl, hi⟩
  | ceil k => exact ⟨⟨t, n⟩, by simp [step, SL.countRes, SL.res, Tree.ceil_eq t k hs], rfl, rfl, hi⟩
  | min => exact ⟨⟨t, n⟩, by simp [step, SL.countRes, SL.res, Tree.min_eq], rfl, rfl, hi⟩
  | max => exact ⟨⟨t, n⟩, by simp [step, SL.countRes, SL.res, Tree.max_eq], rfl, rfl, hi⟩
  | len => exact ⟨⟨t, n⟩, rfl, rfl, rfl, hi⟩
  | isEmpty => exact ⟨⟨t, n⟩, rfl, rfl, rfl, hi⟩
  | iter => exact ⟨⟨t, n⟩, by simp [step, SL.countRes, SL.res, Iter.collect_start], rfl, rfl, hi⟩
  | clear => exact ⟨⟨.nil, 0⟩, rfl, rfl, rfl, 0, ll_nil.2 ⟨rfl, rfl⟩⟩

/-- The simulation of `RedBlackMap` under panicking comparisons. -/
def panicSim (K V : Type) [LinearOrder K] :
    SL.PanicSim (panicImpl K V) Counted.empty Counted.Ret Counted.Uprooted where
  rel s σ := σ = ⟨SL.abs s.tree.toList, s.len⟩ ∧ Sorted s.tree.toList ∧ s.tree.toList.length ≤ s.len ∧
    Inv s.tree
  empty := ⟨rfl, by simp [panicImpl, RedBlackMap.new, Sorted], Nat.le_refl _, 0, ll_nil.2 ⟨rfl, rfl⟩⟩
  step := by
    rintro ⟨t, n⟩ σ op d b ⟨rfl, hs, hn, hi⟩
    simp only [panicImpl]
    change Sorted t.toList at hs
    change t.toList.length ≤ n at hn
    change Inv t at hi
    change ∃ s' o σ', stepP ⟨t, n⟩ op () b = some (s', o) ∧ _
    obtain ⟨s', r, h1, h2, h3, h4, h5⟩ := step_over t n op hs hi hn
    rw [stepP_eq _ _ _ (by rw [h1]; simp)]
    by_cases hb : b < comparisons ⟨t, n⟩ op
    · rw [if_pos hb]
      cases op with
      | insert k v => exact ⟨_, none, _, rfl, ⟨rfl, hs, by simp only [wreck]; omega, hi⟩, rfl⟩
      | remove k => exact ⟨_, none, _, rfl, ⟨rfl, by simp [wreck, Sorted], by simp [wreck], 0, ll_nil.2 ⟨rfl, rfl⟩⟩, rfl⟩
      | get k => exact ⟨_, none, _, rfl, ⟨rfl, hs, hn, hi⟩, rfl⟩
      | containsKey k => exact ⟨_, none, _, rfl, ⟨rfl, hs, hn, hi⟩, rfl⟩
      | getMut k f => exact ⟨_, none, _, rfl, ⟨rfl, hs, hn, hi⟩, rfl⟩
      | floor k => exact ⟨_, none, _, rfl, ⟨rfl, hs, hn, hi⟩, rfl⟩
      | ceil k => exact ⟨_, none, _, rfl, ⟨rfl, hs, hn, hi⟩, rfl⟩
      | _ => simp [comparisons] at hb
    · rw [if_neg hb]
      exact ⟨s', some r, _, by rw [h1]; rfl, ⟨rfl, h3, h4, h5⟩, h2⟩

end Verif.RedBlack
