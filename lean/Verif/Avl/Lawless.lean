/- `AvlMap` with arbitrary answers of the comparisons. -/
import Verif.Avl.Lemmas
import Verif.Bst.Lawless
import Mathlib.Order.Nat

namespace Verif.Avl

open Verif.Bst Verif.Spec

variable {K V : Type}

/-- avl_tree/tree.rs:63-84 `insert` with the answers `c` (the counter is the number of comparisons made before). -/
def insertA (c : Nat → K → Ordering) (k : K) (v : V) : Nat → ATree K V → Option (ATree K V × Option (K × V))
  | _, .nil => some (newNode k v, none)
  | i, .node h l x w r =>
    match c i x with
    | .lt => do
      let (l', ret) ← insertA c k v (i + 1) l
      let t ← balance (.node h l' x w r)
      return (t, ret)
    | .gt => do
      let (r', ret) ← insertA c k v (i + 1) r
      let t ← balance (.node h l x w r')
      return (t, ret)
    | .eq => some (.node h l k v r, some (x, w))

/-- avl_tree/tree.rs:86-121 `remove` with the answers `c`. -/
def removeA (c : Nat → K → Ordering) : Nat → ATree K V → Option (ATree K V × Option (K × V))
  | _, .nil => some (.nil, none)
  | i, .node h l x w r =>
    match c i x with
    | .lt => do
      let (l', ret) ← removeA c (i + 1) l
      let t ← balance (.node h l' x w r)
      return (t, ret)
    | .gt => do
      let (r', ret) ← removeA c (i + 1) r
      let t ← balance (.node h l x w r')
      return (t, ret)
    | .eq => do
      let t ← joinChildren l r
      let t ← balance t
      return (t, some (x, w))

/-- The calls of avl_tree/map.rs with the answers of their comparisons: `insert` 65-80, `remove` 95-109, `get_mut`
165-171, `clear` 215-218, the others as in `readA`. -/
def stepA (m : AvlMap K V) : TCall K V → Unit → Option (AvlMap K V × LRes K V)
  | .insert k v c, _ => do
    let (t, ret) ← insertA c.cmp k v 0 m.tree
    match ret with
    | none => return (⟨t, m.len + 1⟩, .pair none)
    | some e => return (⟨t, ← decr (m.len + 1)⟩, .pair (some e))
  | .remove c, _ => do
    let (t, ret) ← removeA c.cmp 0 m.tree
    match ret with
    | none => return (⟨t, m.len⟩, .pair none)
    | some e => return (⟨t, ← decr m.len⟩, .pair (some e))
  | .getMut c f, _ => some (⟨(m.tree.getMutA c.cmp f 0).2, m.len⟩, .val ((m.tree.getMutA c.cmp f 0).1.map (·.2)))
  | .clear, _ => some (⟨.nil, 0⟩, .unit)
  | op, _ => some (m, readA m.tree m.len op)

/-- `AvlMap` as a map type whose comparisons answer anything. -/
def lawless (K V : Type) : TImpl K V where
  State := AvlMap K V
  Draw := Unit
  empty := ⟨.nil, 0⟩
  step := stepA

theorem insertA_spec (c : Nat → K → Ordering) (k : K) (v : V) (t : ATree K V) (i : Nat) :
    ∃ t' a o b, insertA c k v i t = some (t', o) ∧ t.toList = a ++ o.toList ++ b ∧ t'.toList = a ++ (k, v) :: b ∧
      ∀ e, o = some e → ∃ j, c j e.1 = .eq := by
  induction t generalizing i with
  | nil => exact ⟨_, [], none, [], rfl, rfl, rfl, by simp⟩
  | node h l x w r ihl ihr =>
    simp only [insertA]
    cases hc : c i x with
    | lt =>
      obtain ⟨t', a, o, b, h1, h2, h3, h4⟩ := ihl (i + 1)
      obtain ⟨t'', h5⟩ := balance_isSome (.node h t' x w r)
      exact ⟨t'', a, o, b ++ (x, w) :: r.toList, by simp [h1, h5], by simp [h2],
        by rw [balance_toList h5]; simp [h3], h4⟩
    | gt =>
      obtain ⟨t', a, o, b, h1, h2, h3, h4⟩ := ihr (i + 1)
      obtain ⟨t'', h5⟩ := balance_isSome (.node h l x w t')
      exact ⟨t'', l.toList ++ (x, w) :: a, o, b, by simp [h1, h5], by simp [h2],
        by rw [balance_toList h5]; simp [h3], h4⟩
    | eq => exact ⟨_, l.toList, some (x, w), r.toList, rfl, by simp, by simp, by simpa using ⟨i, hc⟩⟩

theorem joinChildren_spec (l r : ATree K V) :
    ∃ t, joinChildren l r = some t ∧ t.toList = l.toList ++ r.toList := by
  cases l with
  | nil => exact ⟨r, rfl, by simp⟩
  | node hl ll lk lv lr =>
    cases r with
    | nil => exact ⟨_, rfl, by simp⟩
    | node hr rl rk rv rr =>
      obtain ⟨h', x, w, r', h1, h2⟩ := removeMin_spec (.node hr rl rk rv rr) (by simp)
      exact ⟨_, by simp only [joinChildren, combineSubtrees, h1]; rfl, by simp only [Tree.toList_node] at h2 ⊢; simp [h2]⟩

theorem removeA_spec (c : Nat → K → Ordering) (t : ATree K V) (i : Nat) :
    ∃ t' a o b, removeA c i t = some (t', o) ∧ t.toList = a ++ o.toList ++ b ∧ t'.toList = a ++ b ∧
      ∀ e, o = some e → ∃ j, c j e.1 = .eq := by
  induction t generalizing i with
  | nil => exact ⟨_, [], none, [], rfl, rfl, rfl, by simp⟩
  | node h l x w r ihl ihr =>
    simp only [removeA]
    cases hc : c i x with
    | lt =>
      obtain ⟨t', a, o, b, h1, h2, h3, h4⟩ := ihl (i + 1)
      obtain ⟨t'', h5⟩ := balance_isSome (.node h t' x w r)
      exact ⟨t'', a, o, b ++ (x, w) :: r.toList, by simp [h1, h5], by simp [h2],
        by rw [balance_toList h5]; simp [h3], h4⟩
    | gt =>
      obtain ⟨t', a, o, b, h1, h2, h3, h4⟩ := ihr (i + 1)
      obtain ⟨t'', h5⟩ := balance_isSome (.node h l x w t')
      exact ⟨t'', l.toList ++ (x, w) :: a, o, b, by simp [h1, h5], by simp [h2],
        by rw [balance_toList h5]; simp [h3], h4⟩
    | eq =>
      obtain ⟨t', h1, h2⟩ := joinChildren_spec l r
      obtain ⟨t'', h5⟩ := balance_isSome t'
      exact ⟨t'', l.toList, some (x, w), r.toList, by simp [h1, h5], by simp,
        by rw [balance_toList h5, h2], by simpa using ⟨i, hc⟩⟩

theorem stepA_keeps (m : AvlMap K V) (op : TCall K V) (d : Unit) (hl : m.len = m.tree.toList.length) :
    ∃ m' r, stepA m op d = some (m', r) ∧ op.Keeps m.tree.toList r m'.tree.toList ∧
      m'.len = m'.tree.toList.length := by
  have hread : Reads op → ∃ m' r, some (m, readA m.tree m.len op) = some (m', r) ∧
      op.Keeps m.tree.toList r m'.tree.toList ∧ m'.len = m'.tree.toList.length := fun h =>
    ⟨_, _, rfl, hl ▸ readA_keeps m.tree h, hl⟩
  cases op with
  | insert k v c =>
    obtain ⟨t', a, o, b, h1, h2, h3, h4⟩ := insertA_spec c.cmp k v m.tree 0
    have hs : ∀ e, o = some e → c.SaidEqual e.1 := fun e he => (h4 e he).imp fun _ h => .inl h
    rw [h2] at hl
    cases o with
    | none =>
      exact ⟨⟨t', m.len + 1⟩, .pair none, by simp [stepA, h1], ⟨a, none, b, rfl, h2, h3, hs⟩, by
        simp only [h3, hl]; simp; omega⟩
    | some e =>
      exact ⟨⟨t', m.len⟩, .pair (some e), by simp [stepA, h1, decr], ⟨a, some e, b, rfl, h2, h3, hs⟩, by
        simp only [h3, hl]; simp⟩
  | remove c =>
    obtain ⟨t', a, o, b, h1, h2, h3, h4⟩ := removeA_spec c.cmp m.tree 0
    have hs : ∀ e, o = some e → c.SaidEqual e.1 := fun e he => (h4 e he).imp fun _ h => .inl h
    have hl' := hl
    rw [h2] at hl
    cases o with
    | none =>
      exact ⟨⟨t', m.len⟩, .pair none, by simp [stepA, h1], ⟨a, none, b, rfl, h2, h3, hs⟩, by
        simp only [h3, hl]; simp⟩
    | some e =>
      have : m.len = (a ++ b).length + 1 := by rw [hl]; simp; omega
      exact ⟨⟨t', (a ++ b).length⟩, .pair (some e), by simp [stepA, h1, this, decr],
        ⟨a, some e, b, rfl, h2, h3, hs⟩, by simp only [h3]⟩
  | getMut c f =>
    rcases Tree.getMutA_spec c.cmp f m.tree 0 with ⟨h1, h2⟩ | ⟨a, k, v, b, h1, h2, h3, j, h4⟩
    · exact ⟨_, _, rfl, .inl ⟨by simp [h1], by simp [h2]⟩, by simp only [h2, hl]⟩
    · refine ⟨_, _, rfl, .inr ⟨a, k, v, b, by simp [h1], h2, h3, j, .inl h4⟩, ?_⟩
      simp only [h3, hl, h2]; simp
  | clear => exact ⟨_, _, rfl, ⟨rfl, rfl⟩, rfl⟩
  | get | floor | ceil | min | max | len | iter => exact hread trivial

/-- C79 for `AvlMap`: whatever the comparisons answer, no call panics, no entry gets lost and none is doubled. -/
theorem C79_avl (ops : List (TCall K V × Unit)) :
    ∃ m h, (lawless K V).run (lawless K V).empty ops = some (m, h) ∧ h.map Prod.fst = ops.map Prod.fst ∧
      TRuns TCall.Keeps [] h (Iter.start m.tree).collect ∧ m.len = (Iter.start m.tree).collect.length := by
  obtain ⟨m, h, l, h1, h2, h3, h4, h5⟩ := TImpl.run_all (lawless K V) TCall.Keeps
    (fun m l => m.tree.toList = l ∧ m.len = l.length)
    (fun m l op d ⟨hg, hl⟩ => by
      obtain ⟨m', r, e1, e2, e3⟩ := stepA_keeps m op d (hg ▸ hl)
      exact ⟨m', r, _, e1, hg ▸ e2, rfl, e3⟩)
    ops (lawless K V).empty [] ⟨rfl, rfl⟩
  refine ⟨m, h, h1, h2, ?_, ?_⟩
  · rw [Iter.collect_start, h4]; exact h3
  · rw [Iter.collect_start, h4]; exact h5

section Lawful
variable [LinearOrder K]

theorem insertA_lawful (k : K) (v : V) (t : ATree K V) (i : Nat) :
    insertA (TAnswers.lawful k).cmp k v i t = insert t k v := by
  induction t generalizing i with
  | nil => rfl
  | node a l x v r ihl ihr =>
    simp only [insertA, insert, TAnswers.lawful] at ihl ihr ⊢
    split_ifs <;> simp_all

theorem removeA_lawful (k : K) (t : ATree K V) (i : Nat) :
    removeA (TAnswers.lawful k).cmp i t = remove t k := by
  induction t generalizing i with
  | nil => rfl
  | node a l x v r ihl ihr =>
    simp only [removeA, remove, TAnswers.lawful] at ihl ihr ⊢
    split_ifs <;> simp_all

/-- With the answers of an ordered key type the calls are those of the model used everywhere else. -/
theorem C79_avl_covers_lawful (m : AvlMap K V) (op : MapOp K V) (c : TCall K V) (h : TCall.ofOp op = some c) :
    (stepA m c ()).map (fun p => (p.1, p.2.toRes)) = step m op () := by
  cases op <;> simp only [TCall.ofOp, Option.some.injEq, reduceCtorEq] at h <;> subst h <;>
    simp only [stepA, step, readA, AvlMap.insert, AvlMap.remove, insertA_lawful, removeA_lawful, Tree.getA_lawful,
      Tree.floorA_lawful, Tree.ceilA_lawful, Tree.getMutA_lawful, Option.map_some, LRes.toRes]
  · cases h1 : insert m.tree _ _ with
    | none => rfl
    | some p => obtain ⟨t, _ | e⟩ := p <;> rfl
  · cases h1 : remove m.tree _ with
    | none => rfl
    | some p =>
      obtain ⟨t, _ | e⟩ := p
      · rfl
      · cases h2 : decr m.len <;> rfl

end Lawful

/-- Answers that obey no law: every other comparison says `Less`, the others `Greater`, and the third `Equal`. -/
def oddAnswers : TAnswers Nat :=
  ⟨fun i _ => if i = 2 then .eq else if i % 2 = 0 then .lt else .gt, fun i _ => i % 2 == 0, fun i _ => i % 3 == 1⟩

/-- Such a run: key 1 is in the map twice, 4 is replaced by 0, and the removal takes 0 out. -/
example : ((lawless Nat Nat).run (lawless Nat Nat).empty
    ([.insert 1 10 oddAnswers, .insert 2 20 oddAnswers, .insert 1 30 oddAnswers, .insert 4 40 oddAnswers,
      .insert 0 50 oddAnswers, .remove oddAnswers, .iter, .len].map (·, ()))).map (fun p => p.2.map (·.2)) =
    some [.pair none, .pair none, .pair none, .pair none, .pair (some (4, 40)), .pair (some (0, 50)),
      .list [(2, 20), (1, 30), (1, 10)], .num 3] := by decide +kernel

end Verif.Avl
