/- `TreapMap` with arbitrary answers of the comparisons. -/
import Verif.Treap.Lemmas
import Verif.Bst.Lawless
import Mathlib.Order.Nat

namespace Verif.Treap

open Verif.Bst Verif.Spec

variable {K V : Type}

/-- treap/tree.rs:28-60 `split` with the answers `c` (the counter is the number of comparisons made before). -/
def splitA (c : Nat → K → Ordering) : Nat → TTree K V → TTree K V × TTree K V × TTree K V
  | _, .nil => (.nil, .nil, .nil)
  | i, .node a l k v r =>
    match c i k with
    | .lt =>
      let (t, d, res) := splitA c (i + 1) l
      (t, d, mk a.prio res k v r)
    | .gt =>
      let (t, d, res) := splitA c (i + 1) r
      (mk a.prio l k v t, d, res)
    | .eq => (l, mk a.prio .nil k v .nil, r)

/-- treap/tree.rs:62-98 `insert` of `Node::new(key, v, p)` with the answers `c`. -/
def insertA (c : Nat → K → Ordering) (p : Nat) (key : K) (v : V) : Nat → TTree K V → TTree K V × Option (K × V)
  | _, .nil => (.node ⟨p, 1⟩ .nil key v .nil, none)
  | i, .node a l k w r =>
    if p ≤ a.prio then
      match c i k with
      | .lt =>
        let (l', ret) := insertA c p key v (i + 1) l
        (mk a.prio l' k w r, ret)
      | .gt =>
        let (r', ret) := insertA c p key v (i + 1) r
        (mk a.prio l k w r', ret)
      | .eq => (.node a l key v r, some (k, w))
    else
      let (t, dup, r') := splitA c i (.node a l k w r)
      (mk p t key v r', entry dup)

/-- treap/tree.rs:100-126 `remove` with the answers `c`. -/
def removeA (c : Nat → K → Ordering) : Nat → TTree K V → TTree K V × Option (K × V)
  | _, .nil => (.nil, none)
  | i, .node a l k v r =>
    match c i k with
    | .lt =>
      let (l', ret) := removeA c (i + 1) l
      (mk a.prio l' k v r, ret)
    | .gt =>
      let (r', ret) := removeA c (i + 1) r
      (mk a.prio l k v r', ret)
    | .eq => (merge l r, some (k, v))

/-- The calls of treap/map.rs with the answers of their comparisons: `insert` 73-86 (the number is the priority it
draws), `remove` 101-111, `get_mut` 167-173, `clear` 220-222, the others as in `readA` with `len` 186-191. -/
def stepA (m : TreapMap K V) : TCall K V → Nat → Option (TreapMap K V × LRes K V)
  | .insert k v c, p => some (⟨(insertA c.cmp p k v 0 m.tree).1⟩, .pair (insertA c.cmp p k v 0 m.tree).2)
  | .remove c, _ => some (⟨(removeA c.cmp 0 m.tree).1⟩, .pair (removeA c.cmp 0 m.tree).2)
  | .getMut c f, _ => some (⟨(m.tree.getMutA c.cmp f 0).2⟩, .val ((m.tree.getMutA c.cmp f 0).1.map (·.2)))
  | .clear, _ => some (⟨.nil⟩, .unit)
  | op, _ => some (m, readA m.tree (len m.tree) op)

/-- `TreapMap` as a map type whose comparisons answer anything. -/
def lawless (K V : Type) : TImpl K V where
  State := TreapMap K V
  Draw := Nat
  empty := ⟨.nil⟩
  step := stepA

theorem wf_splitA {b : Nat} (c : Nat → K → Ordering) {t : TTree K V} (h : Wf b t) (i : Nat) :
    Wf b (splitA c i t).1 ∧ Wf b (splitA c i t).2.1 ∧ Wf b (splitA c i t).2.2 := by
  induction t generalizing b i with
  | nil => simp [splitA]
  | node a l k v r ihl ihr =>
    rw [wf_node] at h
    obtain ⟨h1, h2, h3, h4⟩ := h
    simp only [splitA]
    cases c i k with
    | lt =>
      obtain ⟨i1, i2, i3⟩ := ihl h3 (i + 1)
      exact ⟨i1.mono h1, i2.mono h1, wf_mk h1 i3 h4⟩
    | gt =>
      obtain ⟨i1, i2, i3⟩ := ihr h4 (i + 1)
      exact ⟨wf_mk h1 h3 i1, i2.mono h1, i3.mono h1⟩
    | eq => exact ⟨h3.mono h1, wf_mk h1 trivial trivial, h4.mono h1⟩

/-- The middle part of a split has at most one entry. -/
theorem splitA_toList (c : Nat → K → Ordering) (t : TTree K V) (i : Nat) :
    t.toList = (splitA c i t).1.toList ++ (entry (splitA c i t).2.1).toList ++ (splitA c i t).2.2.toList ∧
      (splitA c i t).2.1.toList = (entry (splitA c i t).2.1).toList ∧
      ∀ e, entry (splitA c i t).2.1 = some e → ∃ j, c j e.1 = .eq := by
  induction t generalizing i with
  | nil => exact ⟨rfl, rfl, by simp [splitA, entry]⟩
  | node a l k v r ihl ihr =>
    simp only [splitA]
    cases hc : c i k with
    | lt =>
      obtain ⟨h1, h2, h3⟩ := ihl (i + 1)
      refine ⟨?_, h2, h3⟩
      simp only [toList_mk, Tree.toList_node]
      rw [h1]; simp
    | gt =>
      obtain ⟨h1, h2, h3⟩ := ihr (i + 1)
      refine ⟨?_, h2, h3⟩
      simp only [toList_mk, Tree.toList_node]
      rw [h1]; simp
    | eq => exact ⟨by simp [entry, mk], by simp [entry, mk], by simpa [entry, mk] using ⟨i, hc⟩⟩

theorem insertA_spec (c : Nat → K → Ordering) (p : Nat) (k : K) (v : V) (t : TTree K V) (i : Nat) :
    ∃ a b, t.toList = a ++ (insertA c p k v i t).2.toList ++ b ∧ (insertA c p k v i t).1.toList = a ++ (k, v) :: b ∧
      ∀ e, (insertA c p k v i t).2 = some e → ∃ j, c j e.1 = .eq := by
  induction t generalizing i with
  | nil => exact ⟨[], [], rfl, rfl, by simp [insertA]⟩
  | node an l x w r ihl ihr =>
    simp only [insertA]
    split
    · cases hc : c i x with
      | lt =>
        obtain ⟨a, b, h1, h2, h3⟩ := ihl (i + 1)
        exact ⟨a, b ++ (x, w) :: r.toList, by simp [h1], by simp [h2], h3⟩
      | gt =>
        obtain ⟨a, b, h1, h2, h3⟩ := ihr (i + 1)
        exact ⟨l.toList ++ (x, w) :: a, b, by simp [h1], by simp [h2], h3⟩
      | eq => exact ⟨l.toList, r.toList, by simp, by simp, by simpa using ⟨i, hc⟩⟩
    · obtain ⟨h1, _, h2⟩ := splitA_toList c (.node an l x w r) i
      exact ⟨_, _, h1, by simp, h2⟩

theorem wf_insertA {b p : Nat} (c : Nat → K → Ordering) {key : K} {v : V} {t : TTree K V} (hp : p ≤ b) (h : Wf b t)
    (i : Nat) : Wf b (insertA c p key v i t).1 := by
  induction t generalizing b i with
  | nil => exact ⟨hp, rfl, trivial, trivial⟩
  | node a l k w r ihl ihr =>
    rw [wf_node] at h
    obtain ⟨h1, h2, h3, h4⟩ := h
    simp only [insertA]
    split
    · rename_i hpa
      cases c i k with
      | lt => exact wf_mk h1 (ihl hpa h3 _) h4
      | gt => exact wf_mk h1 h3 (ihr hpa h4 _)
      | eq => exact ⟨h1, h2, h3, h4⟩
    · rename_i hpa
      have hw : Wf p (.node a l k w r) := ⟨Nat.le_of_lt (Nat.lt_of_not_le hpa), h2, h3, h4⟩
      obtain ⟨i1, i2, i3⟩ := wf_splitA c hw i
      exact wf_mk hp i1 i3

theorem removeA_spec (c : Nat → K → Ordering) (t : TTree K V) (i : Nat) :
    ∃ a b, t.toList = a ++ (removeA c i t).2.toList ++ b ∧ (removeA c i t).1.toList = a ++ b ∧
      ∀ e, (removeA c i t).2 = some e → ∃ j, c j e.1 = .eq := by
  induction t generalizing i with
  | nil => exact ⟨[], [], rfl, rfl, by simp [removeA]⟩
  | node an l x w r ihl ihr =>
    simp only [removeA]
    cases hc : c i x with
    | lt =>
      obtain ⟨a, b, h1, h2, h3⟩ := ihl (i + 1)
      exact ⟨a, b ++ (x, w) :: r.toList, by simp [h1], by simp [h2], h3⟩
    | gt =>
      obtain ⟨a, b, h1, h2, h3⟩ := ihr (i + 1)
      exact ⟨l.toList ++ (x, w) :: a, b, by simp [h1], by simp [h2], h3⟩
    | eq => exact ⟨l.toList, r.toList, by simp, by simp [toList_merge], by simpa using ⟨i, hc⟩⟩

theorem wf_removeA {b : Nat} (c : Nat → K → Ordering) {t : TTree K V} (h : Wf b t) (i : Nat) :
    Wf b (removeA c i t).1 := by
  induction t generalizing b i with
  | nil => trivial
  | node a l k w r ihl ihr =>
    rw [wf_node] at h
    obtain ⟨h1, h2, h3, h4⟩ := h
    simp only [removeA]
    cases c i k with
    | lt => exact wf_mk h1 (ihl h3 _) h4
    | gt => exact wf_mk h1 h3 (ihr h4 _)
    | eq => exact wf_merge (h3.mono h1) (h4.mono h1)

theorem wf_getMutA {b : Nat} (c : Nat → K → Ordering) {f : V → V} {t : TTree K V} (h : Wf b t) (i : Nat) :
    Wf b (t.getMutA c f i).2 ∧ len (t.getMutA c f i).2 = len t := by
  induction t generalizing b i with
  | nil => exact ⟨trivial, rfl⟩
  | node a l k w r ihl ihr =>
    rw [wf_node] at h
    obtain ⟨h1, h2, h3, h4⟩ := h
    simp only [Tree.getMutA]
    cases c i k with
    | lt =>
      obtain ⟨i1, i2⟩ := ihl h3 (i + 1)
      exact ⟨⟨h1, by rw [i2]; exact h2, i1, h4⟩, rfl⟩
    | gt =>
      obtain ⟨i1, i2⟩ := ihr h4 (i + 1)
      exact ⟨⟨h1, by rw [i2]; exact h2, h3, i1⟩, rfl⟩
    | eq => exact ⟨⟨h1, h2, h3, h4⟩, rfl⟩

theorem stepA_keeps (m : TreapMap K V) (op : TCall K V) (d : Nat) (hw : ∃ b, Wf b m.tree) :
    ∃ m' r, stepA m op d = some (m', r) ∧ op.Keeps m.tree.toList r m'.tree.toList ∧ ∃ b, Wf b m'.tree := by
  obtain ⟨b, hb⟩ := hw
  have hread : Reads op → ∃ m' r, some (m, readA m.tree (len m.tree) op) = some (m', r) ∧
      op.Keeps m.tree.toList r m'.tree.toList ∧ ∃ b, Wf b m'.tree := fun h =>
    ⟨_, _, rfl, len_eq hb ▸ readA_keeps m.tree h, b, hb⟩
  cases op with
  | insert k v c =>
    obtain ⟨x, y, h1, h2, h3⟩ := insertA_spec c.cmp d k v m.tree 0
    exact ⟨_, _, rfl, ⟨x, _, y, rfl, h1, h2, fun e he => (h3 e he).imp fun _ h => .inl h⟩, max b d,
      wf_insertA c.cmp (le_max_right _ _) (hb.mono (le_max_left _ _)) 0⟩
  | remove c =>
    obtain ⟨x, y, h1, h2, h3⟩ := removeA_spec c.cmp m.tree 0
    exact ⟨_, _, rfl, ⟨x, _, y, rfl, h1, h2, fun e he => (h3 e he).imp fun _ h => .inl h⟩, b,
      wf_removeA c.cmp hb 0⟩
  | getMut c f =>
    refine ⟨_, _, rfl, ?_, b, (wf_getMutA c.cmp hb 0).1⟩
    rcases Tree.getMutA_spec c.cmp f m.tree 0 with ⟨h1, h2⟩ | ⟨a, k, v, b, h1, h2, h3, j, h4⟩
    · exact .inl ⟨by simp [h1], by simp [h2]⟩
    · exact .inr ⟨a, k, v, b, by simp [h1], h2, h3, j, .inl h4⟩
  | clear => exact ⟨_, _, rfl, ⟨rfl, rfl⟩, 0, trivial⟩
  | get | floor | ceil | min | max | len | iter => exact hread trivial

/-- C79 for `TreapMap`: whatever the comparisons answer and whatever priorities are drawn, no call panics, no entry gets
lost and none is doubled. -/
theorem C79_treap (ops : List (TCall K V × Nat)) :
    ∃ m h, (lawless K V).run (lawless K V).empty ops = some (m, h) ∧ h.map Prod.fst = ops.map Prod.fst ∧
      TRuns TCall.Keeps [] h (Iter.start m.tree).collect ∧ len m.tree = (Iter.start m.tree).collect.length := by
  obtain ⟨m, h, l, h1, h2, h3, h4, b, h5⟩ := TImpl.run_all (lawless K V) TCall.Keeps
    (fun m l => m.tree.toList = l ∧ ∃ b, Wf b m.tree)
    (fun m l op d ⟨hg, hl⟩ => by
      obtain ⟨m', r, e1, e2, e3⟩ := stepA_keeps m op d hl
      exact ⟨m', r, _, e1, hg ▸ e2, rfl, e3⟩)
    ops (lawless K V).empty [] ⟨rfl, 0, trivial⟩
  refine ⟨m, h, h1, h2, ?_, ?_⟩
  · rw [Iter.collect_start, h4]; exact h3
  · rw [Iter.collect_start, len_eq h5]

section Lawful
variable [LinearOrder K]

theorem splitA_lawful (k : K) (t : TTree K V) (i : Nat) : splitA (TAnswers.lawful k).cmp i t = split k t := by
  induction t generalizing i with
  | nil => rfl
  | node a l x v r ihl ihr =>
    simp only [splitA, split, TAnswers.lawful] at ihl ihr ⊢
    split_ifs <;> simp_all

theorem insertA_lawful (p : Nat) (k : K) (v : V) (t : TTree K V) (i : Nat) :
    insertA (TAnswers.lawful k).cmp p k v i t = insert p k v t := by
  induction t generalizing i with
  | nil => rfl
  | node a l x w r ihl ihr =>
    simp only [insertA, insert, insertAbove, splitA_lawful]
    rw [ihl, ihr]
    simp only [TAnswers.lawful]
    split_ifs <;> rfl

theorem removeA_lawful (k : K) (t : TTree K V) (i : Nat) :
    removeA (TAnswers.lawful k).cmp i t = remove k t := by
  induction t generalizing i with
  | nil => rfl
  | node a l x v r ihl ihr =>
    simp only [removeA, remove, TAnswers.lawful] at ihl ihr ⊢
    split_ifs <;> simp_all

/-- With the answers of an ordered key type the calls are those of the model used everywhere else. -/
theorem C79_treap_covers_lawful (m : TreapMap K V) (op : MapOp K V) (c : TCall K V) (p : Nat)
    (h : TCall.ofOp op = some c) : (stepA m c p).map (fun p => (p.1, p.2.toRes)) = step m op p := by
  cases op <;> simp only [TCall.ofOp, Option.some.injEq, reduceCtorEq] at h <;> subst h <;>
    simp only [stepA, step, readA, insertA_lawful, removeA_lawful, Tree.getA_lawful,
      Tree.floorA_lawful, Tree.ceilA_lawful, Tree.getMutA_lawful, Option.map_some, LRes.toRes]

end Lawful

/-- Answers that obey no law: every other comparison says `Less`, the others `Greater`, and the third `Equal`. -/
def oddAnswers : TAnswers Nat :=
  ⟨fun i _ => if i = 2 then .eq else if i % 2 = 0 then .lt else .gt, fun i _ => i % 2 == 0, fun i _ => i % 3 == 1⟩

/-- Calls with such answers, with some priorities. -/
def oddCalls : List (TCall Nat Nat × Nat) :=
  [(.insert 1 10 oddAnswers, 5), (.insert 2 20 oddAnswers, 3), (.insert 1 30 oddAnswers, 2),
    (.insert 4 40 oddAnswers, 9), (.insert 0 50 oddAnswers, 1), (.insert 0 60 oddAnswers, 1),
    (.remove oddAnswers, 0), (.iter, 0), (.len, 0)]

/-- Key 1 gets into the map twice, until 4 replaces one of them. -/
example : ((lawless Nat Nat).run (lawless Nat Nat).empty oddCalls).map (fun p => p.2.map (·.2)) =
    some [.pair none, .pair none, .pair none, .pair (some (1, 30)), .pair none, .pair (some (0, 50)),
      .pair (some (0, 60)), .list [(2, 20), (4, 40), (1, 10)], .num 3] := by decide +kernel

end Verif.Treap
