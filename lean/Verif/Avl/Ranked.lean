/- `AvlMap` with keys that are compared by rank (C82). -/
import Verif.Avl.Lawless
import Verif.Avl.Props
import Verif.Bst.Ranked

namespace Verif.Avl

open Verif.Bst Verif.Spec

variable {K V L : Type} (rank : K → L)

@[simp] theorem height_tag (t : ATree K V) : height (t.tag rank) = height t := by cases t <;> rfl

theorem update_tag (l : ATree K V) (k : K) (v : V) (r : ATree K V) :
    update (l.tag rank) (rank k) (k, v) (r.tag rank) = (update l k v r).tag rank := by simp [update]

theorem nodeBalance_tag (l r : ATree K V) : nodeBalance (l.tag rank) (r.tag rank) = nodeBalance l r := by
  simp [nodeBalance]

theorem rotateLeft_tag (l : ATree K V) (k : K) (v : V) (r : ATree K V) :
    rotateLeft (l.tag rank) (rank k) (k, v) (r.tag rank) = (rotateLeft l k v r).map (·.tag rank) := by
  cases r <;> simp [rotateLeft, update_tag]

theorem rotateRight_tag (l : ATree K V) (k : K) (v : V) (r : ATree K V) :
    rotateRight (l.tag rank) (rank k) (k, v) (r.tag rank) = (rotateRight l k v r).map (·.tag rank) := by
  cases l <;> simp [rotateRight, update_tag]

theorem fixLeft_tag (t : ATree K V) : fixLeft (t.tag rank) = (fixLeft t).map (·.tag rank) := by
  cases t with
  | nil => rfl
  | node h l k v r =>
    simp only [Tree.tag_node, fixLeft, nodeBalance_tag, rotateLeft_tag]
    split <;> simp

theorem fixRight_tag (t : ATree K V) : fixRight (t.tag rank) = (fixRight t).map (·.tag rank) := by
  cases t with
  | nil => rfl
  | node h l k v r =>
    simp only [Tree.tag_node, fixRight, nodeBalance_tag, rotateRight_tag]
    split <;> simp

theorem balance_tag (t : ATree K V) : balance (t.tag rank) = (balance t).map (·.tag rank) := by
  cases t with
  | nil => rfl
  | node h l k v r =>
    simp only [Tree.tag_node, balance, nodeBalance_tag, fixLeft_tag, fixRight_tag]
    split
    · cases fixLeft l <;> simp [rotateRight_tag]
    · split
      · cases fixRight r <;> simp [rotateLeft_tag]
      · simp [update_tag]

theorem removeMin_tag (t : ATree K V) : removeMin (t.tag rank) =
    (removeMin t).map fun p => ((p.1.1, rank p.1.2.1, (p.1.2.1, p.1.2.2)), p.2.tag rank) := by
  fun_induction removeMin t with
  | case1 => rfl
  | case2 => rfl
  | case3 h h' l' k' v' r' k v r ih =>
    simp only [Tree.tag_node] at ih ⊢
    simp only [removeMin, ih]
    cases removeMin (.node h' l' k' v' r') <;> rfl

theorem joinChildren_tag (l r : ATree K V) :
    joinChildren (l.tag rank) (r.tag rank) = (joinChildren l r).map (·.tag rank) := by
  cases l with
  | nil => rfl
  | node a l k v r' =>
    cases r with
    | nil => rfl
    | node a' l' k' v' r'' =>
      have h := removeMin_tag rank (.node a' l' k' v' r'')
      simp only [Tree.tag_node] at h
      simp only [Tree.tag_node, joinChildren, combineSubtrees, h]
      cases removeMin (.node a' l' k' v' r'') <;> rfl

/-- The tree and the entry that are returned, for the map of ranks. -/
def tagRet (p : ATree K V × Option (K × V)) : ATree L (K × V) × Option (L × (K × V)) :=
  (p.1.tag rank, p.2.map (tagE rank))

theorem insertA_tag (c : Nat → L → Ordering) (k : K) (v : V) (t : ATree K V) (i : Nat) :
    insertA c (rank k) (k, v) i (t.tag rank) =
      (insertA (fun i x => c i (rank x)) k v i t).map (tagRet rank) := by
  induction t generalizing i with
  | nil => rfl
  | node h l x w r ihl ihr =>
    simp only [Tree.tag_node, insertA]
    cases c i (rank x) with
    | lt =>
      simp only [ihl]
      cases insertA (fun i x => c i (rank x)) k v (i + 1) l with
      | none => rfl
      | some p =>
        have := balance_tag rank (.node h p.1 x w r)
        simp only [Tree.tag_node] at this
        simp only [Option.map_some, tagRet, Option.bind_eq_bind, Option.bind_some, this]
        cases balance (.node h p.1 x w r) <;> rfl
    | gt =>
      simp only [ihr]
      cases insertA (fun i x => c i (rank x)) k v (i + 1) r with
      | none => rfl
      | some p =>
        have := balance_tag rank (.node h l x w p.1)
        simp only [Tree.tag_node] at this
        simp only [Option.map_some, tagRet, Option.bind_eq_bind, Option.bind_some, this]
        cases balance (.node h l x w p.1) <;> rfl
    | eq => rfl

theorem removeA_tag (c : Nat → L → Ordering) (t : ATree K V) (i : Nat) :
    removeA c i (t.tag rank) = (removeA (fun i x => c i (rank x)) i t).map (tagRet rank) := by
  induction t generalizing i with
  | nil => rfl
  | node h l x w r ihl ihr =>
    simp only [Tree.tag_node, removeA]
    cases c i (rank x) with
    | lt =>
      simp only [ihl]
      cases removeA (fun i x => c i (rank x)) (i + 1) l with
      | none => rfl
      | some p =>
        have := balance_tag rank (.node h p.1 x w r)
        simp only [Tree.tag_node] at this
        simp only [Option.map_some, tagRet, Option.bind_eq_bind, Option.bind_some, this]
        cases balance (.node h p.1 x w r) <;> rfl
    | gt =>
      simp only [ihr]
      cases removeA (fun i x => c i (rank x)) (i + 1) r with
      | none => rfl
      | some p =>
        have := balance_tag rank (.node h l x w p.1)
        simp only [Tree.tag_node] at this
        simp only [Option.map_some, tagRet, Option.bind_eq_bind, Option.bind_some, this]
        cases balance (.node h l x w p.1) <;> rfl
    | eq =>
      simp only [joinChildren_tag]
      cases joinChildren l r with
      | none => rfl
      | some t =>
        simp only [Option.map_some, Option.bind_eq_bind, Option.bind_some, balance_tag]
        cases balance t <;> rfl

/-- The map of ranks. -/
def tagMap (m : AvlMap K V) : AvlMap L (K × V) := ⟨m.tree.tag rank, m.len⟩

theorem stepA_tag [LinearOrder L] (m : AvlMap K V) (op : RankOp K V) (d : Unit) :
    StepTag rank (tagMap rank) (stepA m (op.call rank) d) (stepA (tagMap rank m) (tagCall rank op) d) := by
  have hread : ∀ h : Reads (op.call rank), StepTag rank (tagMap rank) (some (m, readA m.tree m.len (op.call rank)))
      (some (tagMap rank m, readA (tagMap rank m).tree m.len (tagCall rank op))) := fun h =>
    ⟨_, rfl, readA_tag rank m.tree m.len op h⟩
  cases op with
  | insert k v =>
    simp only [RankOp.call, tagCall, stepA, tagMap, insertA_tag, cmp_ranked]
    cases insertA (fun i x => (TAnswers.lawful (rank k)).cmp i (rank x)) k v 0 m.tree with
    | none => rfl
    | some p =>
      obtain ⟨t, _ | e⟩ := p
      · exact ⟨_, rfl, rfl⟩
      · exact ⟨_, rfl, rfl⟩
  | remove k =>
    simp only [RankOp.call, tagCall, stepA, tagMap, removeA_tag, cmp_ranked]
    cases removeA (fun i x => (TAnswers.lawful (rank k)).cmp i (rank x)) 0 m.tree with
    | none => rfl
    | some p =>
      obtain ⟨t, _ | e⟩ := p
      · exact ⟨_, rfl, rfl⟩
      · cases h : decr m.len with
        | none => simp [StepTag, tagRet]
        | some n => simp only [Option.map_some, tagRet, Option.bind_eq_bind, Option.bind_some]; exact ⟨_, rfl, rfl⟩
  | getMut k f =>
    simp only [RankOp.call, tagCall, stepA, tagMap, Tree.getMutA_tag, cmp_ranked]
    exact ⟨_, rfl, _, rfl, by rw [Option.map_map, Option.map_map]; rfl⟩
  | clear => exact ⟨_, rfl, rfl⟩
  | get | floor | ceil | min | max | len | iter => exact hread trivial

/-- C82 for `AvlMap`: with keys that are compared by their rank it is a map with one entry per rank. -/
theorem C82_avl [LinearOrder L] : RankCorrect rank (⟨.nil, 0⟩ : AvlMap K V) fun m op d => stepA m (op.call rank) d := by
  refine rankRepresents_tree (tagMap rank) (fun s op c _ h => C79_avl_covers_lawful s op c h)
    (stepA_tag rank) (·.tree) (·.len) (fun s op d h => ?_) (C01_avl_history L (K × V))
  cases op <;> first | rfl | exact absurd h id

/-- Keys with the same tens compare equal: the last `insert` replaces the key 14 by 17 and hands 14 out; `get_mut` and
`remove` with 12 work on the entry of 17. -/
example : (runRanked (fun m op d => stepA m (op.call fun n => n / 10) d)
    (⟨.nil, 0⟩ : AvlMap Nat String)
    [(.insert 14 "a", ()), (.insert 31 "b", ()), (.insert 17 "c", ()), (.floor 29, ()), (.ceil 28, ()),
      (.getMut 12 fun v => v ++ "!", ()), (.remove 12, ()), (.min, ()), (.len, ())]).map
      (fun p => p.2.map (·.2)) =
    some [.pair none, .pair none, .pair (some (14, "a")), .key (some 17), .key (some 31), .val (some "c"),
      .pair (some (17, "c!")), .key (some 31), .num 1] := by decide +kernel

end Verif.Avl
