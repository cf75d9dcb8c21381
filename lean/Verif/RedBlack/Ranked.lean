/- `RedBlackMap` with keys that are compared by rank (C82). -/
import Verif.RedBlack.Lawless
import Verif.RedBlack.Props
import Verif.Bst.Ranked

namespace Verif.RedBlack

open Verif.Bst Verif.Spec

variable {K V L : Type} (rank : K → L)

@[simp] theorem isRed_tag (t : RTree K V) : isRed (t.tag rank) = isRed t := by cases t <;> rfl
@[simp] theorem isNil_tag (t : RTree K V) : isNil (t.tag rank) = isNil t := by cases t <;> rfl
theorem left_tag (t : RTree K V) : left (t.tag rank) = (left t).tag rank := by cases t <;> rfl
theorem right_tag (t : RTree K V) : right (t.tag rank) = (right t).tag rank := by cases t <;> rfl
theorem flipChild_tag (t : RTree K V) : flipChild (t.tag rank) = (flipChild t).tag rank := by cases t <;> rfl
@[simp] theorem needShift_tag (t : RTree K V) : needShift (t.tag rank) = needShift t := by
  cases t with
  | nil => rfl
  | node => simp [needShift]

theorem flipColors_tag (t : RTree K V) : flipColors (t.tag rank) = (flipColors t).tag rank := by
  cases t with
  | nil => rfl
  | node => simp [flipColors, flipChild_tag]

theorem rotateLeft_tag (t : RTree K V) : rotateLeft (t.tag rank) = (rotateLeft t).map (·.tag rank) := by
  cases t with
  | nil => rfl
  | node c l k v r => cases r <;> rfl

theorem rotateRight_tag (t : RTree K V) : rotateRight (t.tag rank) = (rotateRight t).map (·.tag rank) := by
  cases t with
  | nil => rfl
  | node c l k v r => cases l <;> rfl

theorem leanLeft_tag (t : RTree K V) : leanLeft (t.tag rank) = (leanLeft t).map (·.tag rank) := by
  unfold leanLeft
  rw [right_tag, isRed_tag, rotateLeft_tag]
  split <;> rfl

theorem leanLeftInsert_tag (t : RTree K V) : leanLeftInsert (t.tag rank) = (leanLeftInsert t).map (·.tag rank) := by
  unfold leanLeftInsert
  rw [right_tag, left_tag, isRed_tag, isRed_tag, rotateLeft_tag]
  split <;> rfl

theorem unstackLeft_tag (t : RTree K V) : unstackLeft (t.tag rank) = (unstackLeft t).map (·.tag rank) := by
  unfold unstackLeft leftLeftRed
  rw [left_tag, left_tag, isRed_tag, isRed_tag, rotateRight_tag]
  split <;> rfl

theorem splitFour_tag (t : RTree K V) : splitFour (t.tag rank) = (splitFour t).tag rank := by
  unfold splitFour
  rw [left_tag, right_tag, isRed_tag, isRed_tag, flipColors_tag]
  split <;> rfl

theorem balance_tag (t : RTree K V) : balance (t.tag rank) = (balance t).map (·.tag rank) := by
  unfold balance
  rw [leanLeft_tag]
  cases leanLeft t with
  | none => rfl
  | some t =>
    simp only [Option.map_some, Option.bind_eq_bind, Option.bind_some, unstackLeft_tag]
    cases unstackLeft t with
    | none => rfl
    | some t => simp [splitFour_tag]

theorem fixInsert_tag (t : RTree K V) : fixInsert (t.tag rank) = (fixInsert t).map (·.tag rank) := by
  unfold fixInsert
  rw [leanLeftInsert_tag]
  cases leanLeftInsert t with
  | none => rfl
  | some t =>
    simp only [Option.map_some, Option.bind_eq_bind, Option.bind_some, unstackLeft_tag]
    cases unstackLeft t with
    | none => rfl
    | some t => simp [splitFour_tag]

theorem shiftLeft_tag (t : RTree K V) : shiftLeft (t.tag rank) = (shiftLeft t).map (·.tag rank) := by
  unfold shiftLeft
  rw [flipColors_tag]
  cases flipColors t with
  | nil => rfl
  | node c l k v r =>
    simp only [Tree.tag_node, left_tag, isRed_tag, rotateRight_tag]
    split
    · cases rotateRight r with
      | none => rfl
      | some r =>
        have h := rotateLeft_tag rank (.node c l k v r)
        simp only [Tree.tag_node] at h
        simp only [Option.map_some, Option.bind_eq_bind, Option.bind_some, h]
        cases rotateLeft (.node c l k v r) with
        | none => rfl
        | some t => simp [flipColors_tag]
    · rfl

theorem shiftRight_tag (t : RTree K V) : shiftRight (t.tag rank) = (shiftRight t).map (·.tag rank) := by
  unfold shiftRight
  simp only [flipColors_tag, left_tag, isRed_tag, rotateRight_tag]
  split
  · cases rotateRight (flipColors t) with
    | none => rfl
    | some t => simp [flipColors_tag]
  · rfl

theorem moveLeft_tag (t : RTree K V) : moveLeft (t.tag rank) = (moveLeft t).map (·.tag rank) := by
  unfold moveLeft
  rw [left_tag, needShift_tag, shiftLeft_tag]
  split <;> rfl

theorem moveRight₁_tag (t : RTree K V) : moveRight₁ (t.tag rank) = (moveRight₁ t).map (·.tag rank) := by
  unfold moveRight₁
  rw [left_tag, isRed_tag, rotateRight_tag]
  split <;> rfl

theorem moveRight₂_tag (t : RTree K V) : moveRight₂ (t.tag rank) = (moveRight₂ t).map (·.tag rank) := by
  unfold moveRight₂
  rw [right_tag, needShift_tag, shiftRight_tag]
  split <;> rfl

theorem removeMin_tag (n : Nat) : ∀ t : RTree K V,
    removeMin n (t.tag rank) = (removeMin n t).map fun p => (tagE rank p.1, p.2.tag rank) := by
  induction n with
  | zero => intro t; cases t <;> rfl
  | succ n ih =>
    intro t
    cases t with
    | nil => rfl
    | node c l k v r =>
      cases l with
      | nil => rfl
      | node cl ll lk lv lr =>
        have h := moveLeft_tag rank (.node c (.node cl ll lk lv lr) k v r)
        simp only [Tree.tag_node] at h
        simp only [Tree.tag_node, removeMin, h]
        cases moveLeft (.node c (.node cl ll lk lv lr) k v r) with
        | none => rfl
        | some t =>
          cases t with
          | nil => rfl
          | node c l k v r =>
            simp only [Option.map_some, Option.bind_eq_bind, Option.bind_some, Tree.tag_node, ih]
            cases removeMin n l with
            | none => rfl
            | some p =>
              have h := balance_tag rank (.node c p.2 k v r)
              simp only [Tree.tag_node] at h
              simp only [Option.map_some, Option.bind_some, h]
              cases balance (.node c p.2 k v r) <;> rfl

theorem combineSubtrees_tag (l r : RTree K V) (c : Color) :
    combineSubtrees (l.tag rank) (r.tag rank) c = (combineSubtrees l r c).map (·.tag rank) := by
  unfold combineSubtrees
  rw [Tree.size_tag, removeMin_tag]
  cases removeMin (r.size + 1) r <;> rfl

theorem fixRoot_tag (t : RTree K V) : fixRoot (t.tag rank) = (fixRoot t).tag rank := by
  cases t with
  | nil => rfl
  | node c l k v r =>
    simp only [Tree.tag_node, fixRoot, isRed_tag]
    split <;> rfl

theorem blacken_tag (t : RTree K V) : blacken (t.tag rank) = (blacken t).tag rank := by cases t <;> rfl

/-- The tree and the entry that are returned, for the map of ranks. -/
def tagRet (p : RTree K V × Option (K × V)) : RTree L (K × V) × Option (L × (K × V)) :=
  (p.1.tag rank, p.2.map (tagE rank))

theorem insertA_tag (c : Nat → L → Ordering) (k : K) (v : V) (t : RTree K V) (i : Nat) :
    insertA c (rank k) (k, v) i (t.tag rank) = (insertA (fun i x => c i (rank x)) k v i t).map (tagRet rank) := by
  induction t generalizing i with
  | nil => rfl
  | node d l x w r ihl ihr =>
    simp only [Tree.tag_node, insertA]
    cases c i (rank x) with
    | lt =>
      simp only [ihl]
      cases insertA (fun i x => c i (rank x)) k v (i + 1) l with
      | none => rfl
      | some p =>
        have h := fixInsert_tag rank (.node d p.1 x w r)
        simp only [Tree.tag_node] at h
        simp only [Option.map_some, Option.bind_eq_bind, Option.bind_some, tagRet, h]
        cases fixInsert (.node d p.1 x w r) <;> rfl
    | gt =>
      simp only [ihr]
      cases insertA (fun i x => c i (rank x)) k v (i + 1) r with
      | none => rfl
      | some p =>
        have h := fixInsert_tag rank (.node d l x w p.1)
        simp only [Tree.tag_node] at h
        simp only [Option.map_some, Option.bind_eq_bind, Option.bind_some, tagRet, h]
        cases fixInsert (.node d l x w p.1) <;> rfl
    | eq =>
      have h := fixInsert_tag rank (.node d l k v r)
      simp only [Tree.tag_node] at h
      simp only [Option.bind_eq_bind, h]
      cases fixInsert (.node d l k v r) <;> rfl

/-- The answers for a key with that rank. -/
def pull (c : TAnswers L) : TAnswers K := ⟨fun i x => c.cmp i (rank x), fun i x => c.lt i (rank x), fun i x => c.eq i (rank x)⟩

theorem removeA_tag (c : TAnswers L) (n : Nat) : ∀ (i : Nat) (t : RTree K V),
    removeA c n i (t.tag rank) = (removeA (pull rank c) n i t).map (tagRet rank) := by
  induction n with
  | zero => intro i t; cases t <;> rfl
  | succ n ih =>
    intro i t
    cases t with
    | nil => rfl
    | node d l x w r =>
      have hm := moveLeft_tag rank (.node d l x w r)
      have hr := moveRight₁_tag rank (.node d l x w r)
      simp only [Tree.tag_node] at hm hr
      simp only [Tree.tag_node, removeA, hm, hr]
      have hlt : (pull rank c).lt i x = c.lt i (rank x) := rfl
      rw [hlt]
      split
      · cases moveLeft (.node d l x w r) with
        | none => rfl
        | some t =>
          cases t with
          | nil => rfl
          | node d l x w r =>
            simp only [Option.map_some, Option.bind_eq_bind, Option.bind_some, Tree.tag_node, ih]
            cases removeA (pull rank c) n (i + 1) l with
            | none => rfl
            | some p =>
              have h := balance_tag rank (.node d p.1 x w r)
              simp only [Tree.tag_node] at h
              simp only [Option.map_some, Option.bind_some, tagRet, h]
              cases balance (.node d p.1 x w r) <;> rfl
      · cases moveRight₁ (.node d l x w r) with
        | none => rfl
        | some t =>
          cases t with
          | nil => rfl
          | node d l x w r =>
            simp only [Option.map_some, Option.bind_eq_bind, Option.bind_some, Tree.tag_node, isNil_tag]
            have he : (pull rank c).eq (2 * i) x = c.eq (2 * i) (rank x) := rfl
            rw [he]
            split
            · split <;> rfl
            · have h2 := moveRight₂_tag rank (.node d l x w r)
              simp only [Tree.tag_node] at h2
              rw [h2]
              cases moveRight₂ (.node d l x w r) with
              | none => rfl
              | some t =>
                cases t with
                | nil => rfl
                | node d l x w r =>
                  simp only [Option.map_some, Option.bind_some, Tree.tag_node]
                  have he : (pull rank c).eq (2 * i + 1) x = c.eq (2 * i + 1) (rank x) := rfl
                  rw [he]
                  split
                  · rw [combineSubtrees_tag]
                    cases combineSubtrees l r d with
                    | none => rfl
                    | some t =>
                      simp only [Option.map_some, Option.bind_some, balance_tag]
                      cases balance t <;> rfl
                  · rw [ih]
                    cases removeA (pull rank c) n (i + 1) r with
                    | none => rfl
                    | some p =>
                      have h := balance_tag rank (.node d l x w p.1)
                      simp only [Tree.tag_node] at h
                      simp only [Option.map_some, Option.bind_some, tagRet, h]
                      cases balance (.node d l x w p.1) <;> rfl

/-- The map of ranks. -/
def tagMap (m : RedBlackMap K V) : RedBlackMap L (K × V) := ⟨m.tree.tag rank, m.len⟩

theorem pull_ranked [LinearOrder L] (k : K) : TAnswers.ranked rank k = pull rank (.lawful (rank k)) := rfl

theorem stepA_tag [LinearOrder L] (m : RedBlackMap K V) (op : RankOp K V) (d : Unit) :
    StepTag rank (tagMap rank) (stepA m (op.call rank) d) (stepA (tagMap rank m) (tagCall rank op) d) := by
  have hread : ∀ h : Reads (op.call rank), StepTag rank (tagMap rank) (some (m, readA m.tree m.len (op.call rank)))
      (some (tagMap rank m, readA (tagMap rank m).tree m.len (tagCall rank op))) := fun h =>
    ⟨_, rfl, readA_tag rank m.tree m.len op h⟩
  cases op with
  | insert k v =>
    simp only [RankOp.call, tagCall, stepA, tagMap, insertA_tag, cmp_ranked]
    cases insertA (fun i x => (TAnswers.lawful (rank k)).cmp i (rank x)) k v 0 m.tree with
    | none => rfl
    | some p =>
      obtain ⟨t, _ | e⟩ := p
      · simp only [Option.map_some, Option.bind_eq_bind, Option.bind_some, tagRet, Option.map_none, blacken_tag]
        exact ⟨_, rfl, rfl⟩
      · simp only [Option.map_some, Option.bind_eq_bind, Option.bind_some, tagRet, decr, blacken_tag]
        exact ⟨_, rfl, rfl⟩
  | remove k =>
    simp only [RankOp.call, tagCall, stepA, tagMap, fixRoot_tag, removeA_tag, pull_ranked, Tree.size_tag]
    cases removeA (pull rank (.lawful (rank k))) (m.tree.size + 1) 0 (fixRoot m.tree) with
    | none => rfl
    | some p =>
      obtain ⟨t, _ | e⟩ := p
      · simp only [Option.map_some, Option.bind_eq_bind, Option.bind_some, tagRet, Option.map_none, blacken_tag]
        exact ⟨_, rfl, rfl⟩
      · simp only [Option.map_some, Option.bind_eq_bind, Option.bind_some, tagRet, blacken_tag]
        cases decr m.len with
        | none => rfl
        | some n => exact ⟨_, rfl, rfl⟩
  | getMut k f =>
    simp only [RankOp.call, tagCall, stepA, tagMap, Tree.getMutA_tag, cmp_ranked]
    exact ⟨_, rfl, _, rfl, by rw [Option.map_map, Option.map_map]; rfl⟩
  | clear => exact ⟨_, rfl, rfl⟩
  | get | floor | ceil | min | max | len | iter => exact hread trivial

/-- C82 for `RedBlackMap`: with keys that are compared by their rank it is a map with one entry per rank. -/
theorem C82_red_black [LinearOrder L] :
    RankCorrect rank (⟨.nil, 0⟩ : RedBlackMap K V) fun m op d => stepA m (op.call rank) d := by
  refine rankRepresents_tree (tagMap rank)
    (fun s op c _ h => C79_red_black_covers_lawful s op c h)
    (stepA_tag rank) (·.tree) (·.len) (fun s op d h => ?_) (C02_rb_history L (K × V))
  cases op <;> first | rfl | exact absurd h id

/-- Keys with the same tens compare equal: the last `insert` replaces the key 14 by 17 and hands 14 out; `get_mut` and
`remove` with 12 work on the entry of 17. -/
example : (runRanked (fun m op d => stepA m (op.call fun n => n / 10) d)
    (⟨.nil, 0⟩ : RedBlackMap Nat String)
    [(.insert 14 "a", ()), (.insert 31 "b", ()), (.insert 17 "c", ()), (.floor 29, ()), (.ceil 28, ()),
      (.getMut 12 fun v => v ++ "!", ()), (.remove 12, ()), (.min, ()), (.len, ())]).map
      (fun p => p.2.map (·.2)) =
    some [.pair none, .pair none, .pair (some (14, "a")), .key (some 17), .key (some 31), .val (some "c"),
      .pair (some (17, "c!")), .key (some 31), .num 1] := by decide +kernel

end Verif.RedBlack
