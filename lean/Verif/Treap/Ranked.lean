/- `TreapMap` with keys that are compared by rank (C82). -/
import Verif.Treap.Lawless
import Verif.Treap.Props
import Verif.Bst.Ranked

namespace Verif.Treap

open Verif.Bst Verif.Spec

variable {K V L : Type} (rank : K → L)

@[simp] theorem len_tag (t : TTree K V) : len (t.tag rank) = len t := by cases t <;> rfl

theorem mk_tag (p : Nat) (l : TTree K V) (k : K) (v : V) (r : TTree K V) :
    mk p (l.tag rank) (rank k) (k, v) (r.tag rank) = (mk p l k v r).tag rank := by simp [mk]

theorem merge_tag (l r : TTree K V) : merge (l.tag rank) (r.tag rank) = (merge l r).tag rank := by
  induction l generalizing r with
  | nil => rfl
  | node a ll k v lr _ ihr =>
    induction r with
    | nil => rfl
    | node b rl x w rr ihl _ =>
      simp only [Tree.tag_node, merge, mergeInto] at ihl ⊢
      split
      · have := ihr (.node b rl x w rr)
        simp only [Tree.tag_node] at this
        rw [this, mk_tag]
      · rw [ihl, mk_tag]

theorem splitA_tag (c : Nat → L → Ordering) (t : TTree K V) (i : Nat) :
    splitA c i (t.tag rank) =
      ((splitA (fun i x => c i (rank x)) i t).1.tag rank, (splitA (fun i x => c i (rank x)) i t).2.1.tag rank,
        (splitA (fun i x => c i (rank x)) i t).2.2.tag rank) := by
  induction t generalizing i with
  | nil => rfl
  | node a l k v r ihl ihr =>
    simp only [Tree.tag_node, splitA]
    cases c i (rank k) with
    | lt => simp only [ihl, mk_tag]
    | gt => simp only [ihr, mk_tag]
    | eq => simp [mk]

theorem entry_tag (t : TTree K V) : entry (t.tag rank) = (entry t).map (tagE rank) := by cases t <;> rfl

/-- The tree and the entry that are returned, for the map of ranks. -/
def tagRet (p : TTree K V × Option (K × V)) : TTree L (K × V) × Option (L × (K × V)) :=
  (p.1.tag rank, p.2.map (tagE rank))

theorem insertA_tag (c : Nat → L → Ordering) (p : Nat) (k : K) (v : V) (t : TTree K V) (i : Nat) :
    insertA c p (rank k) (k, v) i (t.tag rank) = tagRet rank (insertA (fun i x => c i (rank x)) p k v i t) := by
  induction t generalizing i with
  | nil => rfl
  | node a l x w r ihl ihr =>
    have hs := splitA_tag rank c (.node a l x w r) i
    simp only [Tree.tag_node] at hs
    simp only [Tree.tag_node, insertA, hs]
    split
    · cases c i (rank x) with
      | lt => simp only [ihl, tagRet, mk_tag]
      | gt => simp only [ihr, tagRet, mk_tag]
      | eq => rfl
    · simp only [tagRet, mk_tag, entry_tag]

theorem removeA_tag (c : Nat → L → Ordering) (t : TTree K V) (i : Nat) :
    removeA c i (t.tag rank) = tagRet rank (removeA (fun i x => c i (rank x)) i t) := by
  induction t generalizing i with
  | nil => rfl
  | node a l x w r ihl ihr =>
    simp only [Tree.tag_node, removeA]
    cases c i (rank x) with
    | lt => simp only [ihl, tagRet, mk_tag]
    | gt => simp only [ihr, tagRet, mk_tag]
    | eq => simp only [tagRet, merge_tag]; rfl

/-- The map of ranks. -/
def tagMap (m : TreapMap K V) : TreapMap L (K × V) := ⟨m.tree.tag rank⟩

theorem stepA_tag [LinearOrder L] (m : TreapMap K V) (op : RankOp K V) (d : Nat) :
    StepTag rank (tagMap rank) (stepA m (op.call rank) d) (stepA (tagMap rank m) (tagCall rank op) d) := by
  have hread : ∀ h : Reads (op.call rank), StepTag rank (tagMap rank)
      (some (m, readA m.tree (len m.tree) (op.call rank)))
      (some (tagMap rank m, readA (tagMap rank m).tree (len (tagMap rank m).tree) (tagCall rank op))) := fun h =>
    ⟨_, rfl, by rw [tagMap, len_tag]; exact readA_tag rank m.tree (len m.tree) op h⟩
  cases op with
  | insert k v =>
    simp only [RankOp.call, tagCall, stepA, tagMap, insertA_tag, cmp_ranked]
    exact ⟨_, rfl, rfl⟩
  | remove k =>
    simp only [RankOp.call, tagCall, stepA, tagMap, removeA_tag, cmp_ranked]
    exact ⟨_, rfl, rfl⟩
  | getMut k f =>
    simp only [RankOp.call, tagCall, stepA, tagMap, Tree.getMutA_tag, cmp_ranked]
    exact ⟨_, rfl, _, rfl, by rw [Option.map_map, Option.map_map]; rfl⟩
  | clear => exact ⟨_, rfl, rfl⟩
  | get | floor | ceil | min | max | len | iter => exact hread trivial

theorem holds_of_represents [LinearOrder L] {m : TreapMap K V} {M : AMap L (K × V)}
    (h : (impl L (K × V)).Represents (tagMap rank m) M) :
    RankRepresents rank (fun m op (d : Nat) => stepA m (op.call rank) d) m M := by
  refine rankRepresents_tree (tagMap rank) (fun s op c d h => C79_treap_covers_lawful s op c d h)
    (stepA_tag rank) (·.tree) (fun m => len m.tree) (fun s op d h => ?_) h
  cases op <;> first | rfl | exact absurd h id

/-- C82 for `TreapMap`: with keys that are compared by their rank it is a map with one entry per rank. -/
theorem C82_treap [LinearOrder L] : RankCorrect rank (⟨.nil⟩ : TreapMap K V) fun m op d => stepA m (op.call rank) d :=
  holds_of_represents rank (C04_treap_history L (K × V))

/-- Keys with the same tens compare equal: the last `insert` replaces the key 14 by 17 and hands 14 out; `get_mut` and
`remove` with 12 work on the entry of 17. -/
example : (runRanked (fun m op d => stepA m (op.call fun n => n / 10) d)
    (⟨.nil⟩ : TreapMap Nat String)
    [(.insert 14 "a", 7), (.insert 31 "b", 7), (.insert 17 "c", 7), (.floor 29, 7), (.ceil 28, 7),
      (.getMut 12 fun v => v ++ "!", 7), (.remove 12, 7), (.min, 7), (.len, 7)]).map
      (fun p => p.2.map (·.2)) =
    some [.pair none, .pair none, .pair (some (14, "a")), .key (some 17), .key (some 31), .val (some "c"),
      .pair (some (17, "c!")), .key (some 31), .num 1] := by decide +kernel

end Verif.Treap
