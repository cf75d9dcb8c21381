/- `SplayMap` with keys that are compared by rank (C82). -/
import Verif.Splay.Lawless
import Verif.Splay.Props
import Verif.Bst.Ranked

namespace Verif.Splay

open Verif.Bst Verif.Spec

variable {K V L : Type} (rank : K → L)

/-- Frames of the map of ranks. -/
def tagL (fs : FramesL K V) : FramesL L (K × V) := fs.map fun f => (f.1.tag rank, rank f.2.1, (f.2.1, f.2.2))
/-- Frames of the map of ranks. -/
def tagR (fs : FramesR K V) : FramesR L (K × V) := fs.map fun f => (rank f.1, (f.1, f.2.1), f.2.2.tag rank)

theorem fillL_tag (t : STree K V) (fs : FramesL K V) : fillL (t.tag rank) (tagL rank fs) = (fillL t fs).tag rank := by
  induction fs generalizing t with
  | nil => rfl
  | cons f fs ih => exact ih (nd f.1 f.2.1 f.2.2 t)

theorem fillR_tag (t : STree K V) (fs : FramesR K V) : fillR (t.tag rank) (tagR rank fs) = (fillR t fs).tag rank := by
  induction fs generalizing t with
  | nil => rfl
  | cons f fs ih => exact ih (nd t f.1 f.2.1 f.2.2)

theorem finish_tag (l : STree K V) (k : K) (v : V) (r : STree K V) (ls : FramesL K V) (rs : FramesR K V) :
    finish (l.tag rank) (rank k) (k, v) (r.tag rank) (tagL rank ls) (tagR rank rs) = (finish l k v r ls rs).tag rank := by
  simp only [finish, fillL_tag, fillR_tag]; rfl

theorem splayLoopA_tag (c : Nat → L → Ordering) (n : Nat) : ∀ (t : STree K V) (i : Nat) (ls : FramesL K V)
    (rs : FramesR K V), t.size ≤ n →
    splayLoopA c i (t.tag rank) (tagL rank ls) (tagR rank rs) =
      ((splayLoopA (fun i x => c i (rank x)) i t ls rs).1.tag rank,
        (splayLoopA (fun i x => c i (rank x)) i t ls rs).2) := by
  induction n with
  | zero =>
    intro t i ls rs h
    cases t with
    | nil => rw [splayLoopA.eq_def, splayLoopA.eq_def]; rfl
    | node => simp [Tree.size] at h
  | succ n ih =>
    intro t i ls rs hsz
    cases t with
    | nil => rw [splayLoopA.eq_def, splayLoopA.eq_def]; rfl
    | node a l x v r =>
      simp only [Tree.size] at hsz
      rw [splayLoopA.eq_def, splayLoopA.eq_def (fun i x => c i (rank x))]
      simp only [Tree.tag_node]
      cases hc : c i (rank x) with
      | eq => simp only [finish_tag]
      | lt =>
        cases l with
        | nil => simp only [Tree.tag_nil]; exact Prod.ext (finish_tag rank .nil x v r ls rs) rfl
        | node b ll lk lv lr =>
          simp only [Tree.size] at hsz
          simp only [Tree.tag_node]
          split
          · cases ll with
            | nil => exact Prod.ext (finish_tag rank .nil lk lv (nd lr x v r) ls rs) rfl
            | node b' l' k' v' r' =>
              simp only [Tree.size] at hsz
              exact ih (.node () l' k' v' r') (i + 2) ls ((lk, lv, nd lr x v r) :: rs)
                (by simp only [Tree.size]; omega)
          · exact ih (.node () ll lk lv lr) (i + 2) ls ((x, v, r) :: rs) (by simp only [Tree.size]; omega)
      | gt =>
        cases r with
        | nil => simp only [Tree.tag_nil]; exact Prod.ext (finish_tag rank l x v .nil ls rs) rfl
        | node b rl rk rv rr =>
          simp only [Tree.size] at hsz
          simp only [Tree.tag_node]
          split
          · cases rr with
            | nil => exact Prod.ext (finish_tag rank (nd l x v rl) rk rv .nil ls rs) rfl
            | node b' l' k' v' r' =>
              simp only [Tree.size] at hsz
              exact ih (.node () l' k' v' r') (i + 2) ((nd l x v rl, rk, rv) :: ls) rs
                (by simp only [Tree.size]; omega)
          · exact ih (.node () rl rk rv rr) (i + 2) ((l, x, v) :: ls) rs (by simp only [Tree.size]; omega)

/-- The tree and the entry that are returned, for the map of ranks. -/
def tagRet (p : STree K V × Option (K × V)) : STree L (K × V) × Option (L × (K × V)) :=
  (p.1.tag rank, p.2.map (tagE rank))

/-- The answers for a key with that rank. -/
def pull (c : TAnswers L) : TAnswers K := ⟨fun i x => c.cmp i (rank x), fun i x => c.lt i (rank x), fun i x => c.eq i (rank x)⟩

theorem splay_tag (c : TAnswers L) (i : Nat) (t : STree K V) :
    splayLoopA c.cmp i (t.tag rank) [] [] =
      ((splayLoopA (pull rank c).cmp i t [] []).1.tag rank, (splayLoopA (pull rank c).cmp i t [] []).2) :=
  splayLoopA_tag rank c.cmp t.size t i [] [] (Nat.le_refl _)

theorem insertA_tag (c : TAnswers L) (t : STree K V) (k : K) (v : V) :
    insertA c (t.tag rank) (rank k) (k, v) = tagRet rank (insertA (pull rank c) t k v) := by
  unfold insertA
  rw [splay_tag]
  obtain ⟨t', n⟩ := splayLoopA (pull rank c).cmp 0 t [] []
  cases t' with
  | nil => rfl
  | node a l x w r =>
    simp only [Tree.tag_node]
    have : (pull rank c).cmp n x = c.cmp n (rank x) := rfl
    rw [this]
    cases c.cmp n (rank x) <;> rfl

theorem removeA_tag (c : TAnswers L) (t : STree K V) :
    removeA c (t.tag rank) = tagRet rank (removeA (pull rank c) t) := by
  unfold removeA
  rw [splay_tag]
  obtain ⟨t', n⟩ := splayLoopA (pull rank c).cmp 0 t [] []
  cases t' with
  | nil => rfl
  | node a l x w r =>
    simp only [Tree.tag_node]
    have : (pull rank c).eq n x = c.eq n (rank x) := rfl
    rw [this]
    split
    · rfl
    · cases l with
      | nil => rfl
      | node b ll lk lv lr =>
        have h := splay_tag rank c (n + 1) (nd ll lk lv lr)
        simp only [Tree.tag_node] at h ⊢
        rw [h]
        obtain ⟨t', n'⟩ := splayLoopA (pull rank c).cmp (n + 1) (nd ll lk lv lr) [] []
        cases t' <;> rfl

theorem getMutA_tag (c : TAnswers L) (t : STree K V) (f : V → V) :
    getMutA c (t.tag rank) (fun e => (e.1, f e.2)) =
      ((getMutA (pull rank c) t f).1.map (tagE rank), (getMutA (pull rank c) t f).2.tag rank) := by
  unfold getMutA
  rw [splay_tag]
  obtain ⟨t', n⟩ := splayLoopA (pull rank c).cmp 0 t [] []
  cases t' with
  | nil => rfl
  | node a l x w r =>
    simp only [Tree.tag_node]
    have : (pull rank c).eq n x = c.eq n (rank x) := rfl
    rw [this]
    split <;> rfl

/-- The map of ranks. -/
def tagMap (m : SplayMap K V) : SplayMap L (K × V) := ⟨m.tree.tag rank, m.len⟩

theorem pull_ranked [LinearOrder L] (k : K) : TAnswers.ranked rank k = pull rank (.lawful (rank k)) := rfl

theorem stepA_tag [LinearOrder L] (m : SplayMap K V) (op : RankOp K V) (d : Unit) :
    StepTag rank (tagMap rank) (stepA m (op.call rank) d) (stepA (tagMap rank m) (tagCall rank op) d) := by
  have hread : ∀ h : Reads (op.call rank), StepTag rank (tagMap rank) (some (m, readA m.tree m.len (op.call rank)))
      (some (tagMap rank m, readA (tagMap rank m).tree m.len (tagCall rank op))) := fun h =>
    ⟨_, rfl, readA_tag rank m.tree m.len op h⟩
  cases op with
  | insert k v =>
    simp only [RankOp.call, tagCall, stepA, tagMap, insertA_tag, pull_ranked]
    obtain ⟨t, _ | e⟩ := insertA (pull rank (.lawful (rank k))) m.tree k v
    · exact ⟨_, rfl, rfl⟩
    · exact ⟨_, rfl, rfl⟩
  | remove k =>
    simp only [RankOp.call, tagCall, stepA, tagMap, removeA_tag, pull_ranked]
    obtain ⟨t, _ | e⟩ := removeA (pull rank (.lawful (rank k))) m.tree
    · exact ⟨_, rfl, rfl⟩
    · simp only [tagRet, Option.map_some]
      cases h : decr m.len with
      | none => rfl
      | some n => exact ⟨_, rfl, rfl⟩
  | getMut k f =>
    simp only [RankOp.call, tagCall, stepA, tagMap, getMutA_tag, pull_ranked]
    exact ⟨_, rfl, _, rfl, by rw [Option.map_map, Option.map_map]; rfl⟩
  | clear => exact ⟨_, rfl, rfl⟩
  | get | floor | ceil | min | max | len | iter => exact hread trivial

/-- C82 for `SplayMap`: with keys that are compared by their rank it is a map with one entry per rank. -/
theorem C82_splay [LinearOrder L] : RankCorrect rank (⟨.nil, 0⟩ : SplayMap K V) fun m op d => stepA m (op.call rank) d := by
  refine rankRepresents_tree (tagMap rank) (fun s op c _ h => C79_splay_covers_lawful s op c h)
    (stepA_tag rank) (·.tree) (·.len) (fun s op d h => ?_) (C03_splay_history L (K × V))
  cases op <;> first | rfl | exact absurd h id

/-- Keys with the same tens compare equal: the last `insert` replaces the key 14 by 17 and hands 14 out; `get_mut` and
`remove` with 12 work on the entry of 17. -/
example : (runRanked (fun m op d => stepA m (op.call fun n => n / 10) d)
    (⟨.nil, 0⟩ : SplayMap Nat String)
    [(.insert 14 "a", ()), (.insert 31 "b", ()), (.insert 17 "c", ()), (.floor 29, ()), (.ceil 28, ()),
      (.getMut 12 fun v => v ++ "!", ()), (.remove 12, ()), (.min, ()), (.len, ())]).map
      (fun p => p.2.map (·.2)) =
    some [.pair none, .pair none, .pair (some (14, "a")), .key (some 17), .key (some 31), .val (some "c"),
      .pair (some (17, "c!")), .key (some 31), .num 1] := by decide +kernel

end Verif.Splay
