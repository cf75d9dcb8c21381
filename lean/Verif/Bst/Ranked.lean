/- Trees whose keys are compared by rank (C82): the same tree with the rank as key and the entry as value. -/
import Verif.Bst.Lawless
import Verif.Spec.RankedLemmas

namespace Verif.Bst

open Verif.Spec

variable {A K V L : Type}

namespace Tree

/-- The tree with the rank as key and the whole entry as value. -/
def tag (rank : K → L) : Tree A K V → Tree A L (K × V)
  | nil => nil
  | node a l k v r => node a (l.tag rank) (rank k) (k, v) (r.tag rank)

variable (rank : K → L)

@[simp] theorem tag_nil : (nil : Tree A K V).tag rank = nil := rfl

@[simp] theorem tag_node (a : A) (l : Tree A K V) (k : K) (v : V) (r : Tree A K V) :
    (node a l k v r).tag rank = node a (l.tag rank) (rank k) (k, v) (r.tag rank) := rfl

@[simp] theorem size_tag (t : Tree A K V) : (t.tag rank).size = t.size := by
  induction t with
  | nil => rfl
  | node a l k v r ihl ihr => simp [size, ihl, ihr]

@[simp] theorem toList_tag (t : Tree A K V) : (t.tag rank).toList = t.toList.map (tagE rank) := by
  induction t with
  | nil => rfl
  | node a l k v r ihl ihr => simp [ihl, ihr, tagE]

theorem getA_tag (c : Nat → L → Ordering) (t : Tree A K V) (i : Nat) :
    (t.tag rank).getA c i = (t.getA (fun i x => c i (rank x)) i).map (tagE rank) := by
  induction t generalizing i with
  | nil => rfl
  | node a l k v r ihl ihr =>
    simp only [tag_node, getA]
    cases c i (rank k) <;> simp [ihl, ihr, tagE]

theorem ceilA_tag (c : Nat → L → Ordering) (t : Tree A K V) (i : Nat) :
    (t.tag rank).ceilA c i = (t.ceilA (fun i x => c i (rank x)) i).map (tagE rank) := by
  induction t generalizing i with
  | nil => rfl
  | node a l k v r ihl ihr =>
    simp only [tag_node, ceilA]
    cases c i (rank k) with
    | lt =>
      simp only [ihl]
      cases l.ceilA (fun i x => c i (rank x)) (i + 1) <;> rfl
    | gt => simp [ihr]
    | eq => rfl

theorem floorA_tag (c : Nat → L → Ordering) (t : Tree A K V) (i : Nat) :
    (t.tag rank).floorA c i = (t.floorA (fun i x => c i (rank x)) i).map (tagE rank) := by
  induction t generalizing i with
  | nil => rfl
  | node a l k v r ihl ihr =>
    simp only [tag_node, floorA]
    cases c i (rank k) with
    | gt =>
      simp only [ihr]
      cases r.floorA (fun i x => c i (rank x)) (i + 1) <;> rfl
    | lt => simp [ihl]
    | eq => rfl

theorem getMutA_tag (c : Nat → L → Ordering) (f : V → V) (t : Tree A K V) (i : Nat) :
    (t.tag rank).getMutA c (fun e => (e.1, f e.2)) i =
      ((t.getMutA (fun i x => c i (rank x)) f i).1.map (tagE rank),
        (t.getMutA (fun i x => c i (rank x)) f i).2.tag rank) := by
  induction t generalizing i with
  | nil => rfl
  | node a l k v r ihl ihr =>
    simp only [tag_node, getMutA]
    cases c i (rank k) <;> simp [ihl, ihr, tagE]

theorem min_tag (t : Tree A K V) : (t.tag rank).min = t.min.map (tagE rank) := by
  rw [min_eq, min_eq, toList_tag, List.head?_map]

theorem max_tag (t : Tree A K V) : (t.tag rank).max = t.max.map (tagE rank) := by
  rw [max_eq, max_eq, toList_tag, List.getLast?_map]

end Tree

section
variable [LinearOrder L]

theorem cmp_ranked (rank : K → L) (k : K) :
    (TAnswers.ranked rank k).cmp = fun i x => (TAnswers.lawful (rank k)).cmp i (rank x) := rfl

/-- The call on the map of ranks. -/
def tagCall (rank : K → L) : RankOp K V → TCall L (K × V)
  | .insert k v => .insert (rank k) (k, v) (.lawful (rank k))
  | .remove k => .remove (.lawful (rank k))
  | .get k => .get (.lawful (rank k))
  | .getMut k f => .getMut (.lawful (rank k)) fun e => (e.1, f e.2)
  | .floor k => .floor (.lawful (rank k))
  | .ceil k => .ceil (.lawful (rank k))
  | .min => .min
  | .max => .max
  | .len => .len
  | .iter => .iter
  | .clear => .clear

theorem ofOp_tag (rank : K → L) (op : RankOp K V) : TCall.ofOp (op.tag rank) = some (tagCall rank op) := by
  cases op <;> rfl

/-- The results of the reading calls belong together. -/
theorem readA_tag (rank : K → L) (t : Tree A K V) (n : Nat) (op : RankOp K V) (h : Reads (op.call rank)) :
    ResTag rank (readA t n (op.call rank)) (readA (t.tag rank) n (tagCall rank op)).toRes := by
  cases op with
  | insert | remove | getMut | clear => exact absurd h (by simp [Reads, RankOp.call])
  | get k =>
    simp only [RankOp.call, tagCall, readA, Tree.getA_tag, LRes.toRes, ResTag, cmp_ranked]
    refine ⟨_, rfl, ?_⟩
    rw [Option.map_map, Option.map_map]
    rfl
  | floor k =>
    simp only [RankOp.call, tagCall, readA, Tree.floorA_tag, LRes.toRes, ResTag, cmp_ranked, Option.map_map]
    rfl
  | ceil k =>
    simp only [RankOp.call, tagCall, readA, Tree.ceilA_tag, LRes.toRes, ResTag, cmp_ranked, Option.map_map]
    rfl
  | min =>
    simp only [RankOp.call, tagCall, readA, Tree.min_tag, LRes.toRes, ResTag, Option.map_map]
    rfl
  | max =>
    simp only [RankOp.call, tagCall, readA, Tree.max_tag, LRes.toRes, ResTag, Option.map_map]
    rfl
  | len => rfl
  | iter =>
    simp only [RankOp.call, tagCall, readA, Iter.collect_start, LRes.toRes, ResTag, Tree.toList_tag]

/-- Keys that are returned are stored. -/
theorem readA_key (rank : K → L) (t : Tree A K V) (n n' : Nat) (op : RankOp K V) {k : K} {l : List (K × V)}
    (h : readA t n (op.call rank) = .key (some k)) (hl : readA t n' (RankOp.iter.call rank : TCall K V) = .list l) :
    ∃ v, (k, v) ∈ l := by
  have hl : l = t.toList := by simpa [readA, RankOp.call, Iter.collect_start] using hl.symm
  subst hl
  have hr : ∀ e : Option (K × V), (∀ x, e = some x → x ∈ t.toList) → LRes.key (V := V) (e.map (·.1)) = .key (some k) →
      ∃ v, (k, v) ∈ t.toList := by
    intro e he h
    simp only [LRes.key.injEq, Option.map_eq_some_iff] at h
    obtain ⟨⟨k', v⟩, h1, rfl⟩ := h
    exact ⟨v, he _ h1⟩
  cases op with
  | floor k => exact hr _ (fun x hx => (Tree.floorA_mem hx).1) h
  | ceil k => exact hr _ (fun x hx => (Tree.ceilA_mem hx).1) h
  | min => exact hr _ (fun x hx => by rw [Tree.min_eq] at hx; exact List.mem_of_head? hx) h
  | max => exact hr _ (fun x hx => by rw [Tree.max_eq] at hx; exact List.mem_of_getLast? hx) h
  | insert | remove | getMut | clear | get | len | iter => simp [readA, RankOp.call] at h

/-- The step of the map of ranks belongs to the step `x` of the map. -/
def StepTag {S S' : Type} (rank : K → L) (tagS : S → S') (x : Option (S × LRes K V)) (y : Option (S' × LRes L (K × V))) :
    Prop :=
  match x with
  | none => y = none
  | some (t, r) => ∃ r', y = some (tagS t, r') ∧ ResTag rank r r'.toRes

/-- Putting the pieces together for a search tree: `stepK` is the map with ranked keys, `stepL` the map of ranks. -/
theorem rankRepresents_tree {S S' D : Type} {rank : K → L} (tagS : S → S') {empty : S'}
    {stepK : S → TCall K V → D → Option (S × LRes K V)} {stepL : S' → TCall L (K × V) → D → Option (S' × LRes L (K × V))}
    {step : S' → MapOp L (K × V) → D → Option (S' × MapRes L (K × V))}
    (hcov : ∀ s op c d, TCall.ofOp op = some c → (stepL s c d).map (fun p => (p.1, p.2.toRes)) = step s op d)
    (htag : ∀ s op d, StepTag rank tagS (stepK s (op.call rank) d) (stepL (tagS s) (tagCall rank op) d))
    (tree : S → Tree A K V) (n : S → Nat)
    (hread : ∀ s op d, Reads (RankOp.call rank op) →
      stepK s (RankOp.call rank op) d = some (s, readA (tree s) (n s) (op.call rank)))
    {s : S} {m : AMap L (K × V)} (hI : (⟨S', D, empty, step⟩ : MapImpl L (K × V)).Represents (tagS s) m) :
    RankRepresents rank (fun s op d => stepK s (op.call rank) d) s m := by
  refine rankRepresents_of_tag _ id (fun s s' => s' = tagS s) ?_ ?_ rfl hI
  · rintro s s' op d t' r' rfl h
    have h1 : (stepL (tagS s) (tagCall rank op) d).map (fun p => (p.1, p.2.toRes)) = some (t', r') :=
      (hcov _ _ _ _ (ofOp_tag rank op)).trans h
    have h2 := htag s op d
    cases hk : stepK s (op.call rank) d with
    | none => rw [hk] at h2; have h2 : stepL (tagS s) (tagCall rank op) d = none := h2; rw [h2] at h1; cases h1
    | some p =>
      obtain ⟨t, r⟩ := p
      rw [hk] at h2
      obtain ⟨r₁, h3, h4⟩ := h2
      rw [h3] at h1
      simp only [Option.map_some, Option.some.injEq, Prod.mk.injEq] at h1
      exact ⟨t, r, rfl, h1.1.symm, h1.2 ▸ h4⟩
  · rintro s s' op d t k t' l _ hop h1 h2
    have h3 : Reads (op.call rank) := by cases op <;> first | trivial | exact absurd hop id
    rw [hread s op d h3] at h1
    rw [hread s .iter d trivial] at h2
    exact readA_key rank (tree s) (n s) (n s) op (Prod.mk.inj (Option.some.inj h1)).2 (Prod.mk.inj (Option.some.inj h2)).2

end

end Verif.Bst
