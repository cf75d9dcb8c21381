/- The set operations and `split_off` of `TreapMap` with keys that are compared by rank (C82). -/
import Verif.Treap.Ranked
import Verif.Treap.LawlessSets

namespace Verif.Treap

open Verif.Bst Verif.Spec

variable {K V L : Type} (rank : K → L)

/-- The answers for keys with those ranks. -/
def pullS (c : SetAnswers L) : SetAnswers K := fun p i k x => c p i (rank k) (rank x)

theorem splitA_tag' (c : SetAnswers L) (p : List Bool) (k : K) (t : TTree K V) :
    splitA (fun i => c p i (rank k)) 0 (t.tag rank) =
      ((splitA (fun i => pullS rank c p i k) 0 t).1.tag rank, (splitA (fun i => pullS rank c p i k) 0 t).2.1.tag rank,
        (splitA (fun i => pullS rank c p i k) 0 t).2.2.tag rank) := splitA_tag rank (fun i => c p i (rank k)) t 0

theorem unionNA_tag (c : SetAnswers L) (p : List Bool) {f : List Bool → TTree K V → TTree K V → Bool → Option (TTree K V)}
    {f' : List Bool → TTree L (K × V) → TTree L (K × V) → Bool → Option (TTree L (K × V))}
    (hf : ∀ p l r sw, f' p (l.tag rank) (r.tag rank) sw = (f p l r sw).map (·.tag rank))
    (a : Ann) (l : TTree K V) (k : K) (v : V) (r o : TTree K V) (sw : Bool) :
    unionNA c p f' a (l.tag rank) (rank k) (k, v) (r.tag rank) (o.tag rank) sw =
      (unionNA (pullS rank c) p f a l k v r o sw).map (·.tag rank) := by
  simp only [unionNA, splitA_tag', hf]
  cases f (false :: p) l (splitA (fun i => pullS rank c p i k) 0 o).1 sw with
  | none => rfl
  | some l' =>
    cases f (true :: p) r (splitA (fun i => pullS rank c p i k) 0 o).2.2 sw with
    | none => rfl
    | some r' =>
      simp only [Option.map_some, Option.bind_eq_bind, Option.bind_some, Option.pure_def, Option.some.injEq, entry_tag]
      rw [← mk_tag]
      cases sw
      · rfl
      · cases entry (splitA (fun i => pullS rank c p i k) 0 o).2.1 <;> rfl

theorem unionA_tag (c : SetAnswers L) (n : Nat) : ∀ (p : List Bool) (l r : TTree K V) (sw : Bool),
    unionA c n p (l.tag rank) (r.tag rank) sw = (unionA (pullS rank c) n p l r sw).map (·.tag rank) := by
  induction n with
  | zero => intro p l r sw; rfl
  | succ n ih =>
    intro p l r sw
    cases l with
    | nil => cases r <;> rfl
    | node a ll k v lr =>
      cases r with
      | nil => rfl
      | node b rl x w rr =>
        simp only [Tree.tag_node, unionA]
        split
        · exact unionNA_tag rank c p ih b rl x w rr (.node a ll k v lr) (!sw)
        · exact unionNA_tag rank c p ih a ll k v lr (.node b rl x w rr) sw

theorem interNA_tag (c : SetAnswers L) (p : List Bool) {f : List Bool → TTree K V → TTree K V → Bool → Option (TTree K V)}
    {f' : List Bool → TTree L (K × V) → TTree L (K × V) → Bool → Option (TTree L (K × V))}
    (hf : ∀ p l r sw, f' p (l.tag rank) (r.tag rank) sw = (f p l r sw).map (·.tag rank))
    (a : Ann) (l : TTree K V) (k : K) (v : V) (r o : TTree K V) (sw : Bool) :
    interNA c p f' a (l.tag rank) (rank k) (k, v) (r.tag rank) (o.tag rank) sw =
      (interNA (pullS rank c) p f a l k v r o sw).map (·.tag rank) := by
  simp only [interNA, splitA_tag', hf]
  cases f (false :: p) l (splitA (fun i => pullS rank c p i k) 0 o).1 sw with
  | none => rfl
  | some l' =>
    cases f (true :: p) r (splitA (fun i => pullS rank c p i k) 0 o).2.2 sw with
    | none => rfl
    | some r' =>
      simp only [Option.map_some, Option.bind_eq_bind, Option.bind_some, entry_tag]
      cases entry (splitA (fun i => pullS rank c p i k) 0 o).2.1 with
      | none => simp [merge_tag]
      | some e =>
        simp only [Option.map_some, Option.pure_def, Option.some.injEq, ← mk_tag]
        cases sw <;> rfl

theorem interA_tag (c : SetAnswers L) (n : Nat) : ∀ (p : List Bool) (l r : TTree K V) (sw : Bool),
    interA c n p (l.tag rank) (r.tag rank) sw = (interA (pullS rank c) n p l r sw).map (·.tag rank) := by
  induction n with
  | zero => intro p l r sw; rfl
  | succ n ih =>
    intro p l r sw
    cases l with
    | nil => cases r <;> rfl
    | node a ll k v lr =>
      cases r with
      | nil => rfl
      | node b rl x w rr =>
        simp only [Tree.tag_node, interA]
        split
        · exact interNA_tag rank c p ih b rl x w rr (.node a ll k v lr) (!sw)
        · exact interNA_tag rank c p ih a ll k v lr (.node b rl x w rr) sw

theorem diffNA_tag (c : SetAnswers L) (p : List Bool) {f : List Bool → TTree K V → TTree K V → Bool → Option (TTree K V)}
    {f' : List Bool → TTree L (K × V) → TTree L (K × V) → Bool → Option (TTree L (K × V))}
    (hf : ∀ p l r sw, f' p (l.tag rank) (r.tag rank) sw = (f p l r sw).map (·.tag rank))
    (a : Ann) (l : TTree K V) (k : K) (v : V) (r o : TTree K V) (sw sym : Bool) :
    diffNA c p f' a (l.tag rank) (rank k) (k, v) (r.tag rank) (o.tag rank) sw sym =
      (diffNA (pullS rank c) p f a l k v r o sw sym).map (·.tag rank) := by
  simp only [diffNA, splitA_tag', hf]
  cases f (false :: p) l (splitA (fun i => pullS rank c p i k) 0 o).1 sw with
  | none => rfl
  | some l' =>
    cases f (true :: p) r (splitA (fun i => pullS rank c p i k) 0 o).2.2 sw with
    | none => rfl
    | some r' =>
      simp only [Option.map_some, Option.bind_eq_bind, Option.bind_some, entry_tag, Option.isSome_map]
      split
      · simp [merge_tag]
      · simp [mk_tag]

theorem diffBase_tag (l r : TTree K V) (sw sym : Bool) :
    diffBase (l.tag rank) (r.tag rank) sw sym = (diffBase l r sw sym).tag rank := by
  simp only [diffBase, merge_tag]
  split
  · rfl
  · split <;> rfl

theorem diffA_tag (c : SetAnswers L) (sym : Bool) (n : Nat) : ∀ (p : List Bool) (l r : TTree K V) (sw : Bool),
    diffA c sym n p (l.tag rank) (r.tag rank) sw = (diffA (pullS rank c) sym n p l r sw).map (·.tag rank) := by
  induction n with
  | zero => intro p l r sw; rfl
  | succ n ih =>
    intro p l r sw
    cases l with
    | nil =>
      have := diffBase_tag rank .nil r sw sym
      cases r <;> simp only [Tree.tag_node, Tree.tag_nil, diffA, Option.map_some, Option.some.injEq] at this ⊢ <;> exact this
    | node a ll k v lr =>
      cases r with
      | nil =>
        have := diffBase_tag rank (.node a ll k v lr) .nil sw sym
        simp only [Tree.tag_node, Tree.tag_nil, diffA, Option.map_some, Option.some.injEq] at this ⊢
        exact this
      | node b rl x w rr =>
        simp only [Tree.tag_node, diffA]
        split
        · exact diffNA_tag rank c p ih b rl x w rr (.node a ll k v lr) (!sw) sym
        · exact diffNA_tag rank c p ih a ll k v lr (.node b rl x w rr) sw sym

theorem setOpA_tag (c : SetAnswers L) (l r : TreapMap K V) (op : PairOp) :
    TreapMap.setOpA c (tagMap rank l) (tagMap rank r) op =
      (TreapMap.setOpA (pullS rank c) l r op).map (tagMap rank) := by
  cases op <;> simp only [TreapMap.setOpA, tagMap, depthBound, Tree.size_tag, unionA_tag, interA_tag, diffA_tag,
    Option.map_map] <;> rfl

theorem splitOffA_tag (c : Nat → L → Ordering) (m : TreapMap K V) (incl : Bool) :
    (tagMap rank m).splitOffA c incl =
      (tagMap rank (m.splitOffA (fun i x => c i (rank x)) incl).1,
        tagMap rank (m.splitOffA (fun i x => c i (rank x)) incl).2) := by
  simp only [TreapMap.splitOffA, tagMap, splitA_tag, merge_tag]
  cases incl <;> rfl

section
variable [LinearOrder L]

/-- The answers of the comparisons of keys by their rank. -/
def SetAnswers.ranked (rank : K → L) : SetAnswers K := fun _ _ k x =>
  if rank k < rank x then .lt else if rank x < rank k then .gt else .eq

/-- The maps a program can build from keys that are compared by their rank: by any call, the set operations and
`split_off`. -/
inductive Built (rank : K → L) : TreapMap K V → Prop
  | new : Built rank ⟨.nil⟩
  | call {s s' d r} (op : RankOp K V) : Built rank s → stepA s (op.call rank) d = some (s', r) → Built rank s'
  | setOp {a b c} (op : PairOp) : Built rank a → Built rank b → TreapMap.setOpA (.ranked rank) a b op = some c →
      Built rank c
  | splitOffL {s} (k : K) (incl : Bool) : Built rank s → Built rank (s.splitOffA (TAnswers.ranked rank k).cmp incl).1
  | splitOffR {s} (k : K) (incl : Bool) : Built rank s → Built rank (s.splitOffA (TAnswers.ranked rank k).cmp incl).2

theorem setOp_covers (l r : TreapMap L (K × V)) (op : PairOp) :
    TreapMap.setOpA SetAnswers.lawful l r op = match op with
      | .union => l.union r
      | .intersection => l.intersection r
      | .difference => l.difference r
      | .symmetricDifference => l.symmetricDifference r := by
  cases op <;> simp only [TreapMap.setOpA, TreapMap.union, TreapMap.intersection, TreapMap.difference,
    TreapMap.symmetricDifference, unionA_lawful, interA_lawful, diffA_lawful]

theorem splitOff_covers (m : TreapMap L (K × V)) (q : L) (incl : Bool) :
    m.splitOffA (TAnswers.lawful q).cmp incl = m.splitOff q incl := by
  simp only [TreapMap.splitOffA, TreapMap.splitOff, splitA_lawful]

theorem reach_tag {m : TreapMap K V} (h : Built rank m) : Reach (tagMap rank m) := by
  induction h with
  | new => exact .new
  | @call s s' d r op _ hs ih =>
    have h2 := stepA_tag rank s op d
    rw [hs] at h2
    obtain ⟨r', h3, _⟩ := h2
    have h4 := C79_treap_covers_lawful (tagMap rank s) (op.tag rank) (tagCall rank op) d (ofOp_tag rank op)
    rw [h3] at h4
    exact .step ih h4.symm
  | @setOp a b c op _ _ hc iha ihb =>
    have h1 := setOpA_tag rank SetAnswers.lawful a b op
    rw [show TreapMap.setOpA (pullS rank SetAnswers.lawful) a b op = some c from hc, setOp_covers] at h1
    cases op
    · exact .union iha ihb h1
    · exact .intersection iha ihb h1
    · exact .difference iha ihb h1
    · exact .symmetricDifference iha ihb h1
  | @splitOffL s k incl _ ih =>
    have h1 := splitOffA_tag rank (TAnswers.lawful (rank k)).cmp s incl
    rw [splitOff_covers] at h1
    have := Reach.splitOffL (rank k) incl ih
    rw [h1] at this
    exact this
  | @splitOffR s k incl _ ih =>
    have h1 := splitOffA_tag rank (TAnswers.lawful (rank k)).cmp s incl
    rw [splitOff_covers] at h1
    have := Reach.splitOffR (rank k) incl ih
    rw [h1] at this
    exact this

/-- A map as `TreapMap` holds it, with keys compared by their rank. -/
abbrev Holds (m : TreapMap K V) (M : RMap L K V) : Prop :=
  RankRepresents rank (fun m op (d : Nat) => stepA m (op.call rank) d) m M

/-- The result of a set operation. -/
def onRanks (l r : RMap L K V) : PairOp → RMap L K V
  | .union => l.union r
  | .intersection => l.intersection r
  | .difference => l.difference r
  | .symmetricDifference => l.symmetricDifference r

/-- C82 for the set operations of `TreapMap`: on common ranks the entry of the left map is kept, with its key, and the
result is again a map with one entry per rank. -/
theorem C82_treap_set_ops {a b : TreapMap K V} (ha : Built rank a) (hb : Built rank b) (op : PairOp) :
    ∃ A B c, Holds rank a A ∧ Holds rank b B ∧ TreapMap.setOpA (.ranked rank) a b op = some c ∧
      Holds rank c (onRanks A B op) := by
  obtain ⟨A, hA⟩ := C04_treap_represents (reach_tag rank ha)
  obtain ⟨B, hB⟩ := C04_treap_represents (reach_tag rank hb)
  have key : ∀ {C : AMap L (K × V)} {c' : TreapMap L (K × V)},
      TreapMap.setOpA SetAnswers.lawful (tagMap rank a) (tagMap rank b) op = some c' → (impl L (K × V)).Represents c' C →
      ∃ c, TreapMap.setOpA (.ranked rank) a b op = some c ∧ Holds rank c C := by
    intro C c' h1 h2
    rw [setOpA_tag] at h1
    obtain ⟨c, h3, rfl⟩ := Option.map_eq_some_iff.1 h1
    exact ⟨c, h3, holds_of_represents rank h2⟩
  refine ⟨A, B, ?_⟩
  simp only [exists_and_left]
  refine ⟨holds_of_represents rank hA, holds_of_represents rank hB, ?_⟩
  cases op
  · obtain ⟨c', h1, h2⟩ := C10_union (reach_tag rank ha) (reach_tag rank hb) hA hB
    exact key ((setOp_covers _ _ _).trans h1) h2
  · obtain ⟨c', h1, h2⟩ := C10_intersection (reach_tag rank ha) (reach_tag rank hb) hA hB
    exact key ((setOp_covers _ _ _).trans h1) h2
  · obtain ⟨c', h1, h2⟩ := C10_difference (reach_tag rank ha) (reach_tag rank hb) hA hB
    exact key ((setOp_covers _ _ _).trans h1) h2
  · obtain ⟨c', h1, h2⟩ := C10_symmetric_difference (reach_tag rank ha) (reach_tag rank hb) hA hB
    exact key ((setOp_covers _ _ _).trans h1) h2

/-- C82 for `split_off` of `TreapMap`. -/
theorem C82_treap_split_off {a : TreapMap K V} (ha : Built rank a) (k : K) (incl : Bool) :
    ∃ A, Holds rank a A ∧
      Holds rank (a.splitOffA (TAnswers.ranked rank k).cmp incl).1
        (fun q => if q < rank k ∨ (q = rank k ∧ incl = true) then A q else none) ∧
      Holds rank (a.splitOffA (TAnswers.ranked rank k).cmp incl).2
        (fun q => if q < rank k ∨ (q = rank k ∧ incl = true) then none else A q) := by
  obtain ⟨A, hA⟩ := C04_treap_represents (reach_tag rank ha)
  obtain ⟨h1, h2⟩ := C11_split_off (reach_tag rank ha) hA (rank k) incl
  rw [← splitOff_covers, splitOffA_tag] at h1 h2
  exact ⟨A, holds_of_represents rank hA, holds_of_represents rank h1, holds_of_represents rank h2⟩

end

/-- `{14, 31}` and `{17, 52}` by tens, made with some priorities. -/
def exTens : TreapMap Nat String := ⟨mk 3 .nil 14 "a" (mk 2 .nil 31 "b" .nil)⟩
def exTens' : TreapMap Nat String := ⟨mk 8 .nil 17 "c" (mk 1 .nil 52 "d" .nil)⟩

example : (stepA (⟨.nil⟩ : TreapMap Nat String) (RankOp.call (· / 10) (.insert 14 "a")) 3).bind
      (fun p => (stepA p.1 (RankOp.call (· / 10) (.insert 31 "b")) 2).map (·.1)) = some exTens ∧
    (stepA (⟨.nil⟩ : TreapMap Nat String) (RankOp.call (· / 10) (.insert 17 "c")) 8).bind
      (fun p => (stepA p.1 (RankOp.call (· / 10) (.insert 52 "d")) 1).map (·.1)) = some exTens' := ⟨rfl, rfl⟩

/-- The node of 17 is the root of the result (its priority is higher), but its entry becomes that of 14. -/
example : ([.union, .intersection, .difference, .symmetricDifference] : List PairOp).map (fun op =>
      (TreapMap.setOpA (.ranked (· / 10)) exTens exTens' op).map (·.tree.toList)) =
    [some [(14, "a"), (31, "b"), (52, "d")], some [(14, "a")], some [(31, "b")], some [(31, "b"), (52, "d")]] := by
  decide +kernel

end Verif.Treap
