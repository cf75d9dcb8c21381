/- Property C83 for the set operations of `TreapMap` (and `TreapSet`) and for joining `TreapList`s: how deep the calls nest.

As in Verif/Drop/Calls.lean only calls of functions that call themselves are recorded, here with the destruction of the
trees that an operation leaves out. -/
import Verif.Drop.Calls

namespace Verif.Drop

open Verif.Bst Verif.Spec

namespace Treap

open Verif.Treap Traced

variable {K V : Type}

/-- Destroying a `Box<Node>`: the compiler's drop of a node (treap/node.rs:3-9) drops its two subtrees. -/
def dropT : TTree K V → Traced Unit
  | .nil => pure ()
  | .node _ l _ _ r => call do
    dropT l
    dropT r

theorem dropT_val (t : TTree K V) : (dropT t).val = some () := by
  induction t with
  | nil => rfl
  | node a l k v r ihl ihr => simp only [dropT, val_call, val_bind, ihl, ihr, Option.bind_some]

theorem dropT_within (t : TTree K V) : Within (depth t) (dropT t) := by
  induction t with
  | nil => exact within_pure _
  | node a l k v r ihl ihr =>
    rw [dropT, depth]
    exact within_call (within_bind (ihl.mono (by omega)) fun _ _ => ihr.mono (by omega))

/-- Merging goes down one level of the result per call. -/
theorem mergeT_tight (l r : TTree K V) : Within (depth (merge l r) + 1) (mergeT l r) := by
  induction l generalizing r with
  | nil => exact (within_call (within_pure _)).mono (by omega)
  | node a ll k v lr _ ih =>
    rw [mergeT, merge]
    induction r with
    | nil => exact (within_call (within_pure _)).mono (by omega)
    | node b rl x w rr ihl _ =>
      rw [mergeIntoT, mergeInto]
      split
      · rw [depth_mk]
        exact (within_call (within_then (ih _) fun _ => within_pure _)).mono (by omega)
      · rw [depth_mk]
        exact (within_call (within_then ihl fun _ => within_pure _)).mono (by omega)

/-- Merging does not bring any node closer to the root. -/
theorem depth_le_merge (l r : TTree K V) : depth l ≤ depth (merge l r) ∧ depth r ≤ depth (merge l r) := by
  induction l generalizing r with
  | nil => simp [merge, depth]
  | node a ll k v lr _ ih =>
    rw [merge]
    induction r with
    | nil => simp [mergeInto, depth]
    | node b rl x w rr ihl _ =>
      rw [mergeInto]
      split
      · have := ih (.node b rl x w rr)
        simp only [depth_mk, depth] at *; omega
      · simp only [depth_mk, depth] at *; omega

variable [LinearOrder K]

/-- treap/tree.rs:262-285, the body of `intersection` after the swap, as in the model. -/
def interNT (f : TTree K V → TTree K V → Bool → Traced (TTree K V)) (a : Ann) (l : TTree K V) (k : K)
    (v : V) (r : TTree K V) (o : TTree K V) (sw : Bool) : Traced (TTree K V) := do
  let p ← splitT k o
  let l' ← f l p.1 sw
  let r' ← f r p.2.2 sw
  match entry p.2.1 with
  | some e => let e := if sw then e else (k, v); return mk a.prio l' e.1 e.2 r'
  | none => mergeT l' r'

/-- treap/tree.rs:247-289 `intersection`. -/
def interT : Nat → TTree K V → TTree K V → Bool → Traced (TTree K V)
  | 0, _, _, _ => lift none
  | n + 1, .node a ll k v lr, .node b rl x w rr, sw => call <|
    if a.prio < b.prio then interNT (interT n) b rl x w rr (.node a ll k v lr) (!sw)
    else interNT (interT n) a ll k v lr (.node b rl x w rr) sw
  | _ + 1, .nil, r, _ => call do
    dropT r
    return .nil
  | _ + 1, .node a ll k v lr, .nil, _ => call do
    dropT (.node a ll k v lr)
    return .nil

/-- treap/tree.rs:331-340: one of the trees is empty. -/
def diffBaseT (l r : TTree K V) (sw sym : Bool) : Traced (TTree K V) :=
  if sym then mergeT l r
  else if sw then do
    dropT l
    return r
  else do
    dropT r
    return l

/-- treap/tree.rs:307-329, the body of `difference` after the swap. -/
def diffNT (f : TTree K V → TTree K V → Bool → Traced (TTree K V)) (a : Ann) (l : TTree K V) (k : K)
    (v : V) (r : TTree K V) (o : TTree K V) (sw sym : Bool) : Traced (TTree K V) := do
  let p ← splitT k o
  let l' ← f l p.1 sw
  let r' ← f r p.2.2 sw
  if (entry p.2.1).isSome || (sw && !sym) then mergeT l' r'
  else return mk a.prio l' k v r'

/-- treap/tree.rs:291-342 `difference`. -/
def diffT (sym : Bool) : Nat → TTree K V → TTree K V → Bool → Traced (TTree K V)
  | 0, _, _, _ => lift none
  | n + 1, .node a ll k v lr, .node b rl x w rr, sw => call <|
    if a.prio < b.prio then diffNT (diffT sym n) b rl x w rr (.node a ll k v lr) (!sw) sym
    else diffNT (diffT sym n) a ll k v lr (.node b rl x w rr) sw sym
  | _ + 1, .nil, r, sw => call (diffBaseT .nil r sw sym)
  | _ + 1, .node a ll k v lr, .nil, sw => call (diffBaseT (.node a ll k v lr) .nil sw sym)

theorem interNT_val {n : Nat} (ih : ∀ l r : TTree K V, ∀ sw, (interT n l r sw).val = interF n l r sw) (a : Ann) (l : TTree K V)
    (k : K) (v : V) (r o : TTree K V) (sw : Bool) : (interNT (interT n) a l k v r o sw).val = interN (interF n) a l k v r o sw := by
  simp only [interNT, interN, val_bind, splitT_val, Option.bind_some, ih]
  cases interF n l (split k o).1 sw with
  | none => rfl
  | some l' =>
    cases interF n r (split k o).2.2 sw with
    | none => rfl
    | some r' =>
      simp only [Option.bind_some, Option.bind_eq_bind]
      split
      · rename_i h; rw [h]; rfl
      · rename_i h; rw [h, mergeT_val]; rfl

theorem interT_val (n : Nat) (l r : TTree K V) (sw : Bool) : (interT n l r sw).val = interF n l r sw := by
  induction n generalizing l r sw with
  | zero => cases l <;> cases r <;> rfl
  | succ n ih =>
    cases l with
    | nil => cases r <;> simp [interT, interF, val_call, val_bind, dropT_val, val_pure]
    | node a ll k v lr =>
      cases r with
      | nil => simp [interT, interF, val_call, val_bind, dropT_val, val_pure]
      | node b rl x w rr =>
        rw [interT, interF, val_call]
        split <;> exact interNT_val ih _ _ _ _ _ _ _

omit [LinearOrder K] in
theorem diffBaseT_val (l r : TTree K V) (sw sym : Bool) : (diffBaseT l r sw sym).val = some (diffBase l r sw sym) := by
  unfold diffBaseT diffBase
  split
  · exact mergeT_val _ _
  · split <;> simp [val_bind, dropT_val, val_pure]

theorem diffNT_val {sym : Bool} {n : Nat} (ih : ∀ l r : TTree K V, ∀ sw, (diffT sym n l r sw).val = diffF sym n l r sw) (a : Ann)
    (l : TTree K V) (k : K) (v : V) (r o : TTree K V) (sw : Bool) :
    (diffNT (diffT sym n) a l k v r o sw sym).val = diffN (diffF sym n) a l k v r o sw sym := by
  simp only [diffNT, diffN, val_bind, splitT_val, Option.bind_some, ih]
  cases diffF sym n l (split k o).1 sw with
  | none => rfl
  | some l' =>
    cases diffF sym n r (split k o).2.2 sw with
    | none => rfl
    | some r' =>
      simp only [Option.bind_some, Option.bind_eq_bind]
      split
      · rw [mergeT_val]; rfl
      · rfl

theorem diffT_val (sym : Bool) (n : Nat) (l r : TTree K V) (sw : Bool) : (diffT sym n l r sw).val = diffF sym n l r sw := by
  induction n generalizing l r sw with
  | zero => cases l <;> cases r <;> rfl
  | succ n ih =>
    cases l with
    | nil => cases r <;> simp only [diffT, diffF, val_call, diffBaseT_val]
    | node a ll k v lr =>
      cases r with
      | nil => simp only [diffT, diffF, val_call, diffBaseT_val]
      | node b rl x w rr =>
        rw [diffT, diffF, val_call]
        split <;> exact diffNT_val ih _ _ _ _ _ _ _

theorem interNT_within {n : Nat}
    (ih : ∀ l r : TTree K V, ∀ sw, ∀ t, interF n l r sw = some t → Within (depth l + depth r + depth t + 2) (interT n l r sw))
    {a : Ann} {l : TTree K V} {k : K} {v : V} {r o : TTree K V} {sw : Bool} {t : TTree K V}
    (h : interN (interF n) a l k v r o sw = some t) :
    Within (max (depth l) (depth r) + depth o + depth t + 2) (interNT (interT n) a l k v r o sw) := by
  have hd := depth_split k o
  obtain ⟨ol, od, or, hs⟩ : ∃ a b c, split k o = (a, b, c) := ⟨_, _, _, rfl⟩
  simp only [hs] at hd
  simp only [interN, hs, Option.bind_eq_bind, Option.bind_eq_some_iff] at h
  obtain ⟨l', hl, r', hr, ht⟩ := h
  have hdep : depth l' ≤ depth t ∧ depth r' ≤ depth t := by
    split at ht
    · cases ht; rw [depth_mk]; omega
    · cases ht; exact depth_le_merge _ _
  refine within_bind ((splitT_within k o).mono (by omega)) ?_
  intro p hp
  rw [splitT_val, hs] at hp
  cases hp
  refine within_bind ((ih _ _ _ _ hl).mono (by omega)) fun x hx => ?_
  rw [interT_val, hl] at hx
  cases hx
  refine within_bind ((ih _ _ _ _ hr).mono (by omega)) fun x hx => ?_
  rw [interT_val, hr] at hx
  cases hx
  split
  · exact (within_pure _).mono (by omega)
  · rename_i he
    rw [he] at ht
    cases ht
    exact (mergeT_tight _ _).mono (by omega)

theorem interT_within (n : Nat) (l r : TTree K V) (sw : Bool) (t : TTree K V) (h : interF n l r sw = some t) :
    Within (depth l + depth r + depth t + 2) (interT n l r sw) := by
  induction n generalizing l r sw t with
  | zero => cases l <;> cases r <;> exact (within_lift _).mono (by omega)
  | succ n ih =>
    cases l with
    | nil =>
      refine (within_call (within_bind (dropT_within r) fun _ _ => (within_pure _).mono (by omega))).mono ?_
      simp only [depth]; omega
    | node a ll k v lr =>
      cases r with
      | nil =>
        refine (within_call (within_bind (dropT_within (.node a ll k v lr)) fun _ _ => (within_pure _).mono (by omega))).mono ?_
        omega
      | node b rl x w rr =>
        rw [interF] at h
        rw [interT]
        split at h
        · rw [if_pos ‹_›]
          refine (within_call (interNT_within ih h)).mono ?_
          simp only [depth]; omega
        · rw [if_neg ‹_›]
          refine (within_call (interNT_within ih h)).mono ?_
          simp only [depth]; omega

omit [LinearOrder K] in
theorem diffBaseT_within (l r : TTree K V) (sw sym : Bool) :
    Within (depth l + depth r + depth (diffBase l r sw sym) + 1) (diffBaseT l r sw sym) := by
  unfold diffBaseT diffBase
  split
  · exact (mergeT_tight l r).mono (by omega)
  · split
    · exact within_bind ((dropT_within l).mono (by omega)) fun _ _ => (within_pure _).mono (by omega)
    · exact within_bind ((dropT_within r).mono (by omega)) fun _ _ => (within_pure _).mono (by omega)

theorem diffNT_within {sym : Bool} {n : Nat}
    (ih : ∀ l r : TTree K V, ∀ sw, ∀ t, diffF sym n l r sw = some t → Within (depth l + depth r + depth t + 2) (diffT sym n l r sw))
    {a : Ann} {l : TTree K V} {k : K} {v : V} {r o : TTree K V} {sw : Bool} {t : TTree K V}
    (h : diffN (diffF sym n) a l k v r o sw sym = some t) :
    Within (max (depth l) (depth r) + depth o + depth t + 2) (diffNT (diffT sym n) a l k v r o sw sym) := by
  have hd := depth_split k o
  obtain ⟨ol, od, or, hs⟩ : ∃ a b c, split k o = (a, b, c) := ⟨_, _, _, rfl⟩
  simp only [hs] at hd
  simp only [diffN, hs, Option.bind_eq_bind, Option.bind_eq_some_iff] at h
  obtain ⟨l', hl, r', hr, ht⟩ := h
  have hdep : depth l' ≤ depth t ∧ depth r' ≤ depth t := by
    split at ht
    · cases ht; exact depth_le_merge _ _
    · cases ht; rw [depth_mk]; omega
  refine within_bind ((splitT_within k o).mono (by omega)) ?_
  intro p hp
  rw [splitT_val, hs] at hp
  cases hp
  refine within_bind ((ih _ _ _ _ hl).mono (by omega)) fun x hx => ?_
  rw [diffT_val, hl] at hx
  cases hx
  refine within_bind ((ih _ _ _ _ hr).mono (by omega)) fun x hx => ?_
  rw [diffT_val, hr] at hx
  cases hx
  split
  · rename_i he
    rw [if_pos he] at ht
    cases ht
    exact (mergeT_tight _ _).mono (by omega)
  · exact (within_pure _).mono (by omega)

theorem diffT_within (sym : Bool) (n : Nat) (l r : TTree K V) (sw : Bool) (t : TTree K V) (h : diffF sym n l r sw = some t) :
    Within (depth l + depth r + depth t + 2) (diffT sym n l r sw) := by
  induction n generalizing l r sw t with
  | zero => cases l <;> cases r <;> exact (within_lift _).mono (by omega)
  | succ n ih =>
    cases l with
    | nil =>
      rw [diffF] at h
      cases h
      exact within_call (diffBaseT_within .nil r sw sym)
    | node a ll k v lr =>
      cases r with
      | nil =>
        rw [diffF] at h
        cases h
        exact within_call (diffBaseT_within (.node a ll k v lr) .nil sw sym)
      | node b rl x w rr =>
        rw [diffF] at h
        rw [diffT]
        split at h
        · rw [if_pos ‹_›]
          refine (within_call (diffNT_within ih h)).mono ?_
          simp only [depth]; omega
        · rw [if_neg ‹_›]
          refine (within_call (diffNT_within ih h)).mono ?_
          simp only [depth]; omega

end Treap

/-! ### Theorems -/

/-- **C83, intersection and differences of treaps.**  The calls of `intersection`, `difference` and `symmetric_difference`
nest at most two deeper than the calls for destroying both maps and the result nest together.  (How deep the result is
depends on the priorities of the entries that are left; the depths of the operands do not bound it.) -/
theorem C83_treap_sets {K V : Type} [LinearOrder K] (l r : Verif.Treap.TreapMap K V) :
    ((Treap.interT (Verif.Treap.depthBound l.tree r.tree) l.tree r.tree false).val.map Verif.Treap.TreapMap.mk = l.intersection r ∧
      ∀ m, l.intersection r = some m → (Treap.interT (Verif.Treap.depthBound l.tree r.tree) l.tree r.tree false).nesting ≤
        nesting (dropTree l.tree) + nesting (dropTree r.tree) + nesting (dropTree m.tree) + 2) ∧
    ((Treap.diffT false (Verif.Treap.depthBound l.tree r.tree) l.tree r.tree false).val.map Verif.Treap.TreapMap.mk = l.difference r ∧
      ∀ m, l.difference r = some m → (Treap.diffT false (Verif.Treap.depthBound l.tree r.tree) l.tree r.tree false).nesting ≤
        nesting (dropTree l.tree) + nesting (dropTree r.tree) + nesting (dropTree m.tree) + 2) ∧
    (Treap.diffT true (Verif.Treap.depthBound l.tree r.tree) l.tree r.tree false).val.map Verif.Treap.TreapMap.mk =
        l.symmetricDifference r ∧
      ∀ m, l.symmetricDifference r = some m →
        (Treap.diffT true (Verif.Treap.depthBound l.tree r.tree) l.tree r.tree false).nesting ≤
          nesting (dropTree l.tree) + nesting (dropTree r.tree) + nesting (dropTree m.tree) + 2 := by
  simp only [nesting_dropTree]
  refine ⟨⟨by rw [Treap.interT_val]; rfl, fun m hm => ?_⟩, ⟨by rw [Treap.diffT_val]; rfl, fun m hm => ?_⟩,
    by rw [Treap.diffT_val]; rfl, fun m hm => ?_⟩ <;>
  · obtain ⟨t, ht, rfl⟩ := Option.map_eq_some_iff.1 hm
    first
      | exact (Treap.interT_within _ _ _ _ _ ht).nesting
      | exact (Treap.diffT_within _ _ _ _ _ _ ht).nesting

/-- A treap of the given entries and priorities. -/
def treapOf (es : List (Nat × Nat)) : Verif.Treap.TreapMap Nat Nat :=
  ⟨es.foldl (fun t e => (Verif.Treap.insert e.2 e.1 e.1 t).1) .nil⟩

/-- The result can be deeper than both operands: each of depth 3, the intersection of depth 4. -/
example : let l := treapOf [(4, 12), (2, 10), (6, 11), (1, 1), (3, 2), (5, 3), (7, 4)]
    let r := treapOf [(3, 0), (1, 0), (5, 0), (7, 0)]
    nesting (dropTree l.tree) = 3 ∧ nesting (dropTree r.tree) = 3 ∧
    (l.intersection r).map (fun m => (m.tree.toList.map (·.1), nesting (dropTree m.tree))) = some ([1, 3, 5, 7], 4) ∧
    (Treap.interT (Verif.Treap.depthBound l.tree r.tree) l.tree r.tree false).nesting = 5 := by decide +kernel

/-- All three operations on two overlapping maps, with the nesting of their calls. -/
example : let l := treapOf [(1, 5), (2, 9), (3, 4), (4, 8)]
    let r := treapOf [(2, 3), (3, 7), (5, 6)]
    (l.intersection r).map (fun m => m.tree.toList.map (·.1)) = some [2, 3] ∧
    (l.difference r).map (fun m => m.tree.toList.map (·.1)) = some [1, 4] ∧
    (l.symmetricDifference r).map (fun m => m.tree.toList.map (·.1)) = some [1, 4, 5] ∧
    (Treap.diffT false (Verif.Treap.depthBound l.tree r.tree) l.tree r.tree false).nesting = 5 ∧
    (Treap.diffT true (Verif.Treap.depthBound l.tree r.tree) l.tree r.tree false).nesting = 5 := by decide +kernel

/-- **C83, joining lists.**  The calls of joining two `TreapList`s (`+`) nest at most one deeper than those for destroying
the result, and at most one deeper than those for destroying the operands nest together. -/
theorem C83_list_join {V : Type} (a b : Verif.Treap.Implicit.TreapList V) :
    (Treap.mergeT a.tree b.tree).val.map Verif.Treap.Implicit.TreapList.mk = some (a.add b) ∧
    (Treap.mergeT a.tree b.tree).nesting ≤ nesting (dropTree (a.add b).tree) + 1 ∧
    (Treap.mergeT a.tree b.tree).nesting ≤ nesting (dropTree a.tree) + nesting (dropTree b.tree) + 1 := by
  simp only [nesting_dropTree]
  refine ⟨by rw [Treap.mergeT_val]; rfl, (Treap.mergeT_tight _ _).nesting, (Treap.mergeT_within _ _).nesting⟩

/-- Joining two lists of three elements: five nested calls. -/
example : let a : Verif.Treap.Implicit.TreapList Nat := ⟨.node ⟨9, 3⟩ .nil () 1 (.node ⟨7, 2⟩ .nil () 2 (.node ⟨5, 1⟩ .nil () 3 .nil))⟩
    let b : Verif.Treap.Implicit.TreapList Nat := ⟨.node ⟨8, 3⟩ (.node ⟨6, 1⟩ .nil () 4 .nil) () 5 (.node ⟨2, 1⟩ .nil () 6 .nil)⟩
    (a.add b).tree.toList.map (·.2) = [1, 2, 3, 4, 5, 6] ∧ (Treap.mergeT a.tree b.tree).nesting = 5 ∧
      nesting (dropTree (a.add b).tree) = 5 := by decide +kernel

end Verif.Drop
