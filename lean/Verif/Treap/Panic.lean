/- `TreapMap` when a comparison of keys panics and the client catches the panic (C74).

The functions of `Treap.Model` once more, following the slots of the tree: the first `b` comparisons of a call
return, the next one panics.  Comparisons of priorities (numbers) do not panic and are not counted. -/
import Verif.Treap.Lemmas
import Verif.Bst.Panic
import Verif.Lib.PanicSim

namespace Verif.Treap

open Verif.Bst Verif.Spec
open Verif.SL (Sorted find ins del)

variable {K V : Type} [LinearOrder K]

/-- treap/tree.rs:28-60 `split`.  `none`: the comparison of line 36 panicked; the slot `tree` is empty then (line 33)
and every node taken out of it is in a local variable, hence lost. -/
def splitP (key : K) : Nat → TTree K V → Option (TTree K V × TTree K V × TTree K V)
  | _, .nil => some (.nil, .nil, .nil)
  | 0, .node .. => none
  | b + 1, .node a l k v r =>
    if key < k then do
      let (t, d, res) ← splitP key b l
      return (t, d, mk a.prio res k v r)
    else if k < key then do
      let (t, d, res) ← splitP key b r
      return (mk a.prio l k v t, d, res)
    else some (l, mk a.prio .nil k v .nil, r)

/-- treap/tree.rs:62-98 `insert`: the tree afterwards and the result (`none`: panicked).  A panic skips the
`node.update()` of lines 72 and 77, so the nodes above keep their old lengths.  In lines 92-93 the slot `tree` is
empty while its nodes are being split. -/
def insertP (p : Nat) (key : K) (v : V) : Nat → TTree K V → TTree K V × Option (Option (K × V))
  | _, .nil => (.node ⟨p, 1⟩ .nil key v .nil, some none)
  | b, .node a l k w r =>
    if p ≤ a.prio then
      match b with
      | 0 => (.node a l k w r, none)
      | b + 1 =>
        if key < k then
          match insertP p key v b l with
          | (l', none) => (.node a l' k w r, none)
          | (l', some ret) => (mk a.prio l' k w r, some ret)
        else if k < key then
          match insertP p key v b r with
          | (r', none) => (.node a l k w r', none)
          | (r', some ret) => (mk a.prio l k w r', some ret)
        else (.node a l key v r, some (some (k, w)))
    else
      match splitP key b (.node a l k w r) with
      | none => (.nil, none)
      | some (l', dup, r') => (mk p l' key v r', some (entry dup))

/-- treap/tree.rs:100-126 `remove`: nothing is changed before the last comparison. -/
def removeP (key : K) : Nat → TTree K V → TTree K V × Option (Option (K × V))
  | _, .nil => (.nil, some none)
  | 0, .node a l k v r => (.node a l k v r, none)
  | b + 1, .node a l k v r =>
    if key < k then
      match removeP key b l with
      | (l', none) => (.node a l' k v r, none)
      | (l', some ret) => (mk a.prio l' k v r, some ret)
    else if k < key then
      match removeP key b r with
      | (r', none) => (.node a l k v r', none)
      | (r', some ret) => (mk a.prio l k v r', some ret)
    else (merge l r, some (some (k, v)))

/-- treap/map.rs:323-343 `split_off`: (the receiver afterwards, the returned map). -/
def TreapMap.splitOffP (m : TreapMap K V) (key : K) (inclusive : Bool) (b : Nat) :
    TreapMap K V × Option (TreapMap K V) :=
  match splitP key b m.tree with
  | none => (⟨.nil⟩, none)
  | some (t, d, r) => if inclusive then (⟨merge t d⟩, some ⟨r⟩) else (⟨t⟩, some ⟨merge d r⟩)

/-- The API calls (see `step`), comparison `b + 1` of the call panicking. -/
def stepP (m : TreapMap K V) (op : MapOp K V) (p : Nat) (b : Nat) :
    Option (TreapMap K V × Option (MapRes K V)) :=
  match op with
  | .insert k v => let (t, r) := insertP p k v b m.tree; some (⟨t⟩, r.map .pair)
  | .remove k => let (t, r) := removeP k b m.tree; some (⟨t⟩, r.map .pair)
  | .get k => some (m, (m.tree.getP b k).map fun e => .val (e.map (·.2)))
  | .containsKey k => some (m, (m.tree.getP b k).map fun e => .bool e.isSome)
  | .getMut k f =>
    match m.tree.getMutP b k f with
    | none => some (m, none)
    | some (e, t) => some (⟨t⟩, some (.val (e.map (·.2))))
  | .floor k => some (m, (m.tree.floorP b k).map fun e => .key (e.map (·.1)))
  | .ceil k => some (m, (m.tree.ceilP b k).map fun e => .key (e.map (·.1)))
  | op => do let (m', r) ← step m op p; return (m', some r)

/-- `TreapMap` under panicking comparisons. -/
def panicImpl (K V : Type) [LinearOrder K] : PanicImpl K V where
  State := TreapMap K V
  Draw := Nat
  empty := TreapMap.new
  step := stepP

/-- The number of comparisons of keys a call makes if none panics. -/
def comparisons (m : TreapMap K V) : MapOp K V → Nat
  | .insert k _ | .remove k | .getMut k _ | .get k | .containsKey k | .floor k | .ceil k => searchCost m.tree k
  | _ => 0

/-- What is left of the tree when comparison `b + 1` of `insert` panics: the path down to the new node's place is
searched first; once the place is found, the subtree there is lost. -/
def hole (p : Nat) (key : K) : Nat → TTree K V → TTree K V
  | _, .nil => .nil
  | b, .node a l k w r =>
    if p ≤ a.prio then
      match b with
      | 0 => .node a l k w r
      | b + 1 =>
        if key < k then .node a (hole p key b l) k w r
        else if k < key then .node a l k w (hole p key b r)
        else .node a l k w r
    else .nil

/-- The map left behind by a panic. -/
def wreck (m : TreapMap K V) (p b : Nat) : MapOp K V → TreapMap K V
  | .insert k _ => ⟨hole p k b m.tree⟩
  | _ => m

theorem splitP_eq (key : K) (b : Nat) (t : TTree K V) :
    splitP key b t = if b < searchCost t key then none else some (split key t) := by
  induction t generalizing b with
  | nil => cases b <;> simp [splitP, searchCost, split]
  | node a l x w r ihl ihr =>
    cases b with
    | zero => simp only [splitP, searchCost]; split_ifs <;> simp_all
    | succ b =>
      simp only [splitP, searchCost, split]
      by_cases h1 : key < x
      · simp only [h1, if_true, ihl]
        by_cases hb : b < searchCost l key <;> simp [hb]
      · simp only [h1, if_false]
        by_cases h2 : x < key
        · simp only [h2, if_true, ihr]
          by_cases hb : b < searchCost r key <;> simp [hb]
        · simp [h2]

theorem insertP_eq (p : Nat) (key : K) (v : V) (b : Nat) (t : TTree K V) :
    insertP p key v b t = if b < searchCost t key then (hole p key b t, none)
      else ((insert p key v t).1, some (insert p key v t).2) := by
  induction t generalizing b with
  | nil => cases b <;> simp [insertP, searchCost, insert]
  | node a l x w r ihl ihr =>
    rw [insertP.eq_def, hole.eq_def]
    simp only [insert]
    by_cases hp : p ≤ a.prio
    · simp only [hp, if_true]
      cases b with
      | zero => simp only [searchCost]; split_ifs <;> simp_all
      | succ b =>
        simp only [searchCost]
        by_cases h1 : key < x
        · simp only [h1, if_true, ihl]
          by_cases hb : b < searchCost l key <;> simp [hb]
        · simp only [h1, if_false]
          by_cases h2 : x < key
          · simp only [h2, if_true, ihr]
            by_cases hb : b < searchCost r key <;> simp [hb]
          · simp [h2]
    · simp only [hp, if_false, splitP_eq]
      by_cases hb : b < searchCost (.node a l x w r) key
      · simp [hb]
      · simp [hb, insertAbove]

theorem removeP_eq (key : K) (b : Nat) (t : TTree K V) :
    removeP key b t = if b < searchCost t key then (t, none)
      else ((remove key t).1, some (remove key t).2) := by
  induction t generalizing b with
  | nil => cases b <;> simp [removeP, searchCost, remove]
  | node a l x w r ihl ihr =>
    cases b with
    | zero => simp only [removeP, searchCost]; split_ifs <;> simp_all
    | succ b =>
      simp only [removeP, searchCost, remove]
      by_cases h1 : key < x
      · simp only [h1, if_true, ihl]
        by_cases hb : b < searchCost l key <;> simp [hb]
      · simp only [h1, if_false]
        by_cases h2 : x < key
        · simp only [h2, if_true, ihr]
          by_cases hb : b < searchCost r key <;> simp [hb]
        · simp [h2]

/-- A call makes `comparisons m op` comparisons.  If they all return, the call is the ordinary one; if one of them
panics, what is left is `wreck m p b op`. -/
theorem stepP_eq (m : TreapMap K V) (op : MapOp K V) (p b : Nat) :
    stepP m op p b = if b < comparisons m op then some (wreck m p b op, none)
      else (step m op p).map fun q => (q.1, some q.2) := by
  cases op with
  | insert k v =>
    simp only [stepP, insertP_eq, comparisons, step]
    by_cases hb : b < searchCost m.tree k <;> simp only [hb, if_true, if_false] <;> rfl
  | remove k =>
    simp only [stepP, removeP_eq, comparisons, step]
    by_cases hb : b < searchCost m.tree k <;> simp only [hb, if_true, if_false] <;> rfl
  | get k =>
    simp only [stepP, comparisons, step, Tree.getP_eq]
    by_cases hb : b < searchCost m.tree k <;> simp only [hb, if_true, if_false] <;> rfl
  | containsKey k =>
    simp only [stepP, comparisons, step, Tree.getP_eq]
    by_cases hb : b < searchCost m.tree k <;> simp only [hb, if_true, if_false] <;> rfl
  | getMut k f =>
    simp only [stepP, comparisons, step, Tree.getMutP_eq]
    by_cases hb : b < searchCost m.tree k <;> simp only [hb, if_true, if_false] <;> rfl
  | floor k =>
    simp only [stepP, comparisons, step, Tree.floorP_eq]
    by_cases hb : b < searchCost m.tree k <;> simp only [hb, if_true, if_false] <;> rfl
  | ceil k =>
    simp only [stepP, comparisons, step, Tree.ceilP_eq]
    by_cases hb : b < searchCost m.tree k <;> simp only [hb, if_true, if_false] <;> rfl
  | _ => simp [stepP, comparisons, step]

/-! ### Stored lengths that are too large -/

/-- Every node's length is at least the number of entries below it. -/
def Over : TTree K V → Prop
  | .nil => True
  | .node a l _ _ r => 1 + l.size + r.size ≤ a.len ∧ Over l ∧ Over r

omit [LinearOrder K] in
theorem Over.size {t : TTree K V} (h : Over t) : t.size ≤ len t := by
  cases t with
  | nil => exact Nat.le_refl _
  | node a l k v r => have := h.1; simp only [Tree.size, len_node]; omega

omit [LinearOrder K] in
theorem over_mk {p : Nat} {l r : TTree K V} {k : K} {v : V} (hl : Over l) (hr : Over r) : Over (mk p l k v r) := by
  have := hl.size
  have := hr.size
  exact ⟨by simp only; omega, hl, hr⟩

omit [LinearOrder K] in
theorem over_merge {l r : TTree K V} (hl : Over l) (hr : Over r) : Over (merge l r) := by
  induction l generalizing r with
  | nil => simpa
  | node a ll k v lr ihl ihr =>
    induction r with
    | nil => simpa
    | node b rl x w rr ihl' ihr' =>
      rw [merge_node_node]
      split
      · exact over_mk hl.2.1 (ihr hl.2.2 hr)
      · exact over_mk (ihl' hr.2.1) hr.2.2

theorem over_split (key : K) {t : TTree K V} (h : Over t) :
    Over (split key t).1 ∧ Over (split key t).2.1 ∧ Over (split key t).2.2 := by
  induction t with
  | nil => simp [split, Over]
  | node a l k v r ihl ihr =>
    have hl := ihl h.2.1
    have hr := ihr h.2.2
    simp only [split]
    split_ifs
    · exact ⟨hl.1, hl.2.1, over_mk hl.2.2 h.2.2⟩
    · exact ⟨over_mk h.2.1 hr.1, hr.2.1, hr.2.2⟩
    · exact ⟨h.2.1, over_mk trivial trivial, h.2.2⟩

theorem over_insert (p : Nat) (key : K) (v : V) {t : TTree K V} (h : Over t) : Over (insert p key v t).1 := by
  induction t with
  | nil => exact ⟨by simp [Tree.size], trivial, trivial⟩
  | node a l k w r ihl ihr =>
    simp only [insert]
    split_ifs
    · exact over_mk (ihl h.2.1) h.2.2
    · exact over_mk h.2.1 (ihr h.2.2)
    · exact h
    · have := over_split key h
      exact over_mk this.1 this.2.2

theorem over_remove (key : K) {t : TTree K V} (h : Over t) : Over (remove key t).1 := by
  induction t with
  | nil => trivial
  | node a l k w r ihl ihr =>
    simp only [remove]
    split_ifs
    · exact over_mk (ihl h.2.1) h.2.2
    · exact over_mk h.2.1 (ihr h.2.2)
    · exact over_merge h.2.1 h.2.2

theorem over_getMut (key : K) (f : V → V) {t : TTree K V} (h : Over t) :
    Over (t.getMut key f).2 ∧ (t.getMut key f).2.size = t.size := by
  induction t with
  | nil => exact ⟨trivial, rfl⟩
  | node a l k w r ihl ihr =>
    simp only [Tree.getMut]
    split_ifs
    · obtain ⟨h1, h2⟩ := ihl h.2.1
      exact ⟨⟨by rw [h2]; exact h.1, h1, h.2.2⟩, by simp only [Tree.size, h2]⟩
    · obtain ⟨h1, h2⟩ := ihr h.2.2
      exact ⟨⟨by rw [h2]; exact h.1, h.2.1, h1⟩, by simp only [Tree.size, h2]⟩
    · exact ⟨h, rfl⟩

theorem over_hole (p : Nat) (key : K) (b : Nat) {t : TTree K V} (h : Over t) :
    Over (hole p key b t) ∧ (hole p key b t).size ≤ t.size := by
  induction t generalizing b with
  | nil => cases b <;> exact ⟨trivial, Nat.le_refl _⟩
  | node a l k w r ihl ihr =>
    rw [hole.eq_def]
    simp only
    split
    · cases b with
      | zero => exact ⟨h, Nat.le_refl _⟩
      | succ b =>
        have h0 := h.1
        obtain ⟨h1, h2⟩ := ihl b h.2.1
        obtain ⟨h3, h4⟩ := ihr b h.2.2
        simp only
        split_ifs
        · exact ⟨⟨by omega, h1, h.2.2⟩, by simp only [Tree.size]; omega⟩
        · exact ⟨⟨by omega, h.2.1, h3⟩, by simp only [Tree.size]; omega⟩
        · exact ⟨h, Nat.le_refl _⟩
    · exact ⟨trivial, Nat.zero_le _⟩

/-- The lost entries are a run, and the new key would have stood in it. -/
theorem hole_spec (p : Nat) (key : K) (b : Nat) (t : TTree K V) (hs : Sorted t.toList) :
    hole p key b t = t ∨ ∃ pre mid post, t.toList = pre ++ (mid ++ post) ∧ (hole p key b t).toList = pre ++ post ∧
      (∀ e ∈ pre, e.1 < key) ∧ ∀ e ∈ post, key < e.1 := by
  induction t generalizing b with
  | nil => cases b <;> exact .inl rfl
  | node a l k w r ihl ihr =>
    obtain ⟨s1, s2, s3, s4⟩ := SL.sorted_mid.1 hs
    rw [hole.eq_def]
    simp only
    split
    · cases b with
      | zero => exact .inl rfl
      | succ b =>
        simp only
        split_ifs with h1 h2
        · rcases ihl b s1 with h | ⟨pre, mid, post, h3, h4, h5, h6⟩
          · exact .inl (by rw [h])
          · refine .inr ⟨pre, mid, post ++ (k, w) :: r.toList, by simp [h3], by simp [h4], h5, ?_⟩
            intro e he
            rcases List.mem_append.1 he with he | he
            · exact h6 e he
            · rcases List.mem_cons.1 he with rfl | he
              · exact h1
              · exact lt_trans h1 (s4 e he)
        · rcases ihr b s2 with h | ⟨pre, mid, post, h3, h4, h5, h6⟩
          · exact .inl (by rw [h])
          · refine .inr ⟨l.toList ++ (k, w) :: pre, mid, post, by simp [h3], by simp [h4], ?_, h6⟩
            intro e he
            rcases List.mem_append.1 he with he | he
            · exact lt_trans (s3 e he) h2
            · rcases List.mem_cons.1 he with rfl | he
              · exact h2
              · exact h5 e he
        · exact .inl rfl
    · exact .inr ⟨[], _, [], by simp; rfl, by simp, by simp, by simp⟩

theorem holeAt_of_append {k : K} {pre mid post : List (K × V)} (hs : Sorted (pre ++ (mid ++ post)))
    (h1 : ∀ e ∈ pre, e.1 < k) (h2 : ∀ e ∈ post, k < e.1) (v : V) :
    HoleAt (.insert k v) (SL.abs (pre ++ (mid ++ post))) (SL.abs (pre ++ post)) := by
  obtain ⟨s1, s2, s3⟩ := SL.sorted_append.1 hs
  obtain ⟨s4, s5, s6⟩ := SL.sorted_append.1 s2
  refine ⟨fun x => (∀ e ∈ pre, e.1 < x) ∧ ∀ e ∈ post, x < e.1, ?_, ?_, ?_, ?_, ?_⟩
  · rintro x y z ⟨hx, -⟩ ⟨-, hz⟩ hxy hyz
    exact ⟨fun e he => lt_of_lt_of_le (hx e he) hxy, fun e he => lt_of_le_of_lt hyz (hz e he)⟩
  · rintro x y ⟨hx, -⟩ hxy hyk
    exact ⟨fun e he => lt_of_lt_of_le (hx e he) hxy, fun e he => lt_of_le_of_lt hyk (h2 e he)⟩
  · rintro x y ⟨-, hx⟩ hky hyx
    exact ⟨fun e he => lt_of_lt_of_le (h1 e he) hky, fun e he => lt_of_le_of_lt hyx (hx e he)⟩
  · rintro x ⟨hx, hx'⟩
    have e1 : find x pre = none := SL.find_eq_none.2 fun a ha => ne_of_lt (hx a ha)
    have e2 : find x post = none := SL.find_eq_none.2 fun a ha => ne_of_gt (hx' a ha)
    simp [SL.abs, SL.find_append, e1, e2]
  · intro x hx
    have e1 : find x mid = none := SL.find_eq_none.2 fun a ha h => hx (by
      subst h
      exact ⟨fun e he => s3 e he a (by simp [ha]), fun e he => s6 a ha e he⟩)
    simp [SL.abs, SL.find_append, e1]

theorem holeAt_refl (k : K) (v : V) (m : AMap K V) : HoleAt (.insert k v) m m :=
  ⟨fun _ => False, fun _ _ _ h => h.elim, fun _ _ h => h.elim, fun _ _ h => h.elim, fun _ h => h.elim, fun _ _ => rfl⟩

/-- An ordinary call on a treap whose lengths may be too large. -/
theorem step_over (t : TTree K V) (op : MapOp K V) (p : Nat) (hs : Sorted t.toList) (ho : Over t) :
    ∃ s' r, step ⟨t⟩ op p = some (s', r) ∧ OverLen op (SL.abs t.toList) r (SL.abs s'.tree.toList) ∧
      Sorted s'.tree.toList ∧ Over s'.tree := by
  have hsp := SL.step_spec hs op
  have hst := SL.sorted_next hs op
  cases op with
  | insert k v =>
    obtain ⟨h1, h2⟩ := insert_spec p k v t hs
    refine ⟨⟨(insert p k v t).1⟩, .pair (find k t.toList), by simp [step, h2], ?_, ?_, over_insert p k v ho⟩
    · simp only [h1]; exact hsp
    · simp only [h1]; exact hst
  | remove k =>
    obtain ⟨h1, h2⟩ := remove_spec k t hs
    refine ⟨⟨(remove k t).1⟩, .pair (find k t.toList), by simp [step, h2], ?_, ?_, over_remove k ho⟩
    · simp only [h1]; exact hsp
    · simp only [h1]; exact hst
  | getMut k f =>
    refine ⟨⟨(t.getMut k f).2⟩, _, rfl, ?_, ?_, (over_getMut k f ho).1⟩
    · simp only [Tree.getMut_fst, Tree.get_eq t k hs, Tree.getMut_snd t k f hs]; exact hsp
    · simp only [Tree.getMut_snd t k f hs]; exact hst
  | get k => exact ⟨⟨t⟩, _, rfl, by simp only [Tree.get_eq t k hs]; exact hsp, hs, ho⟩
  | containsKey k => exact ⟨⟨t⟩, _, rfl, by simp only [Tree.get_eq t k hs]; exact hsp, hs, ho⟩
  | floor k => exact ⟨⟨t⟩, _, rfl, by simp only [Tree.floor_eq t k hs]; exact hsp, hs, ho⟩
  | ceil k => exact ⟨⟨t⟩, _, rfl, by simp only [Tree.ceil_eq t k hs]; exact hsp, hs, ho⟩
  | min => exact ⟨⟨t⟩, _, rfl, by simp only [Tree.min_eq]; exact hsp, hs, ho⟩
  | max => exact ⟨⟨t⟩, _, rfl, by simp only [Tree.max_eq]; exact hsp, hs, ho⟩
  | len =>
    refine ⟨⟨t⟩, _, rfl, ⟨⟨t.toList, len t, SL.lists_abs hs, ?_, rfl⟩, rfl⟩, hs, ho⟩
    rw [← Tree.size_eq_length]; exact ho.size
  | isEmpty =>
    refine ⟨⟨t⟩, _, rfl, ?_, hs, ho⟩
    have : (len t == 0) = t.toList.isEmpty := by
      cases t with
      | nil => rfl
      | node a l k v r =>
        have := ho.1
        simp only [len_node, Tree.toList_node]
        rw [beq_false_of_ne (by omega)]
        cases l.toList <;> rfl
    simp only [this]; exact hsp
  | iter => exact ⟨⟨t⟩, _, rfl, by simp only [Iter.collect_start]; exact hsp, hs, ho⟩
  | clear => exact ⟨⟨.nil⟩, _, rfl, hsp, hst, trivial⟩

/-- The simulation of `TreapMap` under panicking comparisons. -/
def panicSim (K V : Type) [LinearOrder K] : SL.PanicSim (panicImpl K V) AMap.empty OverLen HoleAt where
  rel s σ := σ = SL.abs s.tree.toList ∧ Sorted s.tree.toList ∧ Over s.tree
  empty := ⟨rfl, by simp [panicImpl, TreapMap.new, Sorted], trivial⟩
  step := by
    rintro ⟨t⟩ σ op d b ⟨rfl, hs, ho⟩
    obtain ⟨p, rfl⟩ : ∃ p : Nat, p = d := ⟨d, rfl⟩
    change Sorted t.toList at hs
    change Over t at ho
    change ∃ s' o σ', stepP ⟨t⟩ op p b = some (s', o) ∧ _
    rw [stepP_eq]
    by_cases hb : b < comparisons ⟨t⟩ op
    · rw [if_pos hb]
      cases op with
      | insert k v =>
        have hh := (over_hole p k b ho).1
        rcases hole_spec p k b t hs with h | ⟨pre, mid, post, h1, h2, h3, h4⟩
        · exact ⟨⟨t⟩, none, _, by simp only [wreck, h], ⟨rfl, hs, ho⟩, holeAt_refl k v _⟩
        · refine ⟨⟨hole p k b t⟩, none, _, rfl, ⟨rfl, ?_, hh⟩, ?_⟩
          · rw [h1] at hs
            obtain ⟨s1, s2, s3⟩ := SL.sorted_append.1 hs
            show Sorted (hole p k b t).toList
            rw [h2]
            exact SL.sorted_append.2 ⟨s1, (SL.sorted_append.1 s2).2.1, fun a ha c hc => s3 a ha c (by simp [hc])⟩
          · rw [h1] at hs
            have := holeAt_of_append hs h3 h4 v
            rw [← h1, ← h2] at this
            exact this
      | remove k => exact ⟨_, none, _, rfl, ⟨rfl, hs, ho⟩, rfl⟩
      | get k => exact ⟨_, none, _, rfl, ⟨rfl, hs, ho⟩, rfl⟩
      | containsKey k => exact ⟨_, none, _, rfl, ⟨rfl, hs, ho⟩, rfl⟩
      | getMut k f => exact ⟨_, none, _, rfl, ⟨rfl, hs, ho⟩, rfl⟩
      | floor k => exact ⟨_, none, _, rfl, ⟨rfl, hs, ho⟩, rfl⟩
      | ceil k => exact ⟨_, none, _, rfl, ⟨rfl, hs, ho⟩, rfl⟩
      | _ => simp [comparisons] at hb
    · rw [if_neg hb]
      obtain ⟨s', r, h1, h2, h3, h4⟩ := step_over t op p hs ho
      exact ⟨s', some r, _, by rw [h1]; rfl, ⟨rfl, h3, h4⟩, h2⟩

end Verif.Treap
