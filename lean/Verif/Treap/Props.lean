/- Properties C04, C09, C10, C11 of `TreapMap` (and of `TreapSet`, which is `TreapMap` with unit values). -/
import Verif.Treap.Lemmas
import Mathlib.Data.List.Nodup

namespace Verif.Treap

open Verif.Bst Verif.Spec Verif.SL

/-- **C04.** Every history of `TreapMap` calls runs without panic and returns what an abstract
ordered map returns, whatever priorities are drawn. -/
theorem C04_treap_history (K V : Type) [LinearOrder K] : (impl K V).Correct := (sim K V).correct

/-- A history with an overwrite and a removal; the numbers on the right are the drawn priorities. -/
example : ((impl Nat Nat).run TreapMap.new ([(.insert 2 20, 5), (.insert 1 10, 9),
      (.insert 3 30, 1), (.insert 4 40, 7), (.getMut 1 (· + 1), 0),
      (.insert 2 21, 8), (.remove 3, 0), (.floor 3, 0), (.ceil 3, 0), (.get 1, 0),
      (.len, 0)] : List (MapOp Nat Nat × Nat))).map (fun p => p.2.map (·.2)) =
    some [.pair none, .pair none, .pair none, .pair none, .val (some 10), .pair (some (2, 20)),
      .pair (some (3, 30)), .key (some 2), .key (some 4), .val (some 11), .num 3] := by
  decide

variable {K V : Type} [LinearOrder K]

/-- The maps a program can build: by any map call, with any priorities, by the set operations and by
`split_off` (both the receiver and the returned map). -/
inductive Reach : TreapMap K V → Prop
  | new : Reach TreapMap.new
  | step {s s' op d r} : Reach s → step s op d = some (s', r) → Reach s'
  | splitOffL {s} (k : K) (incl : Bool) : Reach s → Reach (s.splitOff k incl).1
  | splitOffR {s} (k : K) (incl : Bool) : Reach s → Reach (s.splitOff k incl).2
  | union {a b c} : Reach a → Reach b → a.union b = some c → Reach c
  | intersection {a b c} : Reach a → Reach b → a.intersection b = some c → Reach c
  | difference {a b c} : Reach a → Reach b → a.difference b = some c → Reach c
  | symmetricDifference {a b c} : Reach a → Reach b → a.symmetricDifference b = some c → Reach c

/-- Ordered entries, heap order, exact lengths. -/
def Good (s : TreapMap K V) : Prop := Sorted s.tree.toList ∧ ∃ b, Wf b s.tree

theorem good_splitOff {s : TreapMap K V} (h : Good s) (k : K) (incl : Bool) :
    Good (s.splitOff k incl).1 ∧ Good (s.splitOff k incl).2 := by
  obtain ⟨hs, b, hb⟩ := h
  obtain ⟨h1, _⟩ := split_spec k s.tree hs
  obtain ⟨w1, w2, w3⟩ := wf_split k hb
  rw [h1] at hs
  have e1 := (sorted_append.1 hs).1
  have e2 := (sorted_append.1 hs).2.1
  have e3 := (sorted_append.1 e2).2.1
  have e4 : Sorted ((split k s.tree).1.toList ++ (split k s.tree).2.1.toList) := by
    rw [← List.append_assoc] at hs; exact (sorted_append.1 hs).1
  cases incl
  · exact ⟨⟨e1, b, w1⟩, by simpa [TreapMap.splitOff, toList_merge] using e2, b, wf_merge w2 w3⟩
  · exact ⟨⟨by simpa [TreapMap.splitOff, toList_merge] using e4, b, wf_merge w1 w2⟩, e3, b, w3⟩

theorem comb_of_delivers {g : Bool → Option (K × V) → Option (K × V) → Option (K × V)}
    {f : TTree K V → TTree K V → Bool → Option (TTree K V)} {a b : TreapMap K V}
    (hf : Delivers g (depthBound a.tree b.tree) f) (ha : Good a) (hb : Good b) :
    ∃ t, f a.tree b.tree false = some t ∧
      IsComb (g false) a.tree.toList b.tree.toList t.toList ∧ Good (⟨t⟩ : TreapMap K V) := by
  obtain ⟨hs, x, hx⟩ := ha
  obtain ⟨hs', y, hy⟩ := hb
  obtain ⟨t, h1, h2, h3⟩ := hf (max x y) a.tree b.tree false
    (by simp [depthBound, Tree.size_eq_length]) hs hs' (hx.mono (le_max_left _ _))
    (hy.mono (le_max_right _ _))
  exact ⟨t, h1, h2, h2.1, _, h3⟩

theorem good_of_reach {s : TreapMap K V} (h : Reach s) : Good s := by
  induction h with
  | new => exact ⟨by simp [TreapMap.new, Sorted], 0, trivial⟩
  | step _ hstep ih =>
    rename_i s s' op d r _
    obtain ⟨s₁, h1, h2, h3⟩ := (sim K V).step s _ op d ih.1 ⟨rfl, ih.2⟩
    have h4 : some (s', r) = some (s₁, res s.tree.toList op) := by rw [← hstep]; exact h1
    have h5 : s' = s₁ := congrArg Prod.fst (Option.some.inj h4)
    subst h5
    exact ⟨by rw [h2]; exact sorted_next ih.1 op, h3⟩
  | splitOffL k incl _ ih => exact (good_splitOff ih k incl).1
  | splitOffR k incl _ ih => exact (good_splitOff ih k incl).2
  | union _ _ h iha ihb =>
    obtain ⟨t, h1, _, h3⟩ := comb_of_delivers (unionF_spec _) iha ihb
    simp only [TreapMap.union, h1, Option.map_some, Option.some.injEq] at h
    exact h ▸ h3
  | intersection _ _ h iha ihb =>
    obtain ⟨t, h1, _, h3⟩ := comb_of_delivers (interF_spec _) iha ihb
    simp only [TreapMap.intersection, h1, Option.map_some, Option.some.injEq] at h
    exact h ▸ h3
  | difference _ _ h iha ihb =>
    obtain ⟨t, h1, _, h3⟩ := comb_of_delivers (diffF_spec false _) iha ihb
    simp only [TreapMap.difference, h1, Option.map_some, Option.some.injEq] at h
    exact h ▸ h3
  | symmetricDifference _ _ h iha ihb =>
    obtain ⟨t, h1, _, h3⟩ := comb_of_delivers (diffF_spec true _) iha ihb
    simp only [TreapMap.symmetricDifference, h1, Option.map_some, Option.some.injEq] at h
    exact h ▸ h3

theorem good_represents {s : TreapMap K V} (h : Good s) :
    (impl K V).Represents s (abs s.tree.toList) := (sim K V).represents h.1 ⟨rfl, h.2⟩

/-- Every map a program can build behaves as an ordered map with some contents (so the hypotheses
`Represents a ma` below can always be met). -/
theorem C04_treap_represents {s : TreapMap K V} (h : Reach s) : ∃ m, (impl K V).Represents s m :=
  ⟨_, good_represents (good_of_reach h)⟩

theorem contents {s : TreapMap K V} {m : AMap K V} (h : Reach s) (hm : (impl K V).Represents s m) :
    m = abs s.tree.toList :=
  represents_unique (I := impl K V) (0 : Nat) hm (good_represents (good_of_reach h))

/-! ### C10 -/

omit [LinearOrder K] in
theorem inter_val (x y : Option (K × V)) : (if (y.map (·.2)).isSome then x.map (·.2) else none) =
    (gInter false x y).map (·.2) := by cases x <;> cases y <;> rfl

omit [LinearOrder K] in
theorem diff_val (x y : Option (K × V)) : (if (y.map (·.2)).isSome then none else x.map (·.2)) =
    (gDiff false false x y).map (·.2) := by cases x <;> cases y <;> rfl

omit [LinearOrder K] in
theorem symm_val (x y : Option (K × V)) :
    (if (y.map (·.2)).isSome then (if (x.map (·.2)).isSome then none else y.map (·.2))
      else x.map (·.2)) = (gDiff true false x y).map (·.2) := by cases x <;> cases y <;> rfl

/-- **C10, union (`+`).** The union behaves as the map with the bindings of either, `a`'s values on
common keys. -/
theorem C10_union {a b : TreapMap K V} {ma mb : AMap K V} (ha : Reach a) (hb : Reach b)
    (hma : (impl K V).Represents a ma) (hmb : (impl K V).Represents b mb) :
    ∃ c, a.union b = some c ∧ (impl K V).Represents c (fun k => (ma k).or (mb k)) := by
  obtain ⟨t, h1, h2, h3⟩ := comb_of_delivers (unionF_spec _) (good_of_reach ha) (good_of_reach hb)
  refine ⟨⟨t⟩, by simp [TreapMap.union, h1], ?_⟩
  convert good_represents h3 using 1
  funext k
  rw [contents ha hma, contents hb hmb]
  simp only [abs, h2.2, gUnion]
  cases find k a.tree.toList <;> rfl

/-- **C10, intersection.** The intersection behaves as the map with the common keys and `a`'s values. -/
theorem C10_intersection {a b : TreapMap K V} {ma mb : AMap K V} (ha : Reach a) (hb : Reach b)
    (hma : (impl K V).Represents a ma) (hmb : (impl K V).Represents b mb) :
    ∃ c, a.intersection b = some c ∧
      (impl K V).Represents c (fun k => if (mb k).isSome then ma k else none) := by
  obtain ⟨t, h1, h2, h3⟩ := comb_of_delivers (interF_spec _) (good_of_reach ha) (good_of_reach hb)
  refine ⟨⟨t⟩, by simp [TreapMap.intersection, h1], ?_⟩
  convert good_represents h3 using 1
  funext k
  rw [contents ha hma, contents hb hmb]
  simp only [abs, h2.2]
  exact inter_val _ _

/-- **C10, difference (`-`).** The difference behaves as the map with `a`'s bindings whose key `b` lacks. -/
theorem C10_difference {a b : TreapMap K V} {ma mb : AMap K V} (ha : Reach a) (hb : Reach b)
    (hma : (impl K V).Represents a ma) (hmb : (impl K V).Represents b mb) :
    ∃ c, a.difference b = some c ∧
      (impl K V).Represents c (fun k => if (mb k).isSome then none else ma k) := by
  obtain ⟨t, h1, h2, h3⟩ := comb_of_delivers (diffF_spec false _) (good_of_reach ha) (good_of_reach hb)
  refine ⟨⟨t⟩, by simp [TreapMap.difference, h1], ?_⟩
  convert good_represents h3 using 1
  funext k
  rw [contents ha hma, contents hb hmb]
  simp only [abs, h2.2]
  exact diff_val _ _

/-- **C10, symmetric difference.** It behaves as the map with the bindings whose key occurs in exactly
one of the two. -/
theorem C10_symmetric_difference {a b : TreapMap K V} {ma mb : AMap K V} (ha : Reach a) (hb : Reach b)
    (hma : (impl K V).Represents a ma) (hmb : (impl K V).Represents b mb) :
    ∃ c, a.symmetricDifference b = some c ∧
      (impl K V).Represents c (fun k => if (mb k).isSome then (if (ma k).isSome then none else mb k)
        else ma k) := by
  obtain ⟨t, h1, h2, h3⟩ := comb_of_delivers (diffF_spec true _) (good_of_reach ha) (good_of_reach hb)
  refine ⟨⟨t⟩, by simp [TreapMap.symmetricDifference, h1], ?_⟩
  convert good_represents h3 using 1
  funext k
  rw [contents ha hma, contents hb hmb]
  simp only [abs, h2.2]
  exact symm_val _ _

/-! ### C11 -/

/-- **C11.** `split_off(key, inclusive)` leaves in the receiver the bindings below `key` (and that of
`key` if `inclusive`) and returns the others. -/
theorem C11_split_off {a : TreapMap K V} {ma : AMap K V} (ha : Reach a)
    (hma : (impl K V).Represents a ma) (key : K) (inclusive : Bool) :
    (impl K V).Represents (a.splitOff key inclusive).1
        (fun k => if k < key ∨ (k = key ∧ inclusive = true) then ma k else none) ∧
      (impl K V).Represents (a.splitOff key inclusive).2
        (fun k => if k < key ∨ (k = key ∧ inclusive = true) then none else ma k) := by
  have hg := good_of_reach ha
  obtain ⟨g1, g2⟩ := good_splitOff hg key inclusive
  obtain ⟨h1, h2, h3, h4, h5⟩ := split_spec key a.tree hg.1
  have hL : ∀ k, ¬ k < key → find k (split key a.tree).1.toList = none := fun k hk =>
    find_eq_none.2 fun e he h => hk (by rw [← h]; exact h2 e he)
  have hR : ∀ k, ¬ key < k → find k (split key a.tree).2.2.toList = none := fun k hk =>
    find_eq_none.2 fun e he h => hk (by rw [← h]; exact h3 e he)
  have hM : ∀ k, k ≠ key → find k (split key a.tree).2.1.toList = none := fun k hk =>
    find_eq_none.2 fun e he h => hk (by rw [← h]; exact h5 e he)
  have hA : ∀ k, find k a.tree.toList = (find k (split key a.tree).1.toList).or
      ((find k (split key a.tree).2.1.toList).or (find k (split key a.tree).2.2.toList)) := by
    intro k; conv_lhs => rw [h1, find_append, find_append]
  constructor
  · convert good_represents g1 using 1
    funext k
    rw [contents ha hma]
    simp only [abs, hA k]
    rcases lt_trichotomy k key with h | h | h
    · have e1 := hR k (lt_asymm h)
      have e2 := hM k (ne_of_lt h)
      cases inclusive <;> simp [TreapMap.splitOff, h, e1, e2, toList_merge, find_append]
    · subst h
      have e1 := hR k (lt_irrefl k)
      have e2 := hL k (lt_irrefl k)
      cases inclusive <;> simp [TreapMap.splitOff, e1, e2, toList_merge, find_append]
    · have e1 := hL k (lt_asymm h)
      have e2 := hM k (ne_of_gt h)
      cases inclusive <;>
        simp [TreapMap.splitOff, lt_asymm h, ne_of_gt h, e1, e2, toList_merge, find_append]
  · convert good_represents g2 using 1
    funext k
    rw [contents ha hma]
    simp only [abs, hA k]
    rcases lt_trichotomy k key with h | h | h
    · have e1 := hR k (lt_asymm h)
      have e2 := hM k (ne_of_lt h)
      cases inclusive <;> simp [TreapMap.splitOff, h, e1, e2, toList_merge, find_append]
    · subst h
      have e1 := hR k (lt_irrefl k)
      have e2 := hL k (lt_irrefl k)
      cases inclusive <;> simp [TreapMap.splitOff, e1, e2, toList_merge, find_append]
    · have e1 := hL k (lt_asymm h)
      have e2 := hM k (ne_of_gt h)
      cases inclusive <;>
        simp [TreapMap.splitOff, lt_asymm h, ne_of_gt h, e1, e2, toList_merge, find_append]

/-! ### C09 -/

/-- Priority at the root. -/
def rootPrio : TTree K V → Option Nat
  | .nil => none
  | .node a _ _ _ _ => some a.prio

/-- Every node's priority is at least that of each of its children. -/
def HeapOrdered : TTree K V → Prop
  | .nil => True
  | .node a l _ _ r => (∀ p ∈ rootPrio l, p ≤ a.prio) ∧ (∀ p ∈ rootPrio r, p ≤ a.prio) ∧
      HeapOrdered l ∧ HeapOrdered r

omit [LinearOrder K] in
theorem heapOrdered_of_wf {b : Nat} {t : TTree K V} (h : Wf b t) :
    HeapOrdered t ∧ ∀ p ∈ rootPrio t, p ≤ b := by
  induction t generalizing b with
  | nil => exact ⟨trivial, by simp [rootPrio]⟩
  | node a l k v r ihl ihr =>
    obtain ⟨l1, l2⟩ := ihl h.2.2.1
    obtain ⟨r1, r2⟩ := ihr h.2.2.2
    exact ⟨⟨l2, r2, l1, r1⟩, by simpa [rootPrio] using h.1⟩

/-- **C09.** Heap order holds in every map a program can build. -/
theorem C09_treap_heap {s : TreapMap K V} (h : Reach s) : HeapOrdered s.tree := by
  obtain ⟨_, b, hb⟩ := good_of_reach h
  exact (heapOrdered_of_wf hb).1

/-- The (key, priority) pairs of a treap. -/
def keyPrios : TTree K V → List (K × Nat)
  | .nil => []
  | .node a l k _ r => keyPrios l ++ (k, a.prio) :: keyPrios r

/-- The shape of a treap: where each key and priority sits. -/
def skeleton : TTree K V → Tree Nat K Unit
  | .nil => .nil
  | .node a l k _ r => .node a.prio (skeleton l) k () (skeleton r)

omit [LinearOrder K] in
theorem keyPrios_keys (t : TTree K V) : (keyPrios t).map (·.1) = t.toList.map (·.1) := by
  induction t with
  | nil => rfl
  | node a l k v r ihl ihr => simp [keyPrios, ihl, ihr]

omit [LinearOrder K] in
theorem prio_le {b : Nat} {t : TTree K V} (h : Wf b t) : ∀ e ∈ keyPrios t, e.2 ≤ b := by
  induction t generalizing b with
  | nil => simp [keyPrios]
  | node a l k v r ihl ihr =>
    simp only [keyPrios, List.mem_append, List.mem_cons]
    rintro e (he | rfl | he)
    · exact le_trans (ihl h.2.2.1 e he) h.1
    · exact h.1
    · exact le_trans (ihr h.2.2.2 e he) h.1

omit [LinearOrder K] in
theorem wf_of_heapOrdered_aux {b : Nat} {t : TTree K V} (h : HeapOrdered t)
    (hb : ∀ p ∈ rootPrio t, p ≤ b) : ∀ e ∈ keyPrios t, e.2 ≤ b := by
  induction t generalizing b with
  | nil => simp [keyPrios]
  | node a l k v r ihl ihr =>
    have hab : a.prio ≤ b := hb _ rfl
    simp only [keyPrios, List.mem_append, List.mem_cons]
    rintro e (he | rfl | he)
    · exact le_trans (ihl h.2.2.1 h.1 e he) hab
    · exact hab
    · exact le_trans (ihr h.2.2.2 h.2.1 e he) hab

theorem append_cons_inj {α : Type} {l r l' r' : List α} {x : α} (h : (l ++ x :: r).Nodup)
    (e : l ++ x :: r = l' ++ x :: r') : l = l' ∧ r = r' := by
  induction l generalizing l' with
  | nil =>
    cases l' with
    | nil => simpa using e
    | cons y l' =>
      simp only [List.nil_append, List.cons_append, List.cons.injEq] at e
      obtain ⟨rfl, rfl⟩ := e
      simp at h
  | cons y l ih =>
    cases l' with
    | nil =>
      simp only [List.nil_append, List.cons_append, List.cons.injEq] at e
      obtain ⟨rfl, rfl⟩ := e
      simp at h
    | cons z l' =>
      simp only [List.cons_append, List.cons.injEq] at e
      obtain ⟨rfl, e⟩ := e
      rw [List.cons_append, List.nodup_cons] at h
      obtain ⟨rfl, rfl⟩ := ih h.2 e
      exact ⟨rfl, rfl⟩

omit [LinearOrder K] in
theorem skeleton_unique {W : Type} (s : TTree K V) (t : TTree K W) (hs : HeapOrdered s)
    (ht : HeapOrdered t) (e : keyPrios s = keyPrios t)
    (hd : ((keyPrios s).map (·.2)).Nodup) : skeleton s = skeleton t := by
  induction s generalizing t with
  | nil =>
    cases t with
    | nil => rfl
    | node b l' k' v' r' => simp [keyPrios] at e
  | node a l k v r ihl ihr =>
    cases t with
    | nil => simp [keyPrios] at e
    | node b l' k' v' r' =>
      have h1 : (k, a.prio) ∈ keyPrios (.node b l' k' v' r') := by rw [← e]; simp [keyPrios]
      have h2 : (k', b.prio) ∈ keyPrios (.node a l k v r) := by rw [e]; simp [keyPrios]
      have h3 := wf_of_heapOrdered_aux (b := b.prio) ht (by simp [rootPrio]) _ h1
      have h4 := wf_of_heapOrdered_aux (b := a.prio) hs (by simp [rootPrio]) _ h2
      have hp : a.prio = b.prio := le_antisymm h3 h4
      have hnd : (keyPrios (.node a l k v r)).Nodup := List.Nodup.of_map _ hd
      have hk : (k', b.prio) = (k, a.prio) := by
        have h5 : (k, a.prio) ∈ keyPrios (.node a l k v r) := by simp [keyPrios]
        exact List.inj_on_of_nodup_map hd h2 h5 hp.symm
      simp only [Prod.mk.injEq] at hk
      obtain ⟨rfl, _⟩ := hk
      simp only [keyPrios] at e hnd hd
      rw [← hp] at e
      obtain ⟨el, er⟩ := append_cons_inj hnd e
      simp only [List.map_append, List.map_cons, List.nodup_append, List.nodup_cons] at hd
      rw [skeleton, skeleton, ihl l' hs.2.2.1 ht.2.2.1 el hd.1, ihr r' hs.2.2.2 ht.2.2.2 er hd.2.1.2, hp]

/-- **C09, shape.** If the priorities in a map are distinct, its shape depends only on the set of
(key, priority) pairs, not on how it was built. -/
theorem C09_treap_shape {s t : TreapMap K V} (hs : Reach s) (ht : Reach t)
    (e : ∀ x, x ∈ keyPrios s.tree ↔ x ∈ keyPrios t.tree)
    (hd : ((keyPrios s.tree).map (·.2)).Nodup) : skeleton s.tree = skeleton t.tree := by
  have hsort : ∀ {u : TreapMap K V}, Reach u → Sorted (keyPrios u.tree) := by
    intro u hu
    have h1 : (u.tree.toList.map (·.1)).Pairwise (· < ·) := by
      rw [List.pairwise_map]; exact (good_of_reach hu).1
    rw [← keyPrios_keys, List.pairwise_map] at h1
    exact h1
  exact skeleton_unique _ _ (C09_treap_heap hs) (C09_treap_heap ht)
    (eq_of_mem_iff (hsort hs) (hsort ht) e) hd

/-! ### Instances: the hypotheses are met by non-trivial maps -/

/-- `{1 ↦ 10, 2 ↦ 20, 3 ↦ 30}` with priorities 4, 9, 6. -/
def sampleA : TreapMap Nat Nat :=
  ⟨(insert 6 3 30 (insert 9 2 20 (insert 4 1 10 .nil).1).1).1⟩

/-- `{2 ↦ 200, 4 ↦ 400}` with priorities 7, 11. -/
def sampleB : TreapMap Nat Nat := ⟨(insert 11 4 400 (insert 7 2 200 .nil).1).1⟩

theorem reach_sampleA : Reach sampleA :=
  .step (op := .insert 3 30) (d := 6) (.step (op := .insert 2 20) (d := 9)
    (.step (op := .insert 1 10) (d := 4) .new rfl) rfl) rfl

theorem reach_sampleB : Reach sampleB :=
  .step (op := .insert 4 400) (d := 11) (.step (op := .insert 2 200) (d := 7) .new rfl) rfl

example : (sampleA.union sampleB).map (fun m => m.tree.toList) =
    some [(1, 10), (2, 20), (3, 30), (4, 400)] := by decide
example : (sampleA.intersection sampleB).map (fun m => m.tree.toList) = some [(2, 20)] := by decide
example : (sampleA.difference sampleB).map (fun m => m.tree.toList) = some [(1, 10), (3, 30)] := by
  decide
example : (sampleA.symmetricDifference sampleB).map (fun m => m.tree.toList) =
    some [(1, 10), (3, 30), (4, 400)] := by decide
example : (sampleA.splitOff 2 true).1.tree.toList = [(1, 10), (2, 20)] ∧
    (sampleA.splitOff 2 false).1.tree.toList = [(1, 10)] := by decide

/-- `sampleA` built in another order, with the same key/priority pairs: C09's hypotheses hold. -/
example : ∃ t : TreapMap Nat Nat, Reach t ∧ (∀ x, x ∈ keyPrios sampleA.tree ↔ x ∈ keyPrios t.tree) ∧
    ((keyPrios sampleA.tree).map (·.2)).Nodup := by
  refine ⟨_, .step (op := .insert 2 20) (d := 9) (.step (op := .insert 1 10) (d := 4)
    (.step (op := .insert 3 30) (d := 6) .new rfl) rfl) rfl, fun x => Iff.of_eq ?_, by decide⟩
  congr 1

end Verif.Treap
