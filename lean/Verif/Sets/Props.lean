/- Property C49: the set types behave as ordered sets. -/
import Verif.Sets.Model
import Verif.Avl.Props
import Verif.RedBlack.Props
import Verif.Splay.Props
import Verif.Treap.Props
import Verif.Skip.MapProps
import Verif.Radix.Props
import Mathlib.Tactic.Convert

namespace Verif.Sets

open Verif.Spec

variable {K : Type}

/-- The map call behind a set call. -/
def toMap : SetOp K → MapOp K Unit
  | .insert k => .insert k ()
  | .remove k => .remove k
  | .contains k => .containsKey k
  | .floor k => .floor k
  | .ceil k => .ceil k
  | .min => .min
  | .max => .max
  | .len => .len
  | .isEmpty => .isEmpty
  | .iter => .iter
  | .clear => .clear

section
variable [LinearOrder K]

/-- The keys of a map. -/
def keysOf (m : AMap K Unit) : ASet K := fun k => (m k).isSome = true

theorem lists_set {m : AMap K Unit} {l : List (K × Unit)} (h : Lists m l) : ListsSet (keysOf m) (l.map (·.1)) := by
  refine ⟨List.pairwise_map.2 h.1, fun k => ?_⟩
  simp only [List.mem_map, keysOf, Option.isSome_iff_exists]
  constructor
  · rintro ⟨⟨k', u⟩, hm, rfl⟩; exact ⟨u, (h.2 _ _).1 hm⟩
  · rintro ⟨u, hu⟩; exact ⟨(k, u), (h.2 _ _).2 hu, rfl⟩

theorem isIt_map (m : AMap K Unit) (k : K) : IsIt (keysOf m) k (((m k).map fun old => (k, old)).map (·.1)) := by
  cases h : m k <;> simp [IsIt, keysOf, h]

theorem step_ok {I : MapImpl K Unit} {s s₁ : I.State} {op : SetOp K} {d : I.Draw} {r : MapRes K Unit}
    {m m₁ : AMap K Unit} (h : I.step s (toMap op) d = some (s₁, r)) (hs : (toMap op).Spec m r m₁) :
    ∃ r', step I s op d = some (s₁, r') ∧ op.Spec (keysOf m) r' (keysOf m₁) := by
  cases op with
  | insert k =>
    obtain ⟨rfl, rfl⟩ := hs
    refine ⟨_, by simp only [step, toMap] at h ⊢; rw [h]; rfl, ⟨_, rfl, isIt_map m k⟩, fun x => ?_⟩
    by_cases hx : x = k <;> simp [keysOf, AMap.set, hx]
  | remove k =>
    obtain ⟨rfl, rfl⟩ := hs
    refine ⟨_, by simp only [step, toMap] at h ⊢; rw [h]; rfl, ⟨_, rfl, isIt_map m k⟩, fun x => ?_⟩
    by_cases hx : x = k <;> simp [keysOf, AMap.set, hx]
  | contains k =>
    obtain ⟨rfl, rfl⟩ := hs
    exact ⟨_, by simp only [step, toMap] at h ⊢; rw [h]; rfl, ⟨_, rfl, Iff.rfl⟩, rfl⟩
  | floor k =>
    obtain ⟨⟨o, rfl, ho⟩, rfl⟩ := hs
    exact ⟨_, by simp only [step, toMap] at h ⊢; rw [h]; rfl, ⟨o, rfl, ho⟩, rfl⟩
  | ceil k =>
    obtain ⟨⟨o, rfl, ho⟩, rfl⟩ := hs
    exact ⟨_, by simp only [step, toMap] at h ⊢; rw [h]; rfl, ⟨o, rfl, ho⟩, rfl⟩
  | min =>
    obtain ⟨⟨o, rfl, ho⟩, rfl⟩ := hs
    exact ⟨_, by simp only [step, toMap] at h ⊢; rw [h]; rfl, ⟨o, rfl, ho⟩, rfl⟩
  | max =>
    obtain ⟨⟨o, rfl, ho⟩, rfl⟩ := hs
    exact ⟨_, by simp only [step, toMap] at h ⊢; rw [h]; rfl, ⟨o, rfl, ho⟩, rfl⟩
  | len =>
    obtain ⟨⟨l, hl, rfl⟩, rfl⟩ := hs
    exact ⟨_, by simp only [step, toMap] at h ⊢; rw [h]; rfl, ⟨_, lists_set hl, by simp⟩, rfl⟩
  | isEmpty =>
    obtain ⟨⟨b, rfl, hb⟩, rfl⟩ := hs
    refine ⟨_, by simp only [step, toMap] at h ⊢; rw [h]; rfl, ⟨b, rfl, hb.trans ?_⟩, rfl⟩
    simp [keysOf]
  | iter =>
    obtain ⟨⟨l, hl, rfl⟩, rfl⟩ := hs
    exact ⟨_, by simp only [step, toMap] at h ⊢; rw [h]; rfl, ⟨_, lists_set hl, rfl⟩, rfl⟩
  | clear =>
    obtain ⟨rfl, rfl⟩ := hs
    exact ⟨_, by simp only [step, toMap] at h ⊢; rw [h]; rfl, rfl, by simp [keysOf, AMap.empty]⟩

theorem run_ok {I : MapImpl K Unit} (ops : List (SetOp K × I.Draw)) {s s' : I.State} {m m' : AMap K Unit}
    {h : List (MapOp K Unit × MapRes K Unit)}
    (hr : I.run s (ops.map fun p => (toMap p.1, p.2)) = some (s', h)) (hh : History m h m') :
    ∃ h', (ofMap I).run s ops = some (s', h') ∧ h'.map (·.1) = ops.map (·.1) ∧
      SetHistory (keysOf m) h' (keysOf m') := by
  induction ops generalizing s m h with
  | nil =>
    simp only [List.map_nil, MapImpl.run, Option.some.injEq, Prod.mk.injEq] at hr
    obtain ⟨rfl, rfl⟩ := hr
    cases hh
    exact ⟨[], rfl, rfl, .nil _⟩
  | cons p ops ih =>
    obtain ⟨op, d⟩ := p
    simp only [List.map_cons, MapImpl.run, Option.bind_eq_bind, Option.bind_eq_some_iff] at hr
    obtain ⟨⟨s₁, r⟩, h1, ⟨s₂, h₂⟩, h2, h3⟩ := hr
    simp only [Option.pure_def, Option.some.injEq, Prod.mk.injEq] at h3
    obtain ⟨rfl, rfl⟩ := h3
    cases hh with
    | cons hspec hh =>
      obtain ⟨r', e1, e2⟩ := step_ok h1 hspec
      obtain ⟨h', e3, e4, e5⟩ := ih h2 hh
      refine ⟨(op, r') :: h', ?_, by simp [e4], .cons e2 e5⟩
      have e1' : (ofMap I).step s op d = some (s₁, r') := e1
      have e3' : (ofMap I).run s₁ ops = some (s₂, h') := e3
      simp only [SetImpl.run, Option.bind_eq_bind]
      rw [e1']
      show Option.bind ((ofMap I).run s₁ ops) _ = _
      rw [e3']; rfl

/-- A set around a map that behaves as `m` behaves as the set of `m`'s keys. -/
theorem represents {I : MapImpl K Unit} {s : I.State} {m : AMap K Unit} (h : I.Represents s m) :
    (ofMap I).Represents s (keysOf m) := by
  intro ops
  obtain ⟨s', hist, m', h1, _, h3⟩ := h (ops.map fun p => (toMap p.1, p.2))
  obtain ⟨h', e1, e2, e3⟩ := run_ok ops h1 h3
  exact ⟨s', h', _, e1, e2, e3⟩

theorem correct {I : MapImpl K Unit} (h : I.Correct) : (ofMap I).Correct := by
  have := represents (s := I.empty) (m := AMap.empty) h
  have e : keysOf (AMap.empty : AMap K Unit) = fun _ => False := by funext k; simp [keysOf, AMap.empty]
  rw [e] at this
  exact this

end

variable [LinearOrder K]

/-! ### C49: histories -/

/-- **C49, `AvlSet`.** Every history of calls runs without panic and returns what an ordered set returns. -/
theorem C49_avl_set (K : Type) [LinearOrder K] : (ofMap (Avl.impl K Unit)).Correct := correct (Avl.C01_avl_history K Unit)

/-- **C49, `RedBlackSet`.** -/
theorem C49_red_black_set (K : Type) [LinearOrder K] : (ofMap (RedBlack.impl K Unit)).Correct :=
  correct (RedBlack.C02_rb_history K Unit)

/-- **C49, `SplaySet`.** -/
theorem C49_splay_set (K : Type) [LinearOrder K] : (ofMap (Splay.impl K Unit)).Correct :=
  correct (Splay.C03_splay_history K Unit)

/-- **C49, `TreapSet`.** Whatever priorities are drawn. -/
theorem C49_treap_set (K : Type) [LinearOrder K] : (ofMap (Treap.impl K Unit)).Correct :=
  correct (Treap.C04_treap_history K Unit)

/-- **C49, `SkipSet`.** Whatever heights are drawn and wherever nodes are allocated. -/
theorem C49_skip_set (K : Type) [LinearOrder K] (a : Skip.Addr) : (ofMap (Skip.Map.impl K Unit a)).Correct :=
  correct (Skip.Map.C05_skip_map_history K Unit a)

/-- A set history: inserting twice, removing, asking. -/
example : ((ofMap (Splay.impl Nat Unit)).run (Splay.SplayMap.new) [(.insert 2, ()), (.insert 5, ()), (.insert 2, ()),
      (.contains 5, ()), (.floor 4, ()), (.ceil 3, ()), (.remove 5, ()), (.max, ()), (.len, ()), (.iter, ())]).map
      (fun p => p.2.map (·.2)) =
    some [.key none, .key none, .key (some 2), .bool true, .key (some 2), .key (some 5), .key (some 5),
      .key (some 2), .num 1, .list [2]] := by decide +kernel

/-! ### C49: set algebra -/

/-- A treap set built by any calls, set operations and `split_off`s (treap/set.rs:255-376, 463-483: each hands the
maps of its arguments to the map operation of the same name; `+` is `union`, `-` is `difference`). -/
abbrev TreapSet (K : Type) := Treap.TreapMap K Unit

/-- **C49, `TreapSet` algebra.** On sets with elements `sa`, `sb`, built in any way, the operations succeed and
their results behave as the union, intersection, difference and symmetric difference. -/
theorem C49_treap_set_algebra {a b : TreapSet K} (ha : Treap.Reach a) (hb : Treap.Reach b) :
    ∃ sa sb : ASet K, (ofMap (Treap.impl K Unit)).Represents a sa ∧ (ofMap (Treap.impl K Unit)).Represents b sb ∧
      (∃ c, a.union b = some c ∧ (ofMap (Treap.impl K Unit)).Represents c (fun k => sa k ∨ sb k)) ∧
      (∃ c, a.intersection b = some c ∧ (ofMap (Treap.impl K Unit)).Represents c (fun k => sa k ∧ sb k)) ∧
      (∃ c, a.difference b = some c ∧ (ofMap (Treap.impl K Unit)).Represents c (fun k => sa k ∧ ¬ sb k)) ∧
      (∃ c, a.symmetricDifference b = some c ∧
        (ofMap (Treap.impl K Unit)).Represents c (fun k => (sa k ∧ ¬ sb k) ∨ (sb k ∧ ¬ sa k))) := by
  obtain ⟨ma, hma⟩ := Treap.C04_treap_represents ha
  obtain ⟨mb, hmb⟩ := Treap.C04_treap_represents hb
  refine ⟨keysOf ma, keysOf mb, represents hma, represents hmb, ?_, ?_, ?_, ?_⟩
  · obtain ⟨c, h1, h2⟩ := Treap.C10_union ha hb hma hmb
    refine ⟨c, h1, ?_⟩
    convert represents h2 using 1
    funext k; cases h : ma k <;> cases h' : mb k <;> simp [keysOf, h, h']
  · obtain ⟨c, h1, h2⟩ := Treap.C10_intersection ha hb hma hmb
    refine ⟨c, h1, ?_⟩
    convert represents h2 using 1
    funext k; cases h : ma k <;> cases h' : mb k <;> simp [keysOf, h, h']
  · obtain ⟨c, h1, h2⟩ := Treap.C10_difference ha hb hma hmb
    refine ⟨c, h1, ?_⟩
    convert represents h2 using 1
    funext k; cases h : ma k <;> cases h' : mb k <;> simp [keysOf, h, h']
  · obtain ⟨c, h1, h2⟩ := Treap.C10_symmetric_difference ha hb hma hmb
    refine ⟨c, h1, ?_⟩
    convert represents h2 using 1
    funext k; cases h : ma k <;> cases h' : mb k <;> simp [keysOf, h, h']

/-- **C49, `TreapSet::split_off`.** The set keeps the smaller elements (and `key` if `inclusive`), the returned
set has the others. -/
theorem C49_treap_set_split_off {a : TreapSet K} (ha : Treap.Reach a) (key : K) (inclusive : Bool) :
    ∃ sa : ASet K, (ofMap (Treap.impl K Unit)).Represents a sa ∧
      (ofMap (Treap.impl K Unit)).Represents (a.splitOff key inclusive).1
        (fun k => sa k ∧ (k < key ∨ (k = key ∧ inclusive = true))) ∧
      (ofMap (Treap.impl K Unit)).Represents (a.splitOff key inclusive).2
        (fun k => sa k ∧ ¬ (k < key ∨ (k = key ∧ inclusive = true))) := by
  obtain ⟨ma, hma⟩ := Treap.C04_treap_represents ha
  obtain ⟨h1, h2⟩ := Treap.C11_split_off ha hma key inclusive
  refine ⟨keysOf ma, represents hma, ?_, ?_⟩
  · convert represents h1 using 1
    funext k
    by_cases h : k < key ∨ (k = key ∧ inclusive = true) <;> simp [keysOf, h]
  · convert represents h2 using 1
    funext k
    by_cases h : k < key ∨ (k = key ∧ inclusive = true) <;> simp [keysOf, h]

/-- A skip list set (skiplist/set.rs:257-350, 438-458: the same hand-over to the map operations). -/
abbrev SkipSet (K : Type) := Skip.Map.SkipMap K Unit

/-- **C49, `SkipSet` union.** For sets built in any way that own different memory. -/
theorem C49_skip_set_union {a b : SkipSet K} (ha : Skip.Map.Reach a) (hb : Skip.Map.Reach b)
    (hd : Skip.Map.Disjoint a b) (off : Nat) :
    ∃ sa sb : ASet K, (ofMap (Skip.Map.impl K Unit 0)).Represents a sa ∧
      (ofMap (Skip.Map.impl K Unit 0)).Represents b sb ∧
      ∃ c, a.union b off = some c ∧ (ofMap (Skip.Map.impl K Unit 0)).Represents c (fun k => sa k ∨ sb k) := by
  obtain ⟨ma, hma⟩ := Skip.Map.C05_skip_map_represents ha
  obtain ⟨mb, hmb⟩ := Skip.Map.C05_skip_map_represents hb
  obtain ⟨c, h1, h2⟩ := Skip.Map.C15_union ha hb hd hma hmb off
  refine ⟨keysOf ma, keysOf mb, represents hma, represents hmb, c, h1, ?_⟩
  convert represents h2 using 1
  funext k; cases h : ma k <;> cases h' : mb k <;> simp [keysOf, h, h']

/-- **C49, `SkipSet` difference, exact.** `-` and `symmetric_difference` work exactly when no element of the left
set exceeds all elements of the right set; otherwise they dereference a null pointer. -/
theorem C49_skip_set_difference_exact {a b : SkipSet K} (ha : Skip.Map.Reach a) (hb : Skip.Map.Reach b)
    (hd : Skip.Map.Disjoint a b) (off : Nat) :
    ∃ sa sb : ASet K, (ofMap (Skip.Map.impl K Unit 0)).Represents a sa ∧
      (ofMap (Skip.Map.impl K Unit 0)).Represents b sb ∧
      ((∀ x, sa x → ∃ y, sb y ∧ x ≤ y) →
        (∃ c, a.difference b off = some c ∧
          (ofMap (Skip.Map.impl K Unit 0)).Represents c (fun k => sa k ∧ ¬ sb k)) ∧
        (∃ c, a.symmetricDifference b off = some c ∧
          (ofMap (Skip.Map.impl K Unit 0)).Represents c (fun k => (sa k ∧ ¬ sb k) ∨ (sb k ∧ ¬ sa k)))) ∧
      ((∃ x, sa x ∧ ∀ y, sb y → y < x) → a.difference b off = none ∧ a.symmetricDifference b off = none) := by
  obtain ⟨ma, hma⟩ := Skip.Map.C05_skip_map_represents ha
  obtain ⟨mb, hmb⟩ := Skip.Map.C05_skip_map_represents hb
  refine ⟨keysOf ma, keysOf mb, represents hma, represents hmb, fun h => ⟨?_, ?_⟩, fun h => ?_⟩
  · obtain ⟨c, h1, h2⟩ := Skip.Map.C15_difference_partial ha hb hd hma hmb h off
    refine ⟨c, h1, ?_⟩
    convert represents h2 using 1
    funext k; cases h : ma k <;> cases h' : mb k <;> simp [keysOf, h, h']
  · obtain ⟨c, h1, h2⟩ := Skip.Map.C15_symmetric_difference_partial ha hb hd hma hmb h off
    refine ⟨c, h1, ?_⟩
    convert represents h2 using 1
    funext k; cases h : ma k <;> cases h' : mb k <;> simp [keysOf, h, h']
  · exact Skip.Map.C15_difference_crash ha hb hd hma hmb h off

/-- **C49, `SkipSet` intersection, exact.** If every node of `a` whose element is in `b` has full height (33 links), the
intersection is the set of common elements.  Otherwise, if it returns at all, removing one of the common elements from
the result reads outside a node. -/
theorem C49_skip_set_intersection_exact {a b : SkipSet K} (ha : Skip.Map.Reach a) (hb : Skip.Map.Reach b)
    (hd : Skip.Map.Disjoint a b) (off : Nat) :
    ∃ sa sb : ASet K, (ofMap (Skip.Map.impl K Unit 0)).Represents a sa ∧
      (ofMap (Skip.Map.impl K Unit 0)).Represents b sb ∧
      ((∀ x n k, a.mem x = some n → n.entry = some (k, ()) → sb k → n.links.length = 33) →
        ∃ c, a.intersection b off = some c ∧
          (ofMap (Skip.Map.impl K Unit 0)).Represents c (fun k => sa k ∧ sb k)) ∧
      (¬ (∀ x n k, a.mem x = some n → n.entry = some (k, ()) → sb k → n.links.length = 33) →
        ∀ c, a.intersection b off = some c → ∃ k, sa k ∧ sb k ∧ c.remove k = none) := by
  obtain ⟨ma, hma⟩ := Skip.Map.C05_skip_map_represents ha
  obtain ⟨mb, hmb⟩ := Skip.Map.C05_skip_map_represents hb
  obtain ⟨h1, h2⟩ := Skip.Map.C15_intersection_exact ha hb hd hma hmb off
  refine ⟨keysOf ma, keysOf mb, represents hma, represents hmb, fun h => ?_, fun h => ?_⟩
  · obtain ⟨c, m, hc, hm⟩ := h1.2 fun x n k _ h3 h4 h5 => h x n k h3 h4 h5
    refine ⟨c, hc, ?_⟩
    convert represents hm using 1
    rw [h2 c m hc hm]
    funext k; cases h : ma k <;> cases h' : mb k <;> simp [keysOf, h, h']
  · exact Skip.Map.C15_intersection_breaks ha hb hd hma hmb off
      fun hc => h fun x n k h3 h4 h5 => hc x n k () h3 h4 h5

/-! ### C49: `RadixSet` -/

/-- The calls `RadixSet` has. -/
def RadixCall : SetOp Radix.Key → Prop
  | .floor _ => False
  | .ceil _ => False
  | _ => True

/-- Run calls on a new `RadixSet`. -/
def radixRun (ops : List (SetOp Radix.Key)) : Option (Radix.RadixMap Unit × List (SetOp Radix.Key × SetRes Radix.Key)) :=
  (ofMap (Radix.radix Unit)).run Radix.RadixMap.new (ops.map fun op => (op, ()))

/-- The elements after a list of calls on a new set. -/
def elements : List (SetOp Radix.Key) → ASet Radix.Key :=
  List.foldl (fun s op => match op with
    | .insert k => fun x => x = k ∨ s x
    | .remove k => fun x => x ≠ k ∧ s x
    | .clear => fun _ => False
    | _ => s) (fun _ => False)

theorem elements_eq (ops : List (SetOp Radix.Key)) : elements ops = keysOf (Radix.tracked (ops.map toMap)).1 := by
  have key : ∀ (ops : List (SetOp Radix.Key)) (s : ASet Radix.Key) (a : AMap Radix.Key Unit × Prop),
      s = keysOf a.1 → ops.foldl (fun s op => match op with
        | .insert k => fun x => x = k ∨ s x
        | .remove k => fun x => x ≠ k ∧ s x
        | .clear => fun _ => False
        | _ => s) s = keysOf ((ops.map toMap).foldl (fun s op => Radix.after op s) a).1 := by
    intro ops
    induction ops with
    | nil => intro s a h; exact h
    | cons op ops ih =>
      intro s a h
      obtain ⟨m, d⟩ := a
      rw [List.foldl_cons, List.map_cons, List.foldl_cons]
      refine ih _ _ ?_
      have h : s = keysOf m := h
      subst h
      cases op <;> simp only [toMap, Radix.after] <;> funext x
      · rename_i k; by_cases hx : x = k <;> simp [keysOf, AMap.set, hx]
      · rename_i k; by_cases hx : x = k <;> simp [keysOf, AMap.set, hx]
      · simp [keysOf, AMap.empty]
  refine key ops _ _ ?_
  funext k; simp [keysOf, AMap.empty]

/-- **C49, `RadixSet`, partial.** A history in which no `remove` leaves the set empty does not panic, and all
results are those of a set of byte strings.  Missing: histories in which a `remove` leaves the set empty and an
`insert` follows; on these the code panics (`C49_radix_set_violated`). -/
theorem C49_radix_set_partial (ops : List (SetOp Radix.Key)) (hs : ∀ op ∈ ops, RadixCall op)
    (hne : ∀ pre k, (pre ++ [.remove k]) <+: ops → ∃ x, elements (pre ++ [.remove k]) x) :
    ∃ s h, radixRun ops = some (s, h) ∧ h.map (·.1) = ops ∧ SetHistory (fun _ => False) h (elements ops) := by
  have hs' : ∀ op ∈ ops.map toMap, Radix.Supported op := by
    intro op hop
    obtain ⟨o, ho, rfl⟩ := List.mem_map.1 hop
    have := hs o ho
    cases o <;> simp_all [RadixCall, Radix.Supported, toMap]
  have hne' : ∀ pre k, (pre ++ [.remove k]) <+: ops.map toMap →
      ∃ x, (Radix.tracked (pre ++ [.remove k])).1 x ≠ none := by
    intro pre k hp
    obtain ⟨l, hl, e⟩ := List.prefix_map_iff.1 hp
    have e := e.symm
    obtain ⟨l₁, l₂, rfl, e1, e2⟩ := List.map_eq_append_iff.1 e
    obtain ⟨o, l₃, rfl, e3, e4⟩ := List.map_eq_cons_iff.1 e2
    have e4 := List.map_eq_nil_iff.1 e4
    subst e4; subst e1
    have ho : o = .remove k := by cases o <;> simp only [toMap] at e3 <;> cases e3 <;> rfl
    subst ho
    obtain ⟨x, hx⟩ := hne l₁ k hl
    rw [elements_eq] at hx
    refine ⟨x, fun h => ?_⟩
    simp only [keysOf, List.map_append, List.map_cons, toMap, List.map_nil] at hx
    rw [h] at hx; simp at hx
  obtain ⟨s, h, m, e, _⟩ := Radix.C25_radix_map_partial _ hs' hne'
  obtain ⟨_, hh⟩ := (Radix.C25_radix_exact _ hs').2 s h e
  have e' : (Radix.radix Unit).run Radix.RadixMap.new
      ((ops.map fun op => (op, ())).map fun p => (toMap p.1, p.2)) = some (s, h) := by
    rw [← e, Radix.runNew]
    congr 1
    rw [List.map_map, List.map_map]; rfl
  obtain ⟨h', e1, e2, e3⟩ := run_ok (I := Radix.radix Unit) (ops.map fun op => (op, ())) e' hh
  refine ⟨s, h', e1, ?_, ?_⟩
  · rw [e2, List.map_map]; exact List.map_id _
  · have e : keysOf (AMap.empty : AMap Radix.Key Unit) = fun _ => False := by funext k; simp [keysOf, AMap.empty]
    rw [← e, elements_eq]; exact e3

/-- The hypotheses are met by a history with common prefixes and removals. -/
example : (radixRun [.insert [1, 2, 3], .insert [1, 2, 4], .insert [1, 2, 3], .remove [1, 2, 3], .contains [1, 2, 4],
      .max, .iter]).map (fun p => p.2.map (·.2)) =
    some [.key none, .key none, .key (some [1, 2, 3]), .key (some [1, 2, 3]), .bool true, .key (some [1, 2, 4]),
      .list [[1, 2, 4]]] ∧
    ∃ x, elements [.insert [1, 2, 3], .insert [1, 2, 4], .insert [1, 2, 3], .remove [1, 2, 3]] x :=
  ⟨by decide +kernel, [1, 2, 4], by simp [elements]⟩

/-- **C49 is violated by `RadixSet`**: removing the last element and inserting again panics. -/
theorem C49_radix_set_violated : radixRun [.insert [97], .remove [97], .insert [97]] = none := rfl

end Verif.Sets
