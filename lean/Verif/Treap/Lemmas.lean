/- Entries, stored lengths and heap order of treap operations. -/
import Verif.Treap.Model
import Verif.Bst.Lemmas
import Verif.Lib.SortedList
import Mathlib.Data.Nat.Basic
import Mathlib.Tactic.Conv
import Mathlib.Tactic.Convert
import Mathlib.Tactic.ByContra

namespace Verif.Treap

open Verif.Bst Verif.Spec Verif.SL

variable {K V : Type}

/-- Heap order below the bound `b` and exact stored lengths. -/
def Wf : Nat → TTree K V → Prop
  | _, .nil => True
  | b, .node a l _ _ r => a.prio ≤ b ∧ a.len = 1 + len l + len r ∧ Wf a.prio l ∧ Wf a.prio r

@[simp] theorem wf_nil (b : Nat) : Wf b (.nil : TTree K V) := trivial

theorem wf_node {b : Nat} {a : Ann} {l r : TTree K V} {k : K} {v : V} :
    Wf b (.node a l k v r) ↔ a.prio ≤ b ∧ a.len = 1 + len l + len r ∧ Wf a.prio l ∧ Wf a.prio r :=
  Iff.rfl

theorem Wf.mono {b c : Nat} {t : TTree K V} (h : Wf b t) (hbc : b ≤ c) : Wf c t := by
  cases t with
  | nil => trivial
  | node a l k v r => exact ⟨le_trans h.1 hbc, h.2⟩

theorem wf_mk {b p : Nat} {l r : TTree K V} {k : K} {v : V} (hp : p ≤ b) (hl : Wf p l) (hr : Wf p r) :
    Wf b (mk p l k v r) := ⟨hp, rfl, hl, hr⟩

@[simp] theorem toList_mk (p : Nat) (l : TTree K V) (k : K) (v : V) (r : TTree K V) :
    (mk p l k v r).toList = l.toList ++ (k, v) :: r.toList := rfl

@[simp] theorem len_nil : len (.nil : TTree K V) = 0 := rfl

@[simp] theorem len_node (a : Ann) (l : TTree K V) (k : K) (v : V) (r : TTree K V) :
    len (.node a l k v r) = a.len := rfl

theorem len_eq {b : Nat} {t : TTree K V} (h : Wf b t) : len t = t.toList.length := by
  induction t generalizing b with
  | nil => rfl
  | node a l k v r ihl ihr =>
    rw [wf_node] at h
    simp only [len_node, h.2.1, ihl h.2.2.1, ihr h.2.2.2, Tree.toList_node, List.length_append,
      List.length_cons]
    omega

/-! ### merge -/

@[simp] theorem merge_nil (r : TTree K V) : merge .nil r = r := rfl

@[simp] theorem merge_node_nil (a : Ann) (l : TTree K V) (k : K) (v : V) (r : TTree K V) :
    merge (.node a l k v r) .nil = .node a l k v r := rfl

@[simp] theorem merge_node_node (a b : Ann) (ll lr rl rr : TTree K V) (k x : K) (v w : V) :
    merge (.node a ll k v lr) (.node b rl x w rr) =
      if a.prio > b.prio then mk a.prio ll k v (merge lr (.node b rl x w rr))
      else mk b.prio (merge (.node a ll k v lr) rl) x w rr := rfl

theorem toList_merge (l r : TTree K V) : (merge l r).toList = l.toList ++ r.toList := by
  induction l generalizing r with
  | nil => simp
  | node a ll k v lr ihl ihr =>
    induction r with
    | nil => simp
    | node b rl x w rr jhl jhr =>
      rw [merge_node_node]
      split
      · simp [ihr]
      · simp [jhl]

theorem wf_merge {b : Nat} {l r : TTree K V} (hl : Wf b l) (hr : Wf b r) : Wf b (merge l r) := by
  induction l generalizing r b with
  | nil => simpa
  | node a ll k v lr ihl ihr =>
    induction r generalizing b with
    | nil => simpa
    | node c rl x w rr jhl jhr =>
      rw [merge_node_node]
      rw [wf_node] at hl hr
      split
      · rename_i h
        refine wf_mk hl.1 hl.2.2.1 (ihr hl.2.2.2 ?_)
        exact ⟨Nat.le_of_lt h, hr.2⟩
      · rename_i h
        refine wf_mk hr.1 (jhl ?_ hr.2.2.1) hr.2.2.2
        exact ⟨Nat.le_of_not_lt h, hl.2⟩

section Ord

variable [LinearOrder K]

/-! ### split -/

theorem wf_split {b : Nat} (key : K) {t : TTree K V} (h : Wf b t) :
    Wf b (split key t).1 ∧ Wf b (split key t).2.1 ∧ Wf b (split key t).2.2 := by
  induction t generalizing b with
  | nil => simp [split]
  | node a l k v r ihl ihr =>
    rw [wf_node] at h
    obtain ⟨h1, h2, h3, h4⟩ := h
    unfold split
    split
    · obtain ⟨i1, i2, i3⟩ := ihl h3
      exact ⟨i1.mono h1, i2.mono h1, wf_mk h1 i3 h4⟩
    · split
      · obtain ⟨i1, i2, i3⟩ := ihr h4
        exact ⟨wf_mk h1 h3 i1, i2.mono h1, i3.mono h1⟩
      · exact ⟨h3.mono h1, wf_mk h1 trivial trivial, h4.mono h1⟩

theorem split_spec (key : K) (t : TTree K V) (hs : Sorted t.toList) :
    t.toList = (split key t).1.toList ++ ((split key t).2.1.toList ++ (split key t).2.2.toList) ∧
      (∀ e ∈ (split key t).1.toList, e.1 < key) ∧ (∀ e ∈ (split key t).2.2.toList, key < e.1) ∧
      (split key t).2.1.toList = (entry (split key t).2.1).toList ∧
      (∀ e ∈ (split key t).2.1.toList, e.1 = key) := by
  induction t with
  | nil => simp [split, entry]
  | node a l k v r ihl ihr =>
    rw [Tree.toList_node, sorted_mid] at hs
    obtain ⟨s1, s2, s3, s4⟩ := hs
    unfold split
    split
    · rename_i hk
      obtain ⟨i1, i2, i3, i4, i5⟩ := ihl s1
      refine ⟨?_, i2, ?_, i4, i5⟩
      · simp only [Tree.toList_node, toList_mk]; conv_lhs => rw [i1]
        simp
      · simp only [toList_mk, List.mem_append, List.mem_cons]
        rintro e (he | rfl | he)
        · exact i3 e he
        · exact hk
        · exact lt_trans hk (s4 e he)
    · split
      · rename_i _ hk
        obtain ⟨i1, i2, i3, i4, i5⟩ := ihr s2
        refine ⟨?_, ?_, i3, i4, i5⟩
        · simp only [Tree.toList_node, toList_mk]; conv_lhs => rw [i1]
          simp
        · simp only [toList_mk, List.mem_append, List.mem_cons]
          rintro e (he | rfl | he)
          · exact lt_trans (s3 e he) hk
          · exact hk
          · exact i2 e he
      · rename_i h1 h2
        have : k = key := le_antisymm (not_lt.1 h1) (not_lt.1 h2)
        subst this
        refine ⟨?_, s3, s4, ?_, ?_⟩
        · simp
        · simp [mk, entry]
        · simp

theorem split_find (key : K) (t : TTree K V) (hs : Sorted t.toList) :
    entry (split key t).2.1 = find key t.toList := by
  obtain ⟨h1, h2, h3, h4, h5⟩ := split_spec key t hs
  rw [h1, find_append, find_append, find_of_lt_all h2, find_of_all_lt h3]
  rw [h4] at h5 ⊢
  cases he : entry (split key t).2.1 with
  | none => simp [find_nil]
  | some e => rw [he] at h5; simp [find, h5 e (by simp)]

theorem split_ins (key : K) (v : V) (t : TTree K V) (hs : Sorted t.toList) :
    ins key v t.toList = (split key t).1.toList ++ (key, v) :: (split key t).2.2.toList := by
  obtain ⟨h1, h2, h3, h4, h5⟩ := split_spec key t hs
  rw [h1, h4]
  cases he : entry (split key t).2.1 with
  | none => simp only [Option.toList_none, List.nil_append]; exact ins_between h2 h3
  | some e =>
    have : e.1 = key := h5 e (by rw [h4, he]; simp)
    obtain ⟨x, w⟩ := e
    simp only at this; subst this
    simp only [Option.toList_some, List.singleton_append]
    refine ins_mid_eq ?_
    rw [h1, h4, he] at hs
    simpa using hs

/-! ### insert, remove -/

theorem wf_insert {b p : Nat} {key : K} {v : V} {t : TTree K V} (hp : p ≤ b) (h : Wf b t) :
    Wf b (insert p key v t).1 := by
  induction t generalizing b with
  | nil => exact ⟨hp, rfl, trivial, trivial⟩
  | node a l k w r ihl ihr =>
    rw [wf_node] at h
    obtain ⟨h1, h2, h3, h4⟩ := h
    unfold insert
    split
    · rename_i hpa
      split
      · exact wf_mk h1 (ihl hpa h3) h4
      · split
        · exact wf_mk h1 h3 (ihr hpa h4)
        · exact ⟨h1, h2, h3, h4⟩
    · rename_i hpa
      have hw : Wf p (.node a l k w r) := ⟨Nat.le_of_lt (Nat.lt_of_not_le hpa), h2, h3, h4⟩
      obtain ⟨i1, i2, i3⟩ := wf_split key hw
      exact wf_mk hp i1 i3

theorem insert_spec (p : Nat) (key : K) (v : V) (t : TTree K V) (hs : Sorted t.toList) :
    (insert p key v t).1.toList = ins key v t.toList ∧ (insert p key v t).2 = find key t.toList := by
  induction t with
  | nil => simp [insert, ins, find_nil]
  | node a l k w r ihl ihr =>
    have hs' := hs
    rw [Tree.toList_node] at hs'
    obtain ⟨s1, s2, s3, s4⟩ := sorted_mid.1 hs'
    unfold insert
    split
    · split
      · rename_i hk
        obtain ⟨i1, i2⟩ := ihl s1
        simp only [toList_mk, Tree.toList_node, ins_mid_lt hs' hk, find_mid_lt hs' hk, i1, i2]
        trivial
      · split
        · rename_i hk
          obtain ⟨i1, i2⟩ := ihr s2
          simp only [toList_mk, Tree.toList_node, ins_mid_gt hs' hk, find_mid_gt hs' hk, i1, i2]
          trivial
        · rename_i h1 h2
          have : k = key := le_antisymm (not_lt.1 h1) (not_lt.1 h2)
          subst this
          simp only [Tree.toList_node, ins_mid_eq hs', find_mid_eq hs']
          trivial
    · simp only [insertAbove, toList_mk]
      exact ⟨(split_ins key v _ hs).symm, split_find key _ hs⟩

theorem wf_remove {b : Nat} {key : K} {t : TTree K V} (h : Wf b t) : Wf b (remove key t).1 := by
  induction t generalizing b with
  | nil => trivial
  | node a l k w r ihl ihr =>
    rw [wf_node] at h
    obtain ⟨h1, h2, h3, h4⟩ := h
    unfold remove
    split
    · exact wf_mk h1 (ihl h3) h4
    · split
      · exact wf_mk h1 h3 (ihr h4)
      · exact wf_merge (h3.mono h1) (h4.mono h1)

theorem remove_spec (key : K) (t : TTree K V) (hs : Sorted t.toList) :
    (remove key t).1.toList = del key t.toList ∧ (remove key t).2 = find key t.toList := by
  induction t with
  | nil => simp [remove, del, find_nil]
  | node a l k w r ihl ihr =>
    have hs' := hs
    rw [Tree.toList_node] at hs'
    obtain ⟨s1, s2, s3, s4⟩ := sorted_mid.1 hs'
    unfold remove
    split
    · rename_i hk
      obtain ⟨i1, i2⟩ := ihl s1
      simp only [toList_mk, Tree.toList_node, del_mid_lt hs' hk, find_mid_lt hs' hk, i1, i2]
      trivial
    · split
      · rename_i hk
        obtain ⟨i1, i2⟩ := ihr s2
        simp only [toList_mk, Tree.toList_node, del_mid_gt hs' hk, find_mid_gt hs' hk, i1, i2]
        trivial
      · rename_i h1 h2
        have : k = key := le_antisymm (not_lt.1 h1) (not_lt.1 h2)
        subst this
        simp only [Tree.toList_node, del_mid_eq hs', find_mid_eq hs', toList_merge]
        trivial

theorem wf_getMut {b : Nat} {key : K} {f : V → V} {t : TTree K V} (h : Wf b t) :
    Wf b (t.getMut key f).2 ∧ len (t.getMut key f).2 = len t := by
  induction t generalizing b with
  | nil => exact ⟨trivial, rfl⟩
  | node a l k w r ihl ihr =>
    rw [wf_node] at h
    obtain ⟨h1, h2, h3, h4⟩ := h
    unfold Tree.getMut
    split
    · obtain ⟨i1, i2⟩ := ihl h3
      exact ⟨⟨h1, by rw [i2]; exact h2, i1, h4⟩, rfl⟩
    · split
      · obtain ⟨i1, i2⟩ := ihr h4
        exact ⟨⟨h1, by rw [i2]; exact h2, h3, i1⟩, rfl⟩
      · exact ⟨⟨h1, h2, h3, h4⟩, rfl⟩

/-! ### The set operations -/

/-- `c` holds under every key what `g` makes of the bindings in `a` and `b`. -/
def IsComb (g : Option (K × V) → Option (K × V) → Option (K × V)) (a b c : List (K × V)) : Prop :=
  Sorted c ∧ ∀ y, find y c = g (find y a) (find y b)

theorem isComb_node {g : Option (K × V) → Option (K × V) → Option (K × V)} (g0 : g none none = none)
    {l r l' r' : List (K × V)} {k : K} {v : V} {o : TTree K V} {e : Option (K × V)}
    (hs : Sorted (l ++ (k, v) :: r)) (ho : Sorted o.toList)
    (hl : IsComb g l (split k o).1.toList l') (hr : IsComb g r (split k o).2.2.toList r')
    (he : e = g (some (k, v)) (entry (split k o).2.1)) (hek : ∀ x ∈ e, x.1 = k) :
    IsComb g (l ++ (k, v) :: r) o.toList (l' ++ (e.toList ++ r')) := by
  obtain ⟨s1, s2, s3, s4⟩ := sorted_mid.1 hs
  obtain ⟨o1, o2, o3, o4, o5⟩ := split_spec k o ho
  have hdup := split_find k o ho
  have hl' : ∀ x ∈ l', x.1 < k := by
    intro x hx
    have h1 := find_of_mem hl.1 hx
    rw [hl.2] at h1
    by_contra hc
    rw [(find_eq_none (k := x.1)).2 (fun e he h => hc (by rw [← h]; exact s3 e he)),
      (find_eq_none (k := x.1)).2 (fun e he h => hc (by rw [← h]; exact o2 e he)), g0] at h1
    cases h1
  have hr' : ∀ x ∈ r', k < x.1 := by
    intro x hx
    have h1 := find_of_mem hr.1 hx
    rw [hr.2] at h1
    by_contra hc
    rw [(find_eq_none (k := x.1)).2 (fun e he h => hc (by rw [← h]; exact s4 e he)),
      (find_eq_none (k := x.1)).2 (fun e he h => hc (by rw [← h]; exact o3 e he)), g0] at h1
    cases h1
  constructor
  · cases he' : e with
    | none =>
      simp only [Option.toList_none, List.nil_append]
      exact sorted_append.2 ⟨hl.1, hr.1, fun a ha b hb => lt_trans (hl' a ha) (hr' b hb)⟩
    | some x =>
      obtain ⟨x, w⟩ := x
      have : x = k := hek (x, w) (by rw [he']; rfl)
      subst this
      simp only [Option.toList_some, List.singleton_append]
      exact sorted_mid.2 ⟨hl.1, hr.1, hl', hr'⟩
  · intro y
    have hemp : ∀ y, y ≠ k → find y e.toList = none := by
      intro y hy
      refine find_eq_none.2 fun x hx h => hy ?_
      rw [← h]
      exact hek x (by simpa using hx)
    have hemp2 : ∀ y, y ≠ k → find y (split k o).2.1.toList = none := by
      intro y hy
      exact find_eq_none.2 fun x hx h => hy (by rw [← h]; exact o5 x hx)
    rcases lt_trichotomy y k with h | h | h
    · rw [find_append, find_append, hemp y (ne_of_lt h),
        find_of_all_lt (fun a ha => lt_trans h (hr' a ha)), hl.2, find_mid_lt hs h]
      conv_rhs => rw [o1, find_append, find_append, hemp2 y (ne_of_lt h),
        find_of_all_lt (fun a ha => lt_trans h (o3 a ha))]
      simp
    · subst h
      rw [find_append, find_append, find_of_lt_all hl', find_of_all_lt hr', find_mid_eq hs, ← hdup, ← he]
      cases he' : e with
      | none => simp [find_nil]
      | some x =>
        have := hek x (by rw [he']; rfl)
        simp [find, this]
    · rw [find_append, find_append, hemp y (ne_of_gt h),
        find_of_lt_all (fun a ha => lt_trans (hl' a ha) h), hr.2, find_mid_gt hs h]
      conv_rhs => rw [o1, find_append, find_append, hemp2 y (ne_of_gt h),
        find_of_lt_all (fun a ha => lt_trans (o2 a ha) h)]
      simp

theorem isComb_swap {g h : Option (K × V) → Option (K × V) → Option (K × V)} {a b c : List (K × V)}
    (hc : IsComb g a b c) (e : ∀ x y, g x y = h y x) : IsComb h b a c :=
  ⟨hc.1, fun y => by rw [hc.2, e]⟩

/-- Result of `union` under one key. -/
def gUnion (sw : Bool) (a b : Option (K × V)) : Option (K × V) := if sw then b.or a else a.or b

/-- Result of `intersection` under one key. -/
def gInter (sw : Bool) (a b : Option (K × V)) : Option (K × V) :=
  a.bind fun x => b.map fun y => if sw then y else x

/-- Result of `difference` under one key. -/
def gDiff (sym sw : Bool) (a b : Option (K × V)) : Option (K × V) :=
  match a, b with
  | some x, none => if sym || !sw then some x else none
  | none, some y => if sym || sw then some y else none
  | _, _ => none

omit [LinearOrder K] in
theorem gUnion_swap (sw : Bool) (a b : Option (K × V)) : gUnion (!sw) a b = gUnion sw b a := by
  cases sw <;> rfl

omit [LinearOrder K] in
theorem gInter_swap (sw : Bool) (a b : Option (K × V)) : gInter (!sw) a b = gInter sw b a := by
  cases sw <;> cases a <;> cases b <;> rfl

omit [LinearOrder K] in
theorem gDiff_swap (sym sw : Bool) (a b : Option (K × V)) : gDiff sym (!sw) a b = gDiff sym sw b a := by
  cases sw <;> cases sym <;> cases a <;> cases b <;> rfl

theorem isComb_nil_left {g : Option (K × V) → Option (K × V) → Option (K × V)} {b : List (K × V)}
    (hb : Sorted b) (h : ∀ x, g none x = x) : IsComb g [] b b := ⟨hb, fun y => by rw [find_nil, h]⟩

theorem isComb_nil_right {g : Option (K × V) → Option (K × V) → Option (K × V)} {b : List (K × V)}
    (hb : Sorted b) (h : ∀ x, g x none = x) : IsComb g b [] b := ⟨hb, fun y => by rw [find_nil, h]⟩

theorem isComb_empty_left {g : Option (K × V) → Option (K × V) → Option (K × V)} {b : List (K × V)}
    (h : ∀ x, g none x = none) : IsComb g [] b [] := ⟨by simp [Sorted], fun y => by rw [find_nil, h]⟩

theorem isComb_empty_right {g : Option (K × V) → Option (K × V) → Option (K × V)} {b : List (K × V)}
    (h : ∀ x, g x none = none) : IsComb g b [] [] := ⟨by simp [Sorted], fun y => by rw [find_nil, h]⟩

/-- What a recursive call of a set operation must deliver on trees with at most `n` entries in all. -/
def Delivers (g : Bool → Option (K × V) → Option (K × V) → Option (K × V)) (n : Nat)
    (f : TTree K V → TTree K V → Bool → Option (TTree K V)) : Prop :=
  ∀ (b : Nat) (l r : TTree K V) (sw : Bool), l.toList.length + r.toList.length < n →
    Sorted l.toList → Sorted r.toList → Wf b l → Wf b r →
    ∃ t, f l r sw = some t ∧ IsComb (g sw) l.toList r.toList t.toList ∧ Wf b t

section Step

variable {g : Bool → Option (K × V) → Option (K × V) → Option (K × V)} {n : Nat}
  {f : TTree K V → TTree K V → Bool → Option (TTree K V)}

/-- The two recursive calls in the body of a set operation. -/
theorem calls (hf : Delivers g n f) {b : Nat} {a : Ann} {l r o : TTree K V} {k : K} {v : V} {sw : Bool}
    (hn : (Tree.node a l k v r).toList.length + o.toList.length < n + 1)
    (hs : Sorted (Tree.node a l k v r).toList) (ho : Sorted o.toList)
    (hw : Wf b (.node a l k v r)) (how : Wf a.prio o) :
    ∃ l' r', f l (split k o).1 sw = some l' ∧ f r (split k o).2.2 sw = some r' ∧
      IsComb (g sw) l.toList (split k o).1.toList l'.toList ∧
      IsComb (g sw) r.toList (split k o).2.2.toList r'.toList ∧ Wf a.prio l' ∧ Wf a.prio r' := by
  rw [Tree.toList_node] at hs
  obtain ⟨s1, s2, s3, s4⟩ := sorted_mid.1 hs
  obtain ⟨o1, o2, o3, o4, o5⟩ := split_spec k o ho
  obtain ⟨w1, w2, w3⟩ := wf_split k how
  have hlen := congrArg List.length o1
  simp only [List.length_append] at hlen
  simp only [Tree.toList_node, List.length_append, List.length_cons] at hn
  rw [o1, sorted_append, sorted_append] at ho
  obtain ⟨l', h1, h2, h3⟩ := hf a.prio l (split k o).1 sw (by omega) s1 ho.1 hw.2.2.1 w1
  obtain ⟨r', h4, h5, h6⟩ := hf a.prio r (split k o).2.2 sw (by omega) s2 ho.2.1.2.1 hw.2.2.2 w3
  exact ⟨l', r', h1, h4, h2, h5, h3, h6⟩

end Step

theorem split_entry_key (k : K) (o : TTree K V) (ho : Sorted o.toList) :
    ∀ x ∈ entry (split k o).2.1, x.1 = k := by
  intro x hx
  rw [split_find k o ho] at hx
  exact find_some_key hx

theorem unionN_spec {n : Nat} {f : TTree K V → TTree K V → Bool → Option (TTree K V)}
    (hf : Delivers gUnion n f) {b : Nat} {a : Ann} {l r o : TTree K V} {k : K} {v : V} {sw : Bool}
    (hn : (Tree.node a l k v r).toList.length + o.toList.length < n + 1)
    (hs : Sorted (Tree.node a l k v r).toList) (ho : Sorted o.toList)
    (hw : Wf b (.node a l k v r)) (how : Wf a.prio o) :
    ∃ t, unionN f a l k v r o sw = some t ∧
      IsComb (gUnion sw) (Tree.node a l k v r).toList o.toList t.toList ∧ Wf b t := by
  obtain ⟨l', r', h1, h2, h3, h4, h5, h6⟩ := calls hf (sw := sw) hn hs ho hw how
  simp only [unionN, h1, h2, Option.bind_eq_bind, Option.bind_some]
  refine ⟨_, rfl, ?_, wf_mk hw.1 h5 h6⟩
  have hk := split_entry_key k o ho
  have := isComb_node (g := gUnion sw) (e := gUnion sw (some (k, v)) (entry (split k o).2.1))
    (by cases sw <;> rfl) hs ho h3 h4 rfl (by
      cases sw <;> cases hd : entry (split k o).2.1 <;> simp [gUnion]
      rw [hd] at hk; simpa using hk)
  rw [Tree.toList_node]
  convert this using 2
  cases sw <;> cases hd : entry (split k o).2.1 <;> simp [gUnion]

theorem unionF_spec (n : Nat) : Delivers (K := K) (V := V) gUnion n (unionF n) := by
  induction n with
  | zero => intro b l r sw h; omega
  | succ n ih =>
    intro b l r sw hn hl hr wl wr
    cases l with
    | nil =>
      refine ⟨r, by cases r <;> rfl, isComb_nil_left hr ?_, wr⟩
      intro x; cases sw <;> cases x <;> rfl
    | node a ll k v lr =>
      cases r with
      | nil =>
        refine ⟨_, rfl, isComb_nil_right hl ?_, wl⟩
        intro x; cases sw <;> cases x <;> rfl
      | node c rl x w rr =>
        simp only [unionF]
        split
        · rename_i h
          obtain ⟨t, h1, h2, h3⟩ := unionN_spec ih (sw := !sw) (by omega) hr hl wr
            (⟨Nat.le_of_lt h, wl.2⟩ : Wf c.prio (.node a ll k v lr))
          exact ⟨t, h1, isComb_swap h2 (gUnion_swap sw), h3⟩
        · rename_i h
          exact unionN_spec ih (sw := sw) hn hl hr wl
            (⟨Nat.le_of_not_lt h, wr.2⟩ : Wf a.prio (.node c rl x w rr))

theorem interN_spec {n : Nat} {f : TTree K V → TTree K V → Bool → Option (TTree K V)}
    (hf : Delivers gInter n f) {b : Nat} {a : Ann} {l r o : TTree K V} {k : K} {v : V} {sw : Bool}
    (hn : (Tree.node a l k v r).toList.length + o.toList.length < n + 1)
    (hs : Sorted (Tree.node a l k v r).toList) (ho : Sorted o.toList)
    (hw : Wf b (.node a l k v r)) (how : Wf a.prio o) :
    ∃ t, interN f a l k v r o sw = some t ∧
      IsComb (gInter sw) (Tree.node a l k v r).toList o.toList t.toList ∧ Wf b t := by
  obtain ⟨l', r', h1, h2, h3, h4, h5, h6⟩ := calls hf (sw := sw) hn hs ho hw how
  have hk := split_entry_key k o ho
  have := isComb_node (g := gInter sw) (e := gInter sw (some (k, v)) (entry (split k o).2.1))
    (by cases sw <;> rfl) hs ho h3 h4 rfl (by
      cases sw <;> cases hd : entry (split k o).2.1 <;> simp [gInter]
      rw [hd] at hk; simpa using hk)
  simp only [interN, h1, h2, Option.bind_eq_bind, Option.bind_some]
  rw [Tree.toList_node]
  cases hd : entry (split k o).2.1 with
  | none =>
    refine ⟨_, rfl, ?_, wf_merge (h5.mono hw.1) (h6.mono hw.1)⟩
    rw [toList_merge]
    simpa [hd, gInter] using this
  | some e =>
    refine ⟨_, rfl, ?_, wf_mk hw.1 h5 h6⟩
    simpa [hd, gInter] using this

theorem interF_spec (n : Nat) : Delivers (K := K) (V := V) gInter n (interF n) := by
  induction n with
  | zero => intro b l r sw h; omega
  | succ n ih =>
    intro b l r sw hn hl hr wl wr
    cases l with
    | nil =>
      refine ⟨.nil, by cases r <;> rfl, isComb_empty_left ?_, trivial⟩
      intro x; cases sw <;> cases x <;> rfl
    | node a ll k v lr =>
      cases r with
      | nil =>
        refine ⟨.nil, rfl, isComb_empty_right ?_, trivial⟩
        intro x; cases sw <;> cases x <;> rfl
      | node c rl x w rr =>
        simp only [interF]
        split
        · rename_i h
          obtain ⟨t, h1, h2, h3⟩ := interN_spec ih (sw := !sw) (by omega) hr hl wr
            (⟨Nat.le_of_lt h, wl.2⟩ : Wf c.prio (.node a ll k v lr))
          exact ⟨t, h1, isComb_swap h2 (gInter_swap sw), h3⟩
        · rename_i h
          exact interN_spec ih (sw := sw) hn hl hr wl
            (⟨Nat.le_of_not_lt h, wr.2⟩ : Wf a.prio (.node c rl x w rr))

theorem diffN_spec {sym : Bool} {n : Nat} {f : TTree K V → TTree K V → Bool → Option (TTree K V)}
    (hf : Delivers (gDiff sym) n f) {b : Nat} {a : Ann} {l r o : TTree K V} {k : K} {v : V} {sw : Bool}
    (hn : (Tree.node a l k v r).toList.length + o.toList.length < n + 1)
    (hs : Sorted (Tree.node a l k v r).toList) (ho : Sorted o.toList)
    (hw : Wf b (.node a l k v r)) (how : Wf a.prio o) :
    ∃ t, diffN f a l k v r o sw sym = some t ∧
      IsComb (gDiff sym sw) (Tree.node a l k v r).toList o.toList t.toList ∧ Wf b t := by
  obtain ⟨l', r', h1, h2, h3, h4, h5, h6⟩ := calls hf (sw := sw) hn hs ho hw how
  have hk := split_entry_key k o ho
  have := isComb_node (g := gDiff sym sw) (e := gDiff sym sw (some (k, v)) (entry (split k o).2.1))
    (by cases sw <;> rfl) hs ho h3 h4 rfl (by
      cases sw <;> cases sym <;> cases hd : entry (split k o).2.1 <;> simp [gDiff])
  simp only [diffN, h1, h2, Option.bind_eq_bind, Option.bind_some]
  rw [Tree.toList_node]
  split
  · refine ⟨_, rfl, ?_, wf_merge (h5.mono hw.1) (h6.mono hw.1)⟩
    rename_i hc
    rw [toList_merge]
    revert hc this
    cases sw <;> cases sym <;> cases hd : entry (split k o).2.1 <;> simp [gDiff]
  · refine ⟨_, rfl, ?_, wf_mk hw.1 h5 h6⟩
    rename_i hc
    revert hc this
    cases sw <;> cases sym <;> cases hd : entry (split k o).2.1 <;> simp [gDiff]

theorem diffF_spec (sym : Bool) (n : Nat) : Delivers (K := K) (V := V) (gDiff sym) n (diffF sym n) := by
  induction n with
  | zero => intro b l r sw h; omega
  | succ n ih =>
    intro b l r sw hn hl hr wl wr
    cases l with
    | nil =>
      refine ⟨diffBase .nil r sw sym, by cases r <;> rfl, ?_, ?_⟩
      · unfold diffBase
        cases sym <;> cases sw
        · exact isComb_empty_left (by intro x; cases x <;> rfl)
        all_goals exact isComb_nil_left hr (by intro x; cases x <;> rfl)
      · cases sym <;> cases sw <;> simp [diffBase, wr]
    | node a ll k v lr =>
      cases r with
      | nil =>
        refine ⟨_, rfl, ?_, ?_⟩
        · unfold diffBase
          cases sym <;> cases sw
          · exact isComb_nil_right hl (by intro x; cases x <;> rfl)
          · exact isComb_empty_right (by intro x; cases x <;> rfl)
          all_goals exact isComb_nil_right hl (by intro x; cases x <;> rfl)
        · cases sym <;> cases sw <;> simp [diffBase, wl]
      | node c rl x w rr =>
        simp only [diffF]
        split
        · rename_i h
          obtain ⟨t, h1, h2, h3⟩ := diffN_spec ih (sw := !sw) (by omega) hr hl wr
            (⟨Nat.le_of_lt h, wl.2⟩ : Wf c.prio (.node a ll k v lr))
          exact ⟨t, h1, isComb_swap h2 (gDiff_swap sym sw), h3⟩
        · rename_i h
          exact diffN_spec ih (sw := sw) hn hl hr wl
            (⟨Nat.le_of_not_lt h, wr.2⟩ : Wf a.prio (.node c rl x w rr))

/-! ### Simulation -/

/-- The simulation of `TreapMap` by sorted lists. -/
def sim (K V : Type) [LinearOrder K] : SL.ListSim (impl K V) where
  rel s l := s.tree.toList = l ∧ ∃ b, Wf b s.tree
  empty := ⟨rfl, 0, trivial⟩
  step := by
    rintro ⟨t⟩ l op d hs ⟨rfl, b, hb⟩
    change Sorted t.toList at hs
    change Wf b t at hb
    simp only [impl]
    cases op with
    | insert k v =>
      obtain ⟨h1, h2⟩ := insert_spec d k v t hs
      exact ⟨⟨(insert d k v t).1⟩, by simp [step, SL.res, h2], h1, max b d,
        wf_insert (le_max_right _ _) (hb.mono (le_max_left _ _))⟩
    | remove k =>
      obtain ⟨h1, h2⟩ := remove_spec k t hs
      exact ⟨⟨(remove k t).1⟩, by simp [step, SL.res, h2], h1, b, wf_remove hb⟩
    | get k => exact ⟨⟨t⟩, by simp [step, SL.res, Tree.get_eq t k hs], rfl, b, hb⟩
    | containsKey k => exact ⟨⟨t⟩, by simp [step, SL.res, Tree.get_eq t k hs], rfl, b, hb⟩
    | getMut k f =>
      refine ⟨⟨(t.getMut k f).2⟩, ?_, Tree.getMut_snd t k f hs, b, (wf_getMut hb).1⟩
      simp [step, SL.res, Tree.getMut_fst, Tree.get_eq t k hs]
    | floor k => exact ⟨⟨t⟩, by simp [step, SL.res, Tree.floor_eq t k hs], rfl, b, hb⟩
    | ceil k => exact ⟨⟨t⟩, by simp [step, SL.res, Tree.ceil_eq t k hs], rfl, b, hb⟩
    | min => exact ⟨⟨t⟩, by simp [step, SL.res, Tree.min_eq], rfl, b, hb⟩
    | max => exact ⟨⟨t⟩, by simp [step, SL.res, Tree.max_eq], rfl, b, hb⟩
    | len => exact ⟨⟨t⟩, by simp [step, SL.res, len_eq hb], rfl, b, hb⟩
    | isEmpty =>
      refine ⟨⟨t⟩, ?_, rfl, b, hb⟩
      simp only [step, SL.res, len_eq hb]; cases t.toList <;> simp
    | iter => exact ⟨⟨t⟩, by simp [step, SL.res, Iter.collect_start], rfl, b, hb⟩
    | clear => exact ⟨⟨.nil⟩, rfl, rfl, b, trivial⟩

end Ord

end Verif.Treap
