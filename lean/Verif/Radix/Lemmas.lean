/- The contents of a radix tree and how `insert`, `remove`, `get` and `get_mut` change them.
Proof machinery only; nothing here models code. -/
import Mathlib.Tactic.Tauto
import Verif.Lib.SortedList
import Verif.Radix.Model

namespace Verif.Radix

variable {V : Type}

/-- Remove a prefix. -/
def strip : Key → Key → Option Key
  | [], s => some s
  | a :: k, b :: s => if a = b then strip k s else none
  | _ :: _, [] => none

theorem strip_eq_some {k s r : Key} : strip k s = some r ↔ s = k ++ r := by
  induction k generalizing s with
  | nil => simp [strip]
  | cons a k ih =>
    cases s with
    | nil => simp [strip]
    | cons b s =>
      simp only [strip]
      split
      · rename_i h; subst h; rw [ih]; simp
      · rename_i h; simp only [reduceCtorEq, List.cons_append, List.cons.injEq, false_iff, not_and]
        intro e; exact absurd e.symm h

@[simp] theorem strip_append (k r : Key) : strip k (k ++ r) = some r := strip_eq_some.2 rfl
@[simp] theorem strip_self (k : Key) : strip k k = some [] := strip_eq_some.2 (by simp)
@[simp] theorem strip_append_append (c k r : Key) : strip (c ++ k) (c ++ r) = strip k r := by
  induction c with
  | nil => rfl
  | cons a c ih => simp [strip, ih]

theorem strip_none_append {c k s : Key} (h : strip c s = none) : strip (c ++ k) s = none := by
  cases e : strip (c ++ k) s with
  | none => rfl
  | some r =>
    rw [strip_eq_some] at e
    rw [e, List.append_assoc, strip_append] at h; cases h

@[simp] theorem strip_cons_nil (b : Byte) (k : Key) : strip (b :: k) [] = none := rfl

/-- What a comparison of a node key and a remaining key says. -/
inductive CmpCase : Key → Key → Cmp → Prop
  | split (c : Key) (x : Byte) (k : Key) (y : Byte) (s : Key) : x ≠ y →
    CmpCase (c ++ x :: k) (c ++ y :: s) (.split c.length)
  | less (k : Key) (y : Byte) (s : Key) : CmpCase k (k ++ y :: s) .less
  | greater (s : Key) (x : Byte) (k : Key) : CmpCase (s ++ x :: k) s .greater
  | equal (k : Key) : CmpCase k k .equal

theorem cmpKey_case (k s : Key) : CmpCase k s (cmpKey k s) := by
  induction k generalizing s with
  | nil =>
    cases s with
    | nil => exact .equal []
    | cons y s => simpa [cmpKey, mismatch] using CmpCase.less [] y s
  | cons a k ih =>
    cases s with
    | nil => simpa [cmpKey, mismatch] using CmpCase.greater [] a k
    | cons b s =>
      by_cases h : a = b
      · subst h
        have h1 := ih s
        have e : cmpKey (a :: k) (a :: s) =
            match cmpKey k s with | .split i => .split (i + 1) | c => c := by
          simp only [cmpKey, mismatch, ne_eq, not_true_eq_false, if_false]
          cases mismatch k s with
          | some i => rfl
          | none => simp only [Option.map_none, List.length_cons, Nat.add_lt_add_iff_right, Nat.add_right_cancel_iff]; split <;> [rfl; (split <;> rfl)]
        rw [e]
        generalize cmpKey k s = c at h1
        cases h1 with
        | split c x k y s hne => exact CmpCase.split (a :: c) x k y s hne
        | less _ y s => exact .less (a :: k) y s
        | greater _ x k => exact .greater (a :: s) x k
        | equal _ => exact .equal (a :: k)
      · have : cmpKey (a :: k) (b :: s) = .split 0 := by simp [cmpKey, mismatch, h]
        rw [this]; exact CmpCase.split [] a k b s h

/-- The value under a node, given what is left of the key after the node's own key. -/
def atRest (v : Option V) (f : Key → Option V) : Option Key → Option V
  | none => none
  | some [] => v
  | some (a :: r) => f (a :: r)

@[simp] theorem atRest_none (v : Option V) (f) : atRest v f none = none := rfl
@[simp] theorem atRest_nil (v : Option V) (f) : atRest v f (some []) = v := rfl
@[simp] theorem atRest_cons (v : Option V) (f) (a r) : atRest v f (some (a :: r)) = f (a :: r) := rfl

/-- The contents of a sibling list. -/
def look : Tree V → Key → Option V
  | .nil, _ => none
  | .node k v next child, s => (atRest v (look child) (strip k s)).or (look next s)

theorem look_nil (s : Key) : look (.nil : Tree V) s = none := rfl
theorem look_node (k : Key) (v : Option V) (next child : Tree V) (s : Key) :
    look (.node k v next child) s = (atRest v (look child) (strip k s)).or (look next s) := rfl

/-- The first sibling starts with a byte above `b`. -/
def Above (b : Byte) : Tree V → Prop
  | .nil => True
  | .node [] _ _ _ => False
  | .node (c :: _) _ _ _ => b < c

/-- At least two siblings. -/
def Tree.multi : Tree V → Bool
  | .nil => false
  | .node _ _ next _ => !next.isNil

theorem not_nil_of_multi {t : Tree V} (h : t.multi = true) : t.isNil = false := by
  cases t with
  | nil => cases h
  | node _ _ _ _ => rfl

/-- A well-formed sibling list below a node: first bytes ascend, and a node without value has two children. -/
def Wf : Tree V → Prop
  | .nil => True
  | .node [] _ _ _ => False
  | .node (b :: _) v next child => Above b next ∧ (v.isSome = true ∨ child.multi = true) ∧ Wf next ∧ Wf child

theorem Above.mono {a b : Byte} {t : Tree V} (h : a < b) (ha : Above b t) : Above a t := by
  cases t with
  | nil => trivial
  | node k _ _ _ => cases k with
    | nil => exact ha
    | cons c k => exact lt_trans h ha

theorem look_empty {t : Tree V} (h : Wf t) : look t [] = none := by
  induction t with
  | nil => rfl
  | node k v next child ih1 ih2 =>
    cases k with
    | nil => exact absurd h id
    | cons b k => rw [look_node]; simp [ih1 h.2.2.1]

theorem look_above {t : Tree V} (h : Wf t) {b c : Byte} {s : Key} (ha : Above b t) (hc : c ≤ b) :
    look t (c :: s) = none := by
  induction t generalizing b with
  | nil => rfl
  | node k v next child ih1 ih2 =>
    cases k with
    | nil => exact absurd h id
    | cons d k =>
      have hd : b < d := ha
      rw [look_node, ih1 h.2.2.1 h.1 (le_trans hc (le_of_lt hd))]
      simp only [strip]
      rw [if_neg (ne_of_gt (lt_of_le_of_lt hc hd))]; rfl

theorem atRest_eq {v : Option V} {t : Tree V} (h : Wf t) (r : Key) :
    atRest v (look t) (some r) = if r = [] then v else look t r := by
  cases r <;> simp

/-- Point update. -/
theorem or_upd {a b : Option V} {P : Prop} [Decidable P] {o : Option V} (h : P → b = none) :
    (if P then o else a).or b = if P then o else a.or b := by
  by_cases hp : P
  · simp [hp, h hp]
  · simp [hp]

/-! ### Children lists -/

theorem getChild_cases {t : Tree V} (h : Wf t) (b : Byte) :
    getChild b t = some .nil ∨ ∃ k v n c, getChild b t = some (.node (b :: k) v n c) := by
  induction t with
  | nil => exact .inl rfl
  | node k v next child ih1 ih2 =>
    cases k with
    | nil => exact absurd h id
    | cons d k =>
      simp only [getChild]
      split
      · exact ih1 h.2.2.1
      · rename_i hd; simp only [ne_eq, not_not] at hd; subst hd; exact .inr ⟨_, _, _, _, rfl⟩

theorem look_of_getChild_nil {t : Tree V} (h : Wf t) {b : Byte} (hg : getChild b t = some .nil) (s : Key) :
    look t (b :: s) = none := by
  induction t with
  | nil => rfl
  | node k v next child ih1 ih2 =>
    cases k with
    | nil => exact absurd h id
    | cons d k =>
      simp only [getChild] at hg
      split at hg
      · rename_i hd
        rw [look_node, ih1 h.2.2.1 hg]; simp [strip, hd]
      · simp at hg

theorem insertChild_spec {t : Tree V} (h : Wf t) {nb : Byte} (hg : getChild nb t = some .nil) (nk : Key)
    {nv : Option V} {nc : Tree V} (hn : nv.isSome = true ∨ nc.multi = true) (hc : Wf nc) :
    ∃ t', insertChild nb nk nv nc t = some t' ∧ Wf t' ∧ (t'.isNil = false ∧ (t.isNil = false → t'.multi = true)) ∧
      (∀ b, Above b t → b < nb → Above b t') ∧
      ∀ s, look t' s = (atRest nv (look nc) (strip (nb :: nk) s)).or (look t s) := by
  induction t with
  | nil => exact ⟨_, rfl, ⟨trivial, hn, trivial, hc⟩, ⟨rfl, fun h => by cases h⟩, fun b _ hb => hb, fun s => rfl⟩
  | node k v next child ih1 ih2 =>
    cases k with
    | nil => exact absurd h id
    | cons d k =>
      simp only [getChild] at hg
      split at hg
      · rename_i hd
        simp only [insertChild]
        by_cases hlt : d > nb
        · rw [if_pos hlt]
          exact ⟨_, rfl, ⟨hlt, hn, h, hc⟩, ⟨rfl, fun _ => rfl⟩, fun b _ hb => hb, fun s => rfl⟩
        · rw [if_neg hlt]
          obtain ⟨t', e, hw, ⟨hnn, _⟩, ha, hl⟩ := ih1 h.2.2.1 hg
          rw [e]
          refine ⟨_, rfl, ⟨ha d h.1 (lt_of_le_of_ne (not_lt.1 hlt) hd), h.2.1, hw, h.2.2.2⟩,
            ⟨rfl, fun _ => by simp [Tree.multi, hnn]⟩, fun b hb _ => hb, fun s => ?_⟩
          rw [look_node, hl, look_node]
          cases s with
          | nil => simp
          | cons x s =>
            simp only [strip]
            by_cases hx : d = x
            · have : ¬ nb = x := fun e => hd (hx.trans e.symm)
              simp [this]
            · simp [hx]
      · simp at hg

theorem splitChild_spec (x : Byte) (k : Key) {v : Option V} {child : Tree V}
    (hn : v.isSome = true ∨ child.multi = true) (hc : Wf child) :
    splitChild (x :: k) v child = some (.node (x :: k) v .nil child) ∧ Wf (.node (x :: k) v .nil child) :=
  ⟨rfl, trivial, hn, trivial, hc⟩

theorem insertLeaf_spec {t : Tree V} (h : Wf t) {b : Byte} (hg : getChild b t = some .nil) (k : Key) (value : V) :
    ∃ t', insertLeaf (b :: k) value t = some t' ∧ Wf t' ∧ (t'.isNil = false ∧ (t.isNil = false → t'.multi = true)) ∧
      (∀ a, Above a t → a < b → Above a t') ∧
      ∀ s, look t' s = if s = b :: k then some value else look t s := by
  obtain ⟨t', e, h1, h2, h3, h4⟩ := insertChild_spec h hg k (nv := some value) (nc := .nil) (.inl rfl) trivial
  refine ⟨t', e, h1, h2, h3, fun s => ?_⟩
  rw [h4]
  by_cases hs : s = b :: k
  · subst hs; simp
  · rw [if_neg hs]
    cases e : strip (b :: k) s with
    | none => rfl
    | some r =>
      cases r with
      | nil => rw [strip_eq_some, List.append_nil] at e; exact absurd e hs
      | cons a r => simp [look_nil]

/-- The node keeps its first byte. -/
def SameHead (k k' key : Key) : Prop := ∀ b r s, k = b :: r → key = b :: s → ∃ r', k' = b :: r'

theorem insertNode_spec {k : Key} {v : Option V} {next child : Tree V} {key : Key} (value : V)
    {sub : Option (Tree V × Option V)} (hc : Wf child)
    (hk : k = [] ∨ v.isSome = true ∨ child.multi = true)
    (hsub : ∀ b s n, getChild b child = some n → n.isNil = false → key.drop k.length = b :: s →
      ∃ c', sub = some (c', look child (b :: s)) ∧ Wf c' ∧ c'.multi = child.multi ∧
        ∀ x, look c' x = if x = b :: s then some value else look child x) :
    ∃ k' v' c', insertNode k v next child key value sub =
        some (.node k' v' next c', atRest v (look child) (strip k key)) ∧
      Wf c' ∧ (k' = [] ∨ v'.isSome = true ∨ c'.multi = true) ∧ SameHead k k' key ∧
      ∀ x, atRest v' (look c') (strip k' x) = if x = key then some value else atRest v (look child) (strip k x) := by
  have hcase := cmpKey_case k key
  generalize hcm : cmpKey k key = cm at hcase
  unfold insertNode
  rw [hcm]
  cases hcase with
  | split c x k y s hne =>
    have hv : v.isSome = true ∨ child.multi = true := by
      rcases hk with hk | hk
      · simp at hk
      · exact hk
    obtain ⟨e1, hw1⟩ := splitChild_spec x k hv hc
    have hg : getChild y (Tree.node (x :: k) v .nil child) = some .nil := by
      simp [getChild, hne]
    obtain ⟨c', e2, hw2, hn2, _, hl2⟩ := insertLeaf_spec hw1 hg s value
    refine ⟨c, none, c', ?_, hw2, .inr (.inr (hn2.2 rfl)), ?_, ?_⟩
    · simp only [List.drop_left, e1, e2, List.take_left, Option.map_some]
      simp [strip, hne]
    · intro b r s' h1 h2
      cases c with
      | nil => simp only [List.nil_append, List.cons.injEq] at h1 h2; exact absurd (h1.1.trans h2.1.symm) hne
      | cons a c => simp only [List.cons_append, List.cons.injEq] at h1; exact ⟨c, by rw [h1.1]⟩
    · intro z
      cases hz : strip c z with
      | none =>
        rw [strip_none_append hz]
        rw [if_neg]
        · rfl
        · intro e; rw [e, strip_append] at hz; cases hz
      | some r =>
        rw [strip_eq_some] at hz; subst hz
        rw [strip_append_append]
        cases r with
        | nil =>
          rw [if_neg]
          · rfl
          · intro e; have := List.append_cancel_left e; simp at this
        | cons a r =>
          simp only [atRest_cons, hl2, List.append_cancel_left_eq, look_node, look_nil, Option.or_none]
  | less _ y s =>
    simp only [List.drop_left] at hsub ⊢
    rcases getChild_cases hc y with hg | ⟨nk, nv, nn, ncc, hg⟩
    · rw [hg]
      obtain ⟨c', e2, hw2, hn2, _, hl2⟩ := insertLeaf_spec hc hg s value
      refine ⟨k, v, c', ?_, hw2, hk.imp_right (Or.imp_right fun h => hn2.2 (not_nil_of_multi h)),
        fun b r s h1 h2 => ⟨r, h1⟩, fun z => ?_⟩
      · simp only [e2, Option.map_some, strip_append, atRest_cons, look_of_getChild_nil hc hg]
      · cases hz : strip k z with
        | none =>
          rw [if_neg]
          · rfl
          · intro e; rw [e, strip_append] at hz; cases hz
        | some r =>
          rw [strip_eq_some] at hz; subst hz
          cases r with
          | nil => simp
          | cons a r => simp only [atRest_cons, hl2, List.append_cancel_left_eq]
    · rw [hg]
      obtain ⟨c', e2, hw2, hn2, hl2⟩ := hsub y s _ hg rfl rfl
      refine ⟨k, v, c', ?_, hw2, by rw [hn2]; exact hk, fun b r s h1 h2 => ⟨r, h1⟩, fun z => ?_⟩
      · simp only [e2, Option.map_some, strip_append, atRest_cons]
      · cases hz : strip k z with
        | none =>
          rw [if_neg]
          · rfl
          · intro e; rw [e, strip_append] at hz; cases hz
        | some r =>
          rw [strip_eq_some] at hz; subst hz
          cases r with
          | nil => simp
          | cons a r => simp only [atRest_cons, hl2, List.append_cancel_left_eq]
  | greater _ x k =>
    have hv : v.isSome = true ∨ child.multi = true := by
      rcases hk with hk | hk
      · simp at hk
      · exact hk
    obtain ⟨e1, hw1⟩ := splitChild_spec x k hv hc
    refine ⟨key, some value, _, ?_, hw1, .inr (.inl rfl), ?_, ?_⟩
    · simp only [List.drop_left, e1, List.take_left, Option.map_some]
      have : strip (key ++ x :: k) key = none := by
        have := strip_append_append key (x :: k) []
        simpa using this
      rw [this]; rfl
    · intro b r s h1 h2; exact ⟨s, h2⟩
    · intro z
      cases hz : strip key z with
      | none =>
        rw [strip_none_append hz]
        rw [if_neg]
        · rfl
        · intro e; rw [e, strip_self] at hz; cases hz
      | some r =>
        rw [strip_eq_some] at hz; subst hz
        rw [strip_append_append]
        cases r with
        | nil => simp
        | cons a r => simp [look_node, look_nil]
  | equal _ =>
    refine ⟨k, some value, child, ?_, hc, .inr (.inl rfl), fun b r s h1 h2 => ⟨r, h1⟩, fun z => ?_⟩
    · simp
    · cases hz : strip k z with
      | none =>
        rw [if_neg]
        · rfl
        · intro e; rw [e, strip_self] at hz; cases hz
      | some r =>
        rw [strip_eq_some] at hz; subst hz
        cases r with
        | nil => simp
        | cons a r => simp

theorem isNil_of_getChild {t n : Tree V} {b : Byte} (hg : getChild b t = some n) (hn : n.isNil = false) :
    t.isNil = false := by
  cases t with
  | nil => simp [getChild] at hg; subst hg; cases hn
  | node _ _ _ _ => rfl

theorem insertIn_spec {t : Tree V} (h : Wf t) {b : Byte} {s : Key} (value : V) {n : Tree V}
    (hg : getChild b t = some n) (hn : n.isNil = false) :
    ∃ t', insertIn (b :: s) value t = some (t', look t (b :: s)) ∧ Wf t' ∧ (t'.isNil = false ∧ t'.multi = t.multi) ∧
      (∀ a, Above a t → Above a t') ∧
      ∀ x, look t' x = if x = b :: s then some value else look t x := by
  induction t generalizing b s n with
  | nil => simp [getChild] at hg; subst hg; cases hn
  | node k v next child ih1 ih2 =>
    cases k with
    | nil => exact absurd h id
    | cons d k =>
      simp only [getChild] at hg
      unfold insertIn
      by_cases hd : d = b
      · subst hd
        simp only [ne_eq, not_true_eq_false, if_false]
        obtain ⟨k', v', c', e, hw, hn, hh, hl⟩ := insertNode_spec (k := d :: k) (v := v) (next := next)
          (key := d :: s) value (sub := insertIn ((d :: s).drop (d :: k).length) value child) h.2.2.2
          (.inr h.2.1) (by
            intro b s n hg hn he
            rw [he]
            obtain ⟨c', h1, h2, h3, _, h4⟩ := ih2 h.2.2.2 (s := s) hg hn
            exact ⟨c', h1, h2, h3.2, h4⟩)
        obtain ⟨r', rfl⟩ := hh d k s rfl rfl
        have hno : look next (d :: s) = none := look_above h.2.2.1 h.1 (le_refl d)
        refine ⟨.node (d :: r') v' next c', by rw [e, look_node, hno, Option.or_none], ⟨h.1, by simpa using hn, h.2.2.1, hw⟩, ⟨rfl, rfl⟩, fun a ha => ha, fun x => ?_⟩
        rw [look_node, hl, or_upd (fun e => by rw [e]; exact hno)]; rfl
      · rw [if_pos hd] at hg
        simp only [ne_eq, hd, not_false_eq_true, if_true]
        obtain ⟨t', e, h1, h2, h3, h4⟩ := ih1 h.2.2.1 (s := s) hg hn
        rw [e]
        refine ⟨.node (d :: k) v t' child, ?_, ⟨h3 _ h.1, h.2.1, h1, h.2.2.2⟩, ⟨rfl, by simp only [Tree.multi]; rw [h2.1, isNil_of_getChild hg hn]⟩, fun a ha => ha, fun x => ?_⟩
        · simp [look_node, strip, hd]
        · rw [look_node, h4, look_node]
          by_cases hx : x = b :: s
          · subst hx; simp [strip, hd]
          · simp [hx]

/-! ### Remove -/

theorem mergeNode_spec (k : Key) (v : Option V) (next : Tree V) {c : Tree V} (hc : Wf c) :
    ∃ k' v' c', mergeNode k v next c = .node k' v' next c' ∧ Wf c' ∧ (∃ r, k' = k ++ r) ∧
      (v'.isSome = true ∨ c'.multi = true ∨ (v' = none ∧ c' = .nil)) ∧
      ∀ x, atRest v' (look c') (strip k' x) = atRest v (look c) (strip k x) := by
  cases c with
  | nil =>
    refine ⟨k, v, .nil, rfl, trivial, ⟨[], by simp⟩, ?_, fun x => rfl⟩
    cases v <;> simp
  | node ck cv cnext cchild =>
    cases ck with
    | nil => exact absurd hc id
    | cons b ck =>
      simp only [mergeNode]
      split
      · rename_i hcond
        obtain ⟨h1, h2⟩ := hcond
        have hv : v = none := by cases v <;> simp_all
        have hn : cnext = .nil := by cases cnext <;> simp_all [Tree.isNil]
        subst hv hn
        refine ⟨_, _, _, rfl, hc.2.2.2, ⟨_, rfl⟩, hc.2.1.imp_right .inl, fun x => ?_⟩
        cases hx : strip k x with
        | none => rw [strip_none_append hx]; rfl
        | some r =>
          rw [strip_eq_some] at hx; subst hx
          rw [strip_append_append]
          cases r with
          | nil => simp
          | cons a r => simp [look_node, look_nil]
      · rename_i hcond
        refine ⟨k, v, _, rfl, hc, ⟨[], by simp⟩, ?_, fun x => rfl⟩
        cases v <;> cases hcn : cnext.isNil <;> simp_all [Tree.multi]

theorem look_replace (k : Key) (v : Option V) (next : Tree V) {c : Tree V} (x : Key) :
    look (replace (.node k v next c)) x = look (.node k v next c) x := by
  simp only [replace]
  split
  · rename_i h
    have hv : v = none := by cases v <;> simp_all
    have hn : c = .nil := by cases c <;> simp_all [Tree.isNil]
    subst hv hn
    rw [look_node]
    cases strip k x with
    | none => rfl
    | some r => cases r <;> rfl
  · rfl

/-- The node after `remove`: either unchanged in shape or replaced. -/
theorem removeNode_spec {k : Key} {v : Option V} (next : Tree V) {child : Tree V} {key : Key}
    {sub : Option (Tree V × Option V)} (hc : Wf child)
    (hk : k = [] ∨ v.isSome = true ∨ child.multi = true)
    (hsub : ∀ b s, key.drop k.length = b :: s →
      ∃ c', sub = some (c', look child (b :: s)) ∧ Wf c' ∧
        ∀ x, look c' x = if x = b :: s then none else look child x) :
    ∃ t', removeNode k v next child key sub = some (t', atRest v (look child) (strip k key)) ∧
      (t' = next ∧ (∀ x, atRest v (look child) (strip k x) = none ∨ x = key) ∨
        ∃ k' v' c', t' = .node k' v' next c' ∧ (∃ r, k' = k ++ r) ∧ Wf c' ∧ (v'.isSome = true ∨ c'.multi = true) ∧
        ∀ x, atRest v' (look c') (strip k' x) = if x = key then none else atRest v (look child) (strip k x)) := by
  have fin : ∀ (w : Option V) (c : Tree V), Wf c →
      (∀ x, atRest w (look c) (strip k x) = if x = key then none else atRest v (look child) (strip k x)) →
      (replace (mergeNode k w next c) = next ∧ (∀ x, atRest v (look child) (strip k x) = none ∨ x = key) ∨
        ∃ k' v' c', replace (mergeNode k w next c) = .node k' v' next c' ∧ (∃ r, k' = k ++ r) ∧ Wf c' ∧
          (v'.isSome = true ∨ c'.multi = true) ∧
          ∀ x, atRest v' (look c') (strip k' x) = if x = key then none else atRest v (look child) (strip k x)) := by
    intro w c hcw hl
    obtain ⟨k', v', c', e, h1, h2, h3, h4⟩ := mergeNode_spec k w next hcw
    rw [e]
    simp only [replace]
    split
    · rename_i hcond
      have hv : v' = none := by cases v' <;> simp_all
      have hn : c' = .nil := by cases c' <;> simp_all [Tree.isNil]
      subst hv hn
      refine .inl ⟨rfl, fun x => ?_⟩
      by_cases hx : x = key
      · exact .inr hx
      · left
        have := (h4 x).trans (hl x)
        rw [if_neg hx] at this
        rw [← this]
        cases strip k' x with
        | none => rfl
        | some r => cases r <;> rfl
    · rename_i hcond
      refine .inr ⟨k', v', c', rfl, h2, h1, ?_, fun x => (h4 x).trans (hl x)⟩
      rcases h3 with h | h | ⟨rfl, rfl⟩
      · exact .inl h
      · exact .inr h
      · simp [Tree.isNil] at hcond
  have hcase := cmpKey_case k key
  generalize hcm : cmpKey k key = cm at hcase
  unfold removeNode
  rw [hcm]
  have nochange : (k ≠ []) → strip k key = none → ∃ t', some (Tree.node k v next child, (none : Option V)) = some (t', atRest v (look child) (strip k key)) ∧
      (t' = next ∧ (∀ x, atRest v (look child) (strip k x) = none ∨ x = key) ∨
        ∃ k' v' c', t' = .node k' v' next c' ∧ (∃ r, k' = k ++ r) ∧ Wf c' ∧ (v'.isSome = true ∨ c'.multi = true) ∧
        ∀ x, atRest v' (look c') (strip k' x) = if x = key then none else atRest v (look child) (strip k x)) := by
    intro hne hs
    refine ⟨_, by rw [hs]; rfl, .inr ⟨k, v, child, rfl, ⟨[], by simp⟩, hc, ?_, fun x => ?_⟩⟩
    · rcases hk with h | h
      · exact absurd h hne
      · exact h
    · by_cases hx : x = key
      · rw [if_pos hx, hx, hs]; rfl
      · rw [if_neg hx]
  cases hcase with
  | split c x k y s hne =>
    exact nochange (by simp) (by simp [strip, hne])
  | greater _ x k =>
    refine nochange (by simp) ?_
    have := strip_append_append key (x :: k) []
    simpa using this
  | less _ y s =>
    simp only [List.drop_left] at hsub
    obtain ⟨c', e, hw, hl⟩ := hsub y s rfl
    refine ⟨_, by simp only [e, Option.map_some, strip_append, atRest_cons], fin v c' hw fun x => ?_⟩
    cases hx : strip k x with
    | none => simp
    | some r =>
      rw [strip_eq_some] at hx; subst hx
      cases r with
      | nil => simp
      | cons a r => simp only [atRest_cons, hl, List.append_cancel_left_eq]
  | equal _ =>
    refine ⟨_, by simp only [strip_self, atRest_nil], fin none child hc fun x => ?_⟩
    cases hx : strip k x with
    | none => simp
    | some r =>
      rw [strip_eq_some] at hx; subst hx
      cases r with
      | nil => simp
      | cons a r => simp

theorem removeIn_spec {t : Tree V} (h : Wf t) (b : Byte) (s : Key) :
    ∃ t', removeIn (b :: s) t = some (t', look t (b :: s)) ∧ Wf t' ∧
      (∀ a, Above a t → Above a t') ∧
      ∀ x, look t' x = if x = b :: s then none else look t x := by
  induction t generalizing b s with
  | nil => exact ⟨.nil, rfl, trivial, fun _ h => h, fun x => by simp [look_nil]⟩
  | node k v next child ih1 ih2 =>
    cases k with
    | nil => exact absurd h id
    | cons d k =>
      unfold removeIn
      by_cases hd : d = b
      · subst hd
        simp only [ne_eq, not_true_eq_false, if_false]
        have hno : look next (d :: s) = none := look_above h.2.2.1 h.1 (le_refl d)
        obtain ⟨t', e, hcase⟩ := removeNode_spec (k := d :: k) (v := v) next
          (key := d :: s) (sub := removeIn ((d :: s).drop (d :: k).length) child) h.2.2.2
          (.inr h.2.1) (by
            intro b s he
            rw [he]
            obtain ⟨c', h1, h2, _, h4⟩ := ih2 h.2.2.2 b s
            exact ⟨c', h1, h2, h4⟩)
        refine ⟨t', by rw [e, look_node, hno, Option.or_none], ?_⟩
        rcases hcase with ⟨rfl, hx⟩ | ⟨k', v', c', rfl, ⟨r, rfl⟩, hw, hn, hl⟩
        · refine ⟨h.2.2.1, fun a ha => Above.mono ha h.1, fun x => ?_⟩
          rw [look_node]
          by_cases hxk : x = d :: s
          · rw [if_pos hxk, hxk, hno]
          · rw [if_neg hxk]
            rcases hx x with e | e
            · rw [e]; rfl
            · exact absurd e hxk
        · refine ⟨⟨h.1, hn, h.2.2.1, hw⟩, fun a ha => ha, fun x => ?_⟩
          rw [look_node, hl, or_upd (fun e => by rw [e]; exact hno)]; rfl
      · simp only [ne_eq, hd, not_false_eq_true, if_true]
        obtain ⟨t', e, h1, h3, h4⟩ := ih1 h.2.2.1 b s
        rw [e]
        refine ⟨.node (d :: k) v t' child, ?_, ⟨h3 _ h.1, h.2.1, h1, h.2.2.2⟩, fun a ha => ha, fun x => ?_⟩
        · simp [look_node, strip, hd]
        · rw [look_node, h4, look_node]
          by_cases hx : x = b :: s
          · subst hx; simp [strip, hd]
          · simp [hx]

/-! ### Get and get_mut -/

theorem getNode_spec {k : Key} {v : Option V} {child : Tree V} {key : Key} {sub : Option (Option V)}
    (hsub : ∀ b s, key.drop k.length = b :: s → sub = some (look child (b :: s))) :
    getNode k v key sub = some (atRest v (look child) (strip k key)) := by
  have hcase := cmpKey_case k key
  generalize hcm : cmpKey k key = cm at hcase
  unfold getNode
  rw [hcm]
  cases hcase with
  | split c x k y s hne => simp [strip, hne]
  | greater _ x k =>
    have := strip_append_append key (x :: k) []
    simp only [List.append_nil, strip_cons_nil] at this
    simp [this]
  | less _ y s =>
    simp only [List.drop_left] at hsub
    simp [hsub y s rfl]
  | equal _ => simp

theorem getIn_spec {t : Tree V} (h : Wf t) (b : Byte) (s : Key) :
    getIn (b :: s) t = some (look t (b :: s)) := by
  induction t generalizing b s with
  | nil => rfl
  | node k v next child ih1 ih2 =>
    cases k with
    | nil => exact absurd h id
    | cons d k =>
      unfold getIn
      by_cases hd : d = b
      · subst hd
        simp only [ne_eq, not_true_eq_false, if_false]
        rw [getNode_spec (child := child) (fun b s he => by rw [he]; exact ih2 h.2.2.2 b s), look_node,
          look_above h.2.2.1 h.1 (le_refl d), Option.or_none]
      · simp only [ne_eq, hd, not_false_eq_true, if_true]
        rw [ih1 h.2.2.1, look_node]; simp [strip, hd]

theorem getMutNode_spec {k : Key} {v : Option V} (next : Tree V) {child : Tree V} {key : Key} (f : V → V)
    {sub : Option (Tree V × Option V)} (hc : Wf child)
    (hsub : ∀ b s, key.drop k.length = b :: s →
      ∃ c', sub = some (c', look child (b :: s)) ∧ Wf c' ∧ c'.multi = child.multi ∧
        ∀ x, look c' x = if x = b :: s then (look child x).map f else look child x) :
    ∃ v' c', getMutNode k v next child key f sub =
        some (.node k v' next c', atRest v (look child) (strip k key)) ∧
      Wf c' ∧ c'.multi = child.multi ∧ v'.isSome = v.isSome ∧
      ∀ x, atRest v' (look c') (strip k x) =
        if x = key then (atRest v (look child) (strip k x)).map f else atRest v (look child) (strip k x) := by
  have hcase := cmpKey_case k key
  generalize hcm : cmpKey k key = cm at hcase
  unfold getMutNode
  rw [hcm]
  have nochange : strip k key = none → ∃ v' c', some (Tree.node k v next child, (none : Option V)) = some (.node k v' next c', atRest v (look child) (strip k key)) ∧
      Wf c' ∧ c'.multi = child.multi ∧ v'.isSome = v.isSome ∧
      ∀ x, atRest v' (look c') (strip k x) =
        if x = key then (atRest v (look child) (strip k x)).map f else atRest v (look child) (strip k x) := by
    intro hs
    refine ⟨v, child, by rw [hs]; rfl, hc, rfl, rfl, fun x => ?_⟩
    by_cases hx : x = key
    · rw [if_pos hx, hx, hs]; rfl
    · rw [if_neg hx]
  cases hcase with
  | split c x k y s hne => exact nochange (by simp [strip, hne])
  | greater _ x k =>
    refine nochange ?_
    have := strip_append_append key (x :: k) []
    simpa using this
  | less _ y s =>
    simp only [List.drop_left] at hsub
    obtain ⟨c', e, hw, hn, hl⟩ := hsub y s rfl
    refine ⟨v, c', by simp [e], hw, hn, rfl, fun x => ?_⟩
    cases hx : strip k x with
    | none => simp
    | some r =>
      rw [strip_eq_some] at hx; subst hx
      cases r with
      | nil => simp
      | cons a r => simp only [atRest_cons, hl, List.append_cancel_left_eq]
  | equal _ =>
    refine ⟨v.map f, child, by simp, hc, rfl, by simp, fun x => ?_⟩
    cases hx : strip k x with
    | none => simp
    | some r =>
      rw [strip_eq_some] at hx; subst hx
      cases r with
      | nil => simp
      | cons a r => simp

theorem getMutIn_spec {t : Tree V} (h : Wf t) (b : Byte) (s : Key) (f : V → V) :
    ∃ t', getMutIn (b :: s) f t = some (t', look t (b :: s)) ∧ Wf t' ∧ (t'.isNil = t.isNil ∧ t'.multi = t.multi) ∧
      (∀ a, Above a t → Above a t') ∧
      ∀ x, look t' x = if x = b :: s then (look t x).map f else look t x := by
  induction t generalizing b s with
  | nil => exact ⟨.nil, rfl, trivial, ⟨rfl, rfl⟩, fun _ h => h, fun x => by simp [look_nil]⟩
  | node k v next child ih1 ih2 =>
    cases k with
    | nil => exact absurd h id
    | cons d k =>
      unfold getMutIn
      by_cases hd : d = b
      · subst hd
        simp only [ne_eq, not_true_eq_false, if_false]
        have hno : look next (d :: s) = none := look_above h.2.2.1 h.1 (le_refl d)
        obtain ⟨v', c', e, hw, hn, hv, hl⟩ := getMutNode_spec (k := d :: k) (v := v) next
          (key := d :: s) f (sub := getMutIn ((d :: s).drop (d :: k).length) f child) h.2.2.2
          (by
            intro b s he
            rw [he]
            obtain ⟨c', h1, h2, h3, _, h4⟩ := ih2 h.2.2.2 b s
            exact ⟨c', h1, h2, h3.2, h4⟩)
        refine ⟨.node (d :: k) v' next c', by rw [e, look_node, hno, Option.or_none], ⟨h.1, by rw [hv, hn]; exact h.2.1, h.2.2.1, hw⟩,
          ⟨rfl, rfl⟩, fun a ha => ha, fun x => ?_⟩
        rw [look_node, hl, or_upd (fun e => by rw [e]; exact hno), look_node]
        by_cases hx : x = d :: s
        · rw [if_pos hx, if_pos hx, hx, hno, Option.or_none]
        · rw [if_neg hx, if_neg hx]
      · simp only [ne_eq, hd, not_false_eq_true, if_true]
        obtain ⟨t', e, h1, h2, h3, h4⟩ := ih1 h.2.2.1 b s
        rw [e]
        refine ⟨.node (d :: k) v t' child, ?_, ⟨h3 _ h.1, h.2.1, h1, h.2.2.2⟩, ⟨rfl, by simp only [Tree.multi]; rw [h2.1]⟩, fun a ha => ha, fun x => ?_⟩
        · simp [look_node, strip, hd]
        · rw [look_node, h4, look_node]
          by_cases hx : x = b :: s
          · subst hx; simp [strip, hd]
          · simp [hx]

end Verif.Radix
