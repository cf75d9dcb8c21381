/-
Sorted association lists: the intermediate machine between the models and the
specification `Verif.Spec.OrdMap`.  Proof machinery only; nothing here models code.
-/
import Mathlib.Tactic.ByContra
import Verif.Spec.OrdMap

namespace Verif.SL

open Verif.Spec

variable {K V : Type} [LinearOrder K]

def Sorted (l : List (K × V)) : Prop := l.Pairwise (fun a b => a.1 < b.1)

def find (k : K) (l : List (K × V)) : Option (K × V) := l.find? (fun e => e.1 = k)

def ins (k : K) (v : V) : List (K × V) → List (K × V)
  | [] => [(k, v)]
  | (x, w) :: l => if k < x then (k, v) :: (x, w) :: l
    else if x < k then (x, w) :: ins k v l else (k, v) :: l

def del (k : K) (l : List (K × V)) : List (K × V) := l.filter (fun e => e.1 ≠ k)

def upd (k : K) (f : V → V) (l : List (K × V)) : List (K × V) :=
  l.map (fun e => if e.1 = k then (e.1, f e.2) else e)

def floor (k : K) (l : List (K × V)) : Option (K × V) := (l.filter (fun e => e.1 ≤ k)).getLast?

def ceil (k : K) (l : List (K × V)) : Option (K × V) := l.find? (fun e => k ≤ e.1)

/-- The list as an abstract map. -/
def abs (l : List (K × V)) : AMap K V := fun k => (find k l).map (·.2)

theorem find_nil (k : K) : find k ([] : List (K × V)) = none := rfl

theorem find_cons (k x : K) (w : V) (l) :
    find k ((x, w) :: l) = if x = k then some (x, w) else find k l := by
  simp only [find, List.find?_cons]; by_cases h : x = k <;> simp [h]

theorem find_append (k : K) (l r : List (K × V)) :
    find k (l ++ r) = (find k l).or (find k r) := by
  simp [find, List.find?_append]

theorem find_eq_none {k : K} {l : List (K × V)} : find k l = none ↔ ∀ e ∈ l, e.1 ≠ k := by
  simp [find]

theorem find_some_key {k : K} {l : List (K × V)} {e} (h : find k l = some e) : e.1 = k := by
  have := List.find?_some h; simpa using this

theorem find_some_mem {k : K} {l : List (K × V)} {e} (h : find k l = some e) : e ∈ l :=
  List.mem_of_find?_eq_some h

theorem sorted_cons {x : K} {w : V} {l : List (K × V)} :
    Sorted ((x, w) :: l) ↔ (∀ e ∈ l, x < e.1) ∧ Sorted l := by
  simp [Sorted]

theorem sorted_append {l r : List (K × V)} :
    Sorted (l ++ r) ↔ Sorted l ∧ Sorted r ∧ ∀ a ∈ l, ∀ b ∈ r, a.1 < b.1 := by
  simp only [Sorted, List.pairwise_append]

theorem sorted_mid {l r : List (K × V)} {x : K} {w : V} :
    Sorted (l ++ (x, w) :: r) ↔
      Sorted l ∧ Sorted r ∧ (∀ a ∈ l, a.1 < x) ∧ (∀ b ∈ r, x < b.1) := by
  rw [sorted_append, sorted_cons]
  constructor
  · rintro ⟨h1, ⟨h2, h3⟩, h4⟩
    exact ⟨h1, h3, fun a ha => h4 a ha (x, w) (by simp), h2⟩
  · rintro ⟨h1, h2, h3, h4⟩
    refine ⟨h1, ⟨h4, h2⟩, fun a ha b hb => ?_⟩
    rcases List.mem_cons.1 hb with rfl | hb
    · exact h3 a ha
    · exact lt_trans (h3 a ha) (h4 b hb)

theorem find_of_mem {l : List (K × V)} (hs : Sorted l) {e} (he : e ∈ l) : find e.1 l = some e := by
  induction l with
  | nil => simp at he
  | cons a l ih =>
    obtain ⟨x, w⟩ := a
    rw [sorted_cons] at hs
    rw [find_cons]
    rcases List.mem_cons.1 he with rfl | he
    · simp
    · rw [if_neg (ne_of_lt (hs.1 e he)), ih hs.2 he]

theorem mem_ins {k : K} {v : V} {l : List (K × V)} {e} (h : e ∈ ins k v l) : e = (k, v) ∨ e ∈ l := by
  induction l with
  | nil => simp [ins] at h; exact .inl h
  | cons a l ih =>
    obtain ⟨x, w⟩ := a
    simp only [ins] at h
    split at h
    · simpa using h
    · split at h
      · rcases List.mem_cons.1 h with h | h
        · simp [h]
        · rcases ih h with h | h <;> simp [h]
      · rcases List.mem_cons.1 h with h | h <;> simp [h]

theorem sorted_ins {k : K} {v : V} {l : List (K × V)} (hs : Sorted l) : Sorted (ins k v l) := by
  induction l with
  | nil => simp [ins, Sorted]
  | cons a l ih =>
    obtain ⟨x, w⟩ := a
    have hs' := hs
    rw [sorted_cons] at hs
    simp only [ins]
    split
    · rename_i h
      rw [sorted_cons]
      refine ⟨fun e he => ?_, hs'⟩
      rcases List.mem_cons.1 he with rfl | he
      · exact h
      · exact lt_trans h (hs.1 e he)
    · split
      · rename_i h
        rw [sorted_cons]
        refine ⟨fun e he => ?_, ih hs.2⟩
        rcases mem_ins he with rfl | he
        · exact h
        · exact hs.1 e he
      · have : k = x := by grind
        subst this
        rw [sorted_cons]; exact hs

theorem find_ins {k y : K} {v : V} {l : List (K × V)} (hs : Sorted l) :
    find y (ins k v l) = if y = k then some (k, v) else find y l := by
  induction l with
  | nil => simp [ins, find_cons, find_nil, eq_comm]
  | cons a l ih =>
    obtain ⟨x, w⟩ := a
    rw [sorted_cons] at hs
    simp only [ins]
    split
    · simp only [find_cons]; grind
    · split
      · simp only [find_cons, ih hs.2]; grind
      · simp only [find_cons]; grind

theorem sorted_del {k : K} {l : List (K × V)} (hs : Sorted l) : Sorted (del k l) :=
  List.Pairwise.filter _ hs

theorem find_del {k y : K} {l : List (K × V)} :
    find y (del k l) = if y = k then none else find y l := by
  induction l with
  | nil => simp [del, find_nil]
  | cons a l ih =>
    obtain ⟨x, w⟩ := a
    simp only [del, List.filter_cons] at ih ⊢
    by_cases h : x = k
    · subst h; simp only [find_cons]; grind
    · simp only [h, ne_eq, not_false_eq_true, decide_true, if_true, find_cons]; grind

theorem sorted_upd {k : K} {f : V → V} {l : List (K × V)} (hs : Sorted l) : Sorted (upd k f l) := by
  unfold upd Sorted
  rw [List.pairwise_map]
  refine List.Pairwise.imp ?_ hs
  intro a b h; grind

theorem find_upd {k y : K} {f : V → V} {l : List (K × V)} :
    find y (upd k f l) = (find y l).map (fun e => if y = k then (e.1, f e.2) else e) := by
  induction l with
  | nil => simp [upd, find_nil]
  | cons a l ih =>
    obtain ⟨x, w⟩ := a
    simp only [upd, List.map_cons] at ih ⊢
    by_cases h : x = k
    · subst h; simp only [if_true, find_cons]; grind
    · simp only [h, if_false, find_cons]; grind

theorem lists_abs {l : List (K × V)} (hs : Sorted l) : Lists (abs l) l := by
  refine ⟨hs, fun k v => ?_⟩
  simp only [abs, Option.map_eq_some_iff]
  constructor
  · intro h; exact ⟨_, find_of_mem hs h, rfl⟩
  · rintro ⟨e, he, rfl⟩
    have := find_some_key he
    subst this
    exact find_some_mem he

theorem has_abs {l : List (K × V)} {k : K} : (abs l).Has k ↔ ∃ e ∈ l, e.1 = k := by
  simp only [AMap.Has, abs, Option.isSome_map]
  rw [Option.isSome_iff_ne_none, Ne, find_eq_none]
  simp

theorem floor_spec {l : List (K × V)} (hs : Sorted l) (k : K) :
    IsGreatestKey (fun x => (abs l).Has x ∧ x ≤ k) ((floor k l).map (·.1)) := by
  unfold floor
  cases h : (l.filter (fun e => e.1 ≤ k)).getLast? with
  | none =>
    rw [List.getLast?_eq_none_iff, List.filter_eq_nil_iff] at h
    rintro x ⟨hx, hk⟩
    obtain ⟨e, he, rfl⟩ := has_abs.1 hx
    exact h e he (by simpa using hk)
  | some e =>
    obtain ⟨l', hl'⟩ := List.getLast?_eq_some_iff.1 h
    have hmem : e ∈ l.filter (fun e => e.1 ≤ k) := by rw [hl']; simp
    rw [List.mem_filter] at hmem
    refine ⟨⟨has_abs.2 ⟨e, hmem.1, rfl⟩, by simpa using hmem.2⟩, ?_⟩
    rintro x ⟨hx, hk⟩
    obtain ⟨e', he', rfl⟩ := has_abs.1 hx
    have hm' : e' ∈ l.filter (fun e => e.1 ≤ k) := List.mem_filter.2 ⟨he', by simpa using hk⟩
    have hs' : Sorted (l' ++ [e]) := by rw [← hl']; exact List.Pairwise.filter _ hs
    rw [hl'] at hm'
    rcases List.mem_append.1 hm' with hm' | hm'
    · exact le_of_lt ((sorted_append.1 hs').2.2 e' hm' e (by simp))
    · simp at hm'; subst hm'; exact le_refl _

theorem ceil_spec {l : List (K × V)} (hs : Sorted l) (k : K) :
    IsLeastKey (fun x => (abs l).Has x ∧ k ≤ x) ((ceil k l).map (·.1)) := by
  unfold ceil
  cases h : l.find? (fun e => k ≤ e.1) with
  | none =>
    rw [List.find?_eq_none] at h
    rintro x ⟨hx, hk⟩
    obtain ⟨e, he, rfl⟩ := has_abs.1 hx
    exact h e he (by simpa using hk)
  | some e =>
    obtain ⟨hk, as, bs, hl, hall⟩ := List.find?_eq_some_iff_append.1 h
    subst hl
    refine ⟨⟨has_abs.2 ⟨e, by simp, rfl⟩, by simpa using hk⟩, ?_⟩
    rintro x ⟨hx, hkx⟩
    obtain ⟨e', he', rfl⟩ := has_abs.1 hx
    rcases List.mem_append.1 he' with he' | he'
    · have := hall e' he'; simp at this; exact absurd this (not_lt.2 hkx)
    · rcases List.mem_cons.1 he' with rfl | he'
      · exact le_refl _
      · exact le_of_lt ((sorted_mid.1 hs).2.2.2 e' he')

theorem min_spec {l : List (K × V)} (hs : Sorted l) :
    IsLeastKey (abs l).Has ((l.head?).map (·.1)) := by
  cases l with
  | nil => intro k hk; obtain ⟨e, he, _⟩ := has_abs.1 hk; simp at he
  | cons a l =>
    obtain ⟨x, w⟩ := a
    refine ⟨has_abs.2 ⟨(x, w), by simp, rfl⟩, fun k hk => ?_⟩
    obtain ⟨e, he, rfl⟩ := has_abs.1 hk
    rcases List.mem_cons.1 he with rfl | he
    · exact le_refl _
    · exact le_of_lt ((sorted_cons.1 hs).1 e he)

theorem max_spec {l : List (K × V)} (hs : Sorted l) :
    IsGreatestKey (abs l).Has ((l.getLast?).map (·.1)) := by
  cases h : l.getLast? with
  | none =>
    rw [List.getLast?_eq_none_iff] at h; subst h
    intro k hk; obtain ⟨e, he, _⟩ := has_abs.1 hk; simp at he
  | some e =>
    obtain ⟨l', rfl⟩ := List.getLast?_eq_some_iff.1 h
    refine ⟨has_abs.2 ⟨e, by simp, rfl⟩, fun k hk => ?_⟩
    obtain ⟨e', he', rfl⟩ := has_abs.1 hk
    rcases List.mem_append.1 he' with he' | he'
    · exact le_of_lt ((sorted_append.1 hs).2.2 e' he' e (by simp))
    · simp at he'; subst he'; exact le_refl _

/-! ### The list machine -/

/-- Result of a call on the list machine. -/
def res (l : List (K × V)) : MapOp K V → MapRes K V
  | .insert k _ => .pair (find k l)
  | .remove k => .pair (find k l)
  | .get k => .val ((find k l).map (·.2))
  | .containsKey k => .bool (find k l).isSome
  | .getMut k _ => .val ((find k l).map (·.2))
  | .floor k => .key ((floor k l).map (·.1))
  | .ceil k => .key ((ceil k l).map (·.1))
  | .min => .key (l.head?.map (·.1))
  | .max => .key (l.getLast?.map (·.1))
  | .len => .num l.length
  | .isEmpty => .bool l.isEmpty
  | .iter => .list l
  | .clear => .unit

/-- State after a call on the list machine. -/
def next (l : List (K × V)) : MapOp K V → List (K × V)
  | .insert k v => ins k v l
  | .remove k => del k l
  | .getMut k f => upd k f l
  | .clear => []
  | _ => l

theorem sorted_next {l : List (K × V)} (hs : Sorted l) (op : MapOp K V) : Sorted (next l op) := by
  cases op <;> simp only [next] <;>
    first | exact hs | exact sorted_ins hs | exact sorted_del hs | exact sorted_upd hs | simp [Sorted]

theorem find_eq_map {l : List (K × V)} (k : K) :
    find k l = (abs l k).map fun old => (k, old) := by
  unfold abs
  cases h : find k l with
  | none => rfl
  | some e => have := find_some_key h; subst this; rfl

theorem step_spec {l : List (K × V)} (hs : Sorted l) (op : MapOp K V) :
    op.Spec (abs l) (res l op) (abs (next l op)) := by
  cases op with
  | insert k v =>
    refine ⟨by simp only [res]; rw [find_eq_map], ?_⟩
    funext y; simp only [abs, next, AMap.set, find_ins hs]; split <;> rfl
  | remove k =>
    refine ⟨by simp only [res]; rw [find_eq_map], ?_⟩
    funext y; simp only [abs, next, AMap.set, find_del]; split <;> rfl
  | get k => exact ⟨rfl, rfl⟩
  | containsKey k => exact ⟨by simp [res, abs], rfl⟩
  | getMut k f =>
    refine ⟨rfl, ?_⟩
    funext y; simp only [abs, next, AMap.set, find_upd, Option.map_map]
    split
    · rename_i h; subst h; cases find y l <;> simp
    · cases find y l <;> simp
  | floor k => exact ⟨⟨_, rfl, floor_spec hs k⟩, rfl⟩
  | ceil k => exact ⟨⟨_, rfl, ceil_spec hs k⟩, rfl⟩
  | min => exact ⟨⟨_, rfl, min_spec hs⟩, rfl⟩
  | max => exact ⟨⟨_, rfl, max_spec hs⟩, rfl⟩
  | len => exact ⟨⟨l, lists_abs hs, rfl⟩, rfl⟩
  | isEmpty =>
    refine ⟨⟨_, rfl, ?_⟩, rfl⟩
    cases l with
    | nil => simp [abs, find_nil]
    | cons a l =>
      obtain ⟨x, w⟩ := a
      simp only [List.isEmpty_cons, Bool.false_eq_true, false_iff]
      intro h; have := h x; simp [abs, find_cons] at this
  | iter => exact ⟨⟨l, lists_abs hs, rfl⟩, rfl⟩
  | clear => exact ⟨rfl, by funext y; rfl⟩

/-- A simulation of an implementation by the list machine. -/
structure ListSim (I : MapImpl K V) where
  rel : I.State → List (K × V) → Prop
  empty : rel I.empty []
  step : ∀ s l op d, Sorted l → rel s l →
    ∃ s', I.step s op d = some (s', res l op) ∧ rel s' (next l op)

theorem ListSim.run {I : MapImpl K V} (S : ListSim I) (ops : List (MapOp K V × I.Draw)) :
    ∀ s l, Sorted l → S.rel s l → ∃ s' h l', I.run s ops = some (s', h) ∧
      h.map (·.1) = ops.map (·.1) ∧ History (abs l) h (abs l') ∧ Sorted l' ∧ S.rel s' l' := by
  induction ops with
  | nil => intro s l hs hr; exact ⟨s, [], l, rfl, rfl, .nil _, hs, hr⟩
  | cons p ops ih =>
    intro s l hs hr
    obtain ⟨op, d⟩ := p
    obtain ⟨s₁, h₁, hr₁⟩ := S.step s l op d hs hr
    obtain ⟨s₂, h, l', h₂, h₃, h₄, h₅, h₆⟩ := ih s₁ _ (sorted_next hs op) hr₁
    refine ⟨s₂, _, l', ?_, ?_, .cons (step_spec hs op) h₄, h₅, h₆⟩
    · simp only [MapImpl.run, h₁, Option.bind_eq_bind, Option.bind_some, h₂]; rfl
    · simp [h₃]

theorem ListSim.correct {I : MapImpl K V} (S : ListSim I) : I.Correct := by
  intro ops
  obtain ⟨s, h, l, h₁, h₂, h₃, _⟩ := S.run ops I.empty [] (by simp [Sorted]) S.empty
  exact ⟨s, h, abs l, h₁, h₂, h₃⟩

theorem ListSim.reachable {I : MapImpl K V} (S : ListSim I) {s : I.State} (h : I.Reachable s) :
    ∃ l, Sorted l ∧ S.rel s l := by
  obtain ⟨ops, h, h1⟩ := h
  obtain ⟨s', h', l, h2, _, _, h3, h4⟩ := S.run ops I.empty [] (by simp [Sorted]) S.empty
  rw [h1] at h2
  simp only [Option.some.injEq, Prod.mk.injEq] at h2
  obtain ⟨rfl, _⟩ := h2
  exact ⟨l, h3, h4⟩

theorem ListSim.represents {I : MapImpl K V} (S : ListSim I) {s : I.State} {l : List (K × V)}
    (hl : Sorted l) (hr : S.rel s l) : I.Represents s (abs l) := by
  intro ops
  obtain ⟨s', h, l', h₁, h₂, h₃, _⟩ := S.run ops s l hl hr
  exact ⟨s', h, abs l', h₁, h₂, h₃⟩

/-- Sorted lists with the same elements are equal. -/
theorem sorted_ext : ∀ {l l' : List (K × V)}, Sorted l → Sorted l' → (∀ e, e ∈ l ↔ e ∈ l') → l = l'
  | [], [], _, _, _ => rfl
  | [], a :: l', _, _, h => absurd ((h a).2 (by simp)) (by simp)
  | a :: l, [], _, _, h => absurd ((h a).1 (by simp)) (by simp)
  | a :: l, b :: l', hs, hs', h => by
    have h1 := List.pairwise_cons.1 hs
    have h2 := List.pairwise_cons.1 hs'
    have e : a = b := by
      by_contra hne
      have ha : a ∈ l' := by
        have := (h a).1 (by simp)
        rcases List.mem_cons.1 this with h3 | h3
        · exact absurd h3 hne
        · exact h3
      have hb : b ∈ l := by
        have := (h b).2 (by simp)
        rcases List.mem_cons.1 this with h3 | h3
        · exact absurd h3.symm hne
        · exact h3
      exact absurd (h1.1 b hb) (not_lt_of_gt (h2.1 a ha))
    subst e
    congr 1
    refine sorted_ext h1.2 h2.2 fun e => ⟨fun he => ?_, fun he => ?_⟩
    · rcases List.mem_cons.1 ((h e).1 (by simp [he])) with rfl | h3
      · exact absurd (h1.1 e he) (lt_irrefl _)
      · exact h3
    · rcases List.mem_cons.1 ((h e).2 (by simp [he])) with rfl | h3
      · exact absurd (h2.1 e he) (lt_irrefl _)
      · exact h3

/-- The listing of a map is unique. -/
theorem lists_unique {m : AMap K V} {l l' : List (K × V)} (h : Lists m l) (h' : Lists m l') : l = l' :=
  sorted_ext h.1 h'.1 fun ⟨k, v⟩ => (h.2 k v).trans (h'.2 k v).symm

/-- The contents are determined by the behaviour. -/
theorem represents_unique {I : MapImpl K V} (d : I.Draw) {s : I.State} {m m' : AMap K V}
    (h : I.Represents s m) (h' : I.Represents s m') : m = m' := by
  funext k
  obtain ⟨s₁, r₁, m₁, h1, h2, h3⟩ := h [(.get k, d)]
  obtain ⟨s₂, r₂, m₂, g1, g2, g3⟩ := h' [(.get k, d)]
  rw [h1] at g1
  simp only [Option.some.injEq, Prod.mk.injEq] at g1
  obtain ⟨_, rfl⟩ := g1
  cases h3 with
  | nil => simp at h2
  | cons a b =>
    cases g3 with
    | cons c d =>
      simp at h2
      obtain ⟨rfl, _⟩ := h2
      have := a.1.symm.trans c.1
      simpa using this

theorem eq_of_mem_iff {l l' : List (K × V)} (h : Sorted l) (h' : Sorted l') (e : ∀ x, x ∈ l ↔ x ∈ l') :
    l = l' := by
  induction l generalizing l' with
  | nil =>
    cases l' with
    | nil => rfl
    | cons y l' => exact absurd ((e y).2 (by simp)) (by simp)
  | cons x l ih =>
    cases l' with
    | nil => exact absurd ((e x).1 (by simp)) (by simp)
    | cons y l' =>
      have hx := List.pairwise_cons.1 h
      have hy := List.pairwise_cons.1 h'
      have hxy : x = y := by
        rcases List.mem_cons.1 ((e x).1 (by simp)) with h1 | h1
        · exact h1
        · rcases List.mem_cons.1 ((e y).2 (by simp)) with h2 | h2
          · exact h2.symm
          · exact absurd (lt_trans (hy.1 x h1) (hx.1 y h2)) (lt_irrefl _)
      subst hxy
      congr 1
      refine ih hx.2 hy.2 fun z => ⟨fun hz => ?_, fun hz => ?_⟩
      · rcases List.mem_cons.1 ((e z).1 (by simp [hz])) with rfl | h1
        · exact absurd (hx.1 z hz) (lt_irrefl _)
        · exact h1
      · rcases List.mem_cons.1 ((e z).2 (by simp [hz])) with rfl | h1
        · exact absurd (hy.1 z hz) (lt_irrefl _)
        · exact h1

/-! ### Behaviour of the list operations around a pivot -/

section Pivot

variable {l r : List (K × V)} {x k : K} {w v : V}

theorem ins_mid_lt (hs : Sorted (l ++ (x, w) :: r)) (h : k < x) :
    ins k v (l ++ (x, w) :: r) = ins k v l ++ (x, w) :: r := by
  induction l with
  | nil => simp [ins, h]
  | cons a l ih =>
    obtain ⟨y, u⟩ := a
    have := ih (sorted_cons.1 hs).2
    simp only [List.cons_append, ins]
    split <;> [skip; split] <;> simp [*]

theorem ins_mid_gt (hs : Sorted (l ++ (x, w) :: r)) (h : x < k) :
    ins k v (l ++ (x, w) :: r) = l ++ (x, w) :: ins k v r := by
  have hl := (sorted_mid.1 hs).2.2.1
  induction l with
  | nil => simp [ins, h, not_lt.2 (le_of_lt h)]
  | cons a l ih =>
    obtain ⟨y, u⟩ := a
    have := ih (sorted_cons.1 hs).2 (fun a ha => hl a (by simp [ha]))
    have hy : y < k := lt_trans (hl (y, u) (by simp)) h
    simp [ins, this, hy, not_lt.2 (le_of_lt hy)]

theorem ins_mid_eq (hs : Sorted (l ++ (x, w) :: r)) :
    ins x v (l ++ (x, w) :: r) = l ++ (x, v) :: r := by
  have hl := (sorted_mid.1 hs).2.2.1
  induction l with
  | nil => simp [ins]
  | cons a l ih =>
    obtain ⟨y, u⟩ := a
    have := ih (sorted_cons.1 hs).2 (fun a ha => hl a (by simp [ha]))
    have hy : y < x := hl (y, u) (by simp)
    simp [ins, this, hy, not_lt.2 (le_of_lt hy)]

/-- Insertion of a key between two sorted halves. -/
theorem ins_between (hl : ∀ a ∈ l, a.1 < k) (hr : ∀ b ∈ r, k < b.1) :
    ins k v (l ++ r) = l ++ (k, v) :: r := by
  induction l with
  | nil =>
    cases r with
    | nil => rfl
    | cons b r => obtain ⟨y, u⟩ := b; have := hr (y, u) (by simp); simp at this; simp [ins, this]
  | cons a l ih =>
    obtain ⟨y, u⟩ := a
    have hy : y < k := hl (y, u) (by simp)
    have := ih (fun a ha => hl a (by simp [ha]))
    simp [ins, this, hy, not_lt.2 (le_of_lt hy)]

theorem find_of_lt_all (h : ∀ a ∈ l, a.1 < k) : find k l = none :=
  find_eq_none.2 fun e he => ne_of_lt (h e he)

theorem find_of_all_lt (h : ∀ a ∈ l, k < a.1) : find k l = none :=
  find_eq_none.2 fun e he => ne_of_gt (h e he)

theorem find_mid_lt (hs : Sorted (l ++ (x, w) :: r)) (h : k < x) :
    find k (l ++ (x, w) :: r) = find k l := by
  obtain ⟨_, _, _, hr⟩ := sorted_mid.1 hs
  rw [find_append, find_cons, if_neg (ne_of_gt h),
    find_of_all_lt fun a ha => lt_trans h (hr a ha)]
  cases find k l <;> rfl

theorem find_mid_gt (hs : Sorted (l ++ (x, w) :: r)) (h : x < k) :
    find k (l ++ (x, w) :: r) = find k r := by
  obtain ⟨_, _, hl, _⟩ := sorted_mid.1 hs
  rw [find_append, find_cons, if_neg (ne_of_lt h),
    find_of_lt_all fun a ha => lt_trans (hl a ha) h]
  rfl

theorem find_mid_eq (hs : Sorted (l ++ (x, w) :: r)) :
    find x (l ++ (x, w) :: r) = some (x, w) := by
  obtain ⟨_, _, hl, _⟩ := sorted_mid.1 hs
  rw [find_append, find_cons, if_pos rfl, find_of_lt_all hl]; rfl

theorem del_append : del k (l ++ r) = del k l ++ del k r := by simp [del]

theorem del_of_not_mem (h : ∀ a ∈ l, a.1 ≠ k) : del k l = l := by
  rw [del, List.filter_eq_self]; simpa using h

theorem del_of_lt_all (h : ∀ a ∈ l, a.1 < k) : del k l = l :=
  del_of_not_mem fun e he => ne_of_lt (h e he)

theorem del_of_all_lt (h : ∀ a ∈ l, k < a.1) : del k l = l :=
  del_of_not_mem fun e he => ne_of_gt (h e he)

theorem del_cons : del k ((x, w) :: l) = if x = k then del k l else (x, w) :: del k l := by
  simp only [del, List.filter_cons]; by_cases h : x = k <;> simp [h]

theorem del_mid_lt (hs : Sorted (l ++ (x, w) :: r)) (h : k < x) :
    del k (l ++ (x, w) :: r) = del k l ++ (x, w) :: r := by
  obtain ⟨_, _, _, hr⟩ := sorted_mid.1 hs
  rw [del_append, del_cons, if_neg (ne_of_gt h), del_of_all_lt fun a ha => lt_trans h (hr a ha)]

theorem del_mid_gt (hs : Sorted (l ++ (x, w) :: r)) (h : x < k) :
    del k (l ++ (x, w) :: r) = l ++ (x, w) :: del k r := by
  obtain ⟨_, _, hl, _⟩ := sorted_mid.1 hs
  rw [del_append, del_cons, if_neg (ne_of_lt h), del_of_lt_all fun a ha => lt_trans (hl a ha) h]

theorem del_mid_eq (hs : Sorted (l ++ (x, w) :: r)) :
    del x (l ++ (x, w) :: r) = l ++ r := by
  obtain ⟨_, _, hl, hr⟩ := sorted_mid.1 hs
  rw [del_append, del_cons, if_pos rfl, del_of_lt_all hl, del_of_all_lt hr]

theorem upd_append {f : V → V} : upd k f (l ++ r) = upd k f l ++ upd k f r := by simp [upd]

theorem upd_of_not_mem {f : V → V} (h : ∀ a ∈ l, a.1 ≠ k) : upd k f l = l := by
  induction l with
  | nil => rfl
  | cons e l ih =>
    have h1 := h e (by simp)
    have h2 := ih fun a ha => h a (by simp [ha])
    simp only [upd] at h2 ⊢
    rw [List.map_cons, if_neg h1, h2]

theorem upd_cons {f : V → V} : upd k f ((x, w) :: l) =
    (if x = k then (x, f w) else (x, w)) :: upd k f l := by
  simp [upd]

theorem upd_mid_lt {f : V → V} (hs : Sorted (l ++ (x, w) :: r)) (h : k < x) :
    upd k f (l ++ (x, w) :: r) = upd k f l ++ (x, w) :: r := by
  obtain ⟨_, _, _, hr⟩ := sorted_mid.1 hs
  rw [upd_append, upd_cons, if_neg (ne_of_gt h),
    upd_of_not_mem (l := r) fun a ha => ne_of_gt (lt_trans h (hr a ha))]

theorem upd_mid_gt {f : V → V} (hs : Sorted (l ++ (x, w) :: r)) (h : x < k) :
    upd k f (l ++ (x, w) :: r) = l ++ (x, w) :: upd k f r := by
  obtain ⟨_, _, hl, _⟩ := sorted_mid.1 hs
  rw [upd_append, upd_cons, if_neg (ne_of_lt h),
    upd_of_not_mem (l := l) fun a ha => ne_of_lt (lt_trans (hl a ha) h)]

theorem upd_mid_eq {f : V → V} (hs : Sorted (l ++ (x, w) :: r)) :
    upd x f (l ++ (x, w) :: r) = l ++ (x, f w) :: r := by
  obtain ⟨_, _, hl, hr⟩ := sorted_mid.1 hs
  rw [upd_append, upd_cons, if_pos rfl,
    upd_of_not_mem (l := l) fun a ha => ne_of_lt (hl a ha),
    upd_of_not_mem (l := r) fun a ha => ne_of_gt (hr a ha)]

theorem floor_mid_lt (hs : Sorted (l ++ (x, w) :: r)) (h : k < x) :
    floor k (l ++ (x, w) :: r) = floor k l := by
  obtain ⟨_, _, _, hr⟩ := sorted_mid.1 hs
  have : r.filter (fun e => e.1 ≤ k) = [] := by
    rw [List.filter_eq_nil_iff]; intro a ha; simpa using lt_trans h (hr a ha)
  simp [floor, h, this]

theorem floor_mid_ge (hs : Sorted (l ++ (x, w) :: r)) (h : x ≤ k) :
    floor k (l ++ (x, w) :: r) = (floor k r).or (some (x, w)) := by
  simp only [floor, List.filter_append, List.filter_cons, h, decide_true, if_true]
  rw [List.getLast?_append]
  simp only [List.getLast?_cons]
  cases (r.filter (fun e => e.1 ≤ k)).getLast? <;> simp

theorem floor_mid_eq (hs : Sorted (l ++ (x, w) :: r)) :
    floor x (l ++ (x, w) :: r) = some (x, w) := by
  rw [floor_mid_ge hs (le_refl _)]
  obtain ⟨_, _, _, hr⟩ := sorted_mid.1 hs
  have : r.filter (fun e => e.1 ≤ x) = [] := by
    rw [List.filter_eq_nil_iff]; intro a ha; simpa using hr a ha
  simp [floor, this]

theorem ceil_mid_le (hs : Sorted (l ++ (x, w) :: r)) (h : k ≤ x) :
    ceil k (l ++ (x, w) :: r) = (ceil k l).or (some (x, w)) := by
  simp [ceil, List.find?_append, List.find?_cons, h]

theorem ceil_mid_gt (hs : Sorted (l ++ (x, w) :: r)) (h : x < k) :
    ceil k (l ++ (x, w) :: r) = ceil k r := by
  obtain ⟨_, _, hl, _⟩ := sorted_mid.1 hs
  have : l.find? (fun e => k ≤ e.1) = none := by
    rw [List.find?_eq_none]; intro a ha; simpa using lt_trans (hl a ha) h
  simp [ceil, List.find?_append, List.find?_cons, not_le.2 h, this]

theorem ceil_mid_eq (hs : Sorted (l ++ (x, w) :: r)) :
    ceil x (l ++ (x, w) :: r) = some (x, w) := by
  rw [ceil_mid_le hs (le_refl _)]
  obtain ⟨_, _, hl, _⟩ := sorted_mid.1 hs
  have : l.find? (fun e => x ≤ e.1) = none := by
    rw [List.find?_eq_none]; intro a ha; simpa using hl a ha
  simp [ceil, this]

end Pivot

theorem length_ins {k : K} {v : V} {l : List (K × V)} (hs : Sorted l) :
    (ins k v l).length = if (find k l).isSome then l.length else l.length + 1 := by
  induction l with
  | nil => simp [ins, find_nil]
  | cons a l ih =>
    obtain ⟨x, w⟩ := a
    rw [sorted_cons] at hs
    simp only [ins, find_cons]
    by_cases h1 : k < x
    · rw [if_pos h1, if_neg (ne_of_gt h1), find_of_all_lt fun a ha => lt_trans h1 (hs.1 a ha)]; simp
    · rw [if_neg h1]
      by_cases h2 : x < k
      · rw [if_pos h2, if_neg (ne_of_lt h2)]
        simp only [List.length_cons, ih hs.2]; split <;> rfl
      · have : x = k := by grind
        subst this; simp

theorem length_del {k : K} {l : List (K × V)} (hs : Sorted l) :
    (del k l).length = if (find k l).isSome then l.length - 1 else l.length := by
  induction l with
  | nil => simp [del, find_nil]
  | cons a l ih =>
    obtain ⟨x, w⟩ := a
    rw [sorted_cons] at hs
    rw [del_cons, find_cons]
    by_cases h : x = k
    · subst h; simp [del_of_all_lt hs.1]
    · simp only [h, if_false, List.length_cons, ih hs.2]
      split
      · rename_i h1
        rw [Option.isSome_iff_exists] at h1
        obtain ⟨e, he⟩ := h1
        have := List.length_pos_of_mem (find_some_mem he)
        omega
      · rfl

theorem length_upd {k : K} {f : V → V} {l : List (K × V)} : (upd k f l).length = l.length := by
  simp [upd]

end Verif.SL
