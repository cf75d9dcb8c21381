/- The results of the set operations of a skip map. -/
import Verif.Skip.MapMerge
import Mathlib.Order.Compare

namespace Verif.Skip.Map

open Verif.Spec Verif.SL

variable {K V : Type} [LinearOrder K]

/-- `c` is sorted and binds every key as `g` says. -/
def Comb (g : Option (K × V) → Option (K × V) → Option (K × V)) (a b c : List (K × V)) : Prop :=
  Sorted c ∧ ∀ y, find y c = g (find y a) (find y b)

section
variable {g : Option (K × V) → Option (K × V) → Option (K × V)} {a b : K × V} {l r z : List (K × V)}

theorem find_cons' (k : K) (a : K × V) (l : List (K × V)) :
    find k (a :: l) = if a.1 = k then some a else find k l := by
  obtain ⟨x, w⟩ := a; rw [find_cons]

theorem comb_keys (h : Comb g l r z) (g0 : g none none = none) {k : K} (hl : ∀ x ∈ l, k < x.1) (hr : ∀ x ∈ r, k < x.1) :
    ∀ x ∈ z, k < x.1 := by
  intro x hx
  have h1 := find_of_mem h.1 hx
  rw [h.2] at h1
  by_cases h2 : k < x.1
  · exact h2
  · exfalso
    have e1 : find x.1 l = none := find_eq_none.2 fun e he h3 => h2 (h3 ▸ hl e he)
    have e2 : find x.1 r = none := find_eq_none.2 fun e he h3 => h2 (h3 ▸ hr e he)
    rw [e1, e2, g0] at h1
    simp at h1

theorem sorted_cons' : Sorted (a :: l) ↔ (∀ x ∈ l, a.1 < x.1) ∧ Sorted l := List.pairwise_cons

theorem find_none_of_gt {k : K} (h : ∀ x ∈ l, k < x.1) : find k l = none := find_of_all_lt h

theorem comb_takeL (g0 : g none none = none) (g1 : ∀ x, g (some x) none = some x) (hs : Sorted (a :: l))
    (hr : ∀ x ∈ r, a.1 < x.1) (h : Comb g l r z) : Comb g (a :: l) r (a :: z) := by
  obtain ⟨hl, hs⟩ := sorted_cons'.1 hs
  refine ⟨sorted_cons'.2 ⟨comb_keys h g0 hl hr, h.1⟩, fun y => ?_⟩
  rw [find_cons', find_cons']
  by_cases e : a.1 = y
  · subst e; rw [if_pos rfl, if_pos rfl, find_none_of_gt hr, g1]
  · rw [if_neg e, if_neg e]; exact h.2 y

theorem comb_takeR (g0 : g none none = none) (g1 : ∀ x, g none (some x) = some x) (hs : Sorted (b :: r))
    (hl : ∀ x ∈ l, b.1 < x.1) (h : Comb g l r z) : Comb g l (b :: r) (b :: z) := by
  obtain ⟨hr, hs⟩ := sorted_cons'.1 hs
  refine ⟨sorted_cons'.2 ⟨comb_keys h g0 hl hr, h.1⟩, fun y => ?_⟩
  rw [find_cons', find_cons']
  by_cases e : b.1 = y
  · subst e; rw [if_pos rfl, if_pos rfl, find_none_of_gt hl, g1]
  · rw [if_neg e, if_neg e]; exact h.2 y

theorem comb_dropL (g0 : g none none = none) (g1 : ∀ x, g (some x) none = none) (hs : Sorted (a :: l))
    (hr : ∀ x ∈ r, a.1 < x.1) (h : Comb g l r z) : Comb g (a :: l) r z := by
  obtain ⟨hl, hs⟩ := sorted_cons'.1 hs
  refine ⟨h.1, fun y => ?_⟩
  rw [find_cons']
  by_cases e : a.1 = y
  · subst e; rw [if_pos rfl, find_none_of_gt hr, g1, h.2, find_none_of_gt hr, find_none_of_gt hl, g0]
  · rw [if_neg e]; exact h.2 y

theorem comb_dropR (g0 : g none none = none) (g1 : ∀ x, g none (some x) = none) (hs : Sorted (b :: r))
    (hl : ∀ x ∈ l, b.1 < x.1) (h : Comb g l r z) : Comb g l (b :: r) z := by
  obtain ⟨hr, hs⟩ := sorted_cons'.1 hs
  refine ⟨h.1, fun y => ?_⟩
  rw [find_cons']
  by_cases e : b.1 = y
  · subst e; rw [if_pos rfl, find_none_of_gt hl, g1, h.2, find_none_of_gt hr, find_none_of_gt hl, g0]
  · rw [if_neg e]; exact h.2 y

theorem comb_dropBoth (g0 : g none none = none) (g1 : ∀ x y, g (some x) (some y) = none) (e : a.1 = b.1)
    (hs : Sorted (a :: l)) (hs' : Sorted (b :: r)) (h : Comb g l r z) : Comb g (a :: l) (b :: r) z := by
  obtain ⟨hl, hs⟩ := sorted_cons'.1 hs
  obtain ⟨hr, hs'⟩ := sorted_cons'.1 hs'
  refine ⟨h.1, fun y => ?_⟩
  rw [find_cons', find_cons']
  by_cases e' : a.1 = y
  · subst e'; rw [if_pos rfl, if_pos e.symm, g1, h.2, find_none_of_gt hl, find_none_of_gt (by rw [e]; exact hr), g0]
  · rw [if_neg e', if_neg (by rw [← e]; exact e')]; exact h.2 y

theorem comb_takeBoth (g0 : g none none = none) (g1 : ∀ x y, g (some x) (some y) = some x) (e : a.1 = b.1)
    (hs : Sorted (a :: l)) (hs' : Sorted (b :: r)) (h : Comb g l r z) : Comb g (a :: l) (b :: r) (a :: z) := by
  obtain ⟨hl, hs⟩ := sorted_cons'.1 hs
  obtain ⟨hr, hs'⟩ := sorted_cons'.1 hs'
  refine ⟨sorted_cons'.2 ⟨comb_keys h g0 hl (by rw [e]; exact hr), h.1⟩, fun y => ?_⟩
  rw [find_cons', find_cons', find_cons']
  by_cases e' : a.1 = y
  · subst e'; rw [if_pos rfl, if_pos rfl, if_pos e.symm, g1]
  · rw [if_neg e', if_neg e', if_neg (by rw [← e]; exact e')]; exact h.2 y

/-- `union` frees the right node and keeps the left one for a later iteration. -/
theorem comb_freeR (g1 : ∀ x y, g (some x) y = some x) (e : a.1 = b.1) (h : Comb g (a :: l) r z) :
    Comb g (a :: l) (b :: r) z := by
  refine ⟨h.1, fun y => ?_⟩
  rw [h.2, find_cons', find_cons']
  by_cases e' : a.1 = y
  · rw [if_pos e', g1, g1]
  · rw [if_neg e', if_neg (by rw [← e]; exact e')]

theorem comb_nil (g0 : g none none = none) : Comb g ([] : List (K × V)) [] [] :=
  ⟨by simp [Sorted], fun y => by rw [find_nil, g0]⟩

end

/-! ### Iterations on lists -/

/-- `union` on lists. -/
def unionP : Pick K V
  | [], [] => some ([], [], none)
  | a :: L, b :: R =>
    match compare a.e.1 b.e.1 with
    | .eq => some (a :: L, R, none)
    | .lt => some (L, b :: R, some a)
    | .gt => some (a :: L, R, some b)
  | [], b :: R => some ([], R, some b)
  | a :: L, [] => some (L, [], some a)

/-- `intersection` on lists. -/
def interP : Pick K V
  | [], [] => some ([], [], none)
  | a :: L, b :: R =>
    match compare a.e.1 b.e.1 with
    | .eq => some (L, R, some a)
    | .lt => some (L, b :: R, none)
    | .gt => some (a :: L, R, none)
  | [], _ :: R => some ([], R, none)
  | _ :: L, [] => some (L, [], none)

/-- `map_difference` on lists: it crashes when the right list is exhausted first. -/
def diffP (sym : Bool) : Pick K V
  | [], [] => some ([], [], none)
  | a :: L, b :: R =>
    match compare a.e.1 b.e.1 with
    | .eq => some (L, R, none)
    | .lt => some (L, b :: R, some a)
    | .gt => some (a :: L, R, if sym then some b else none)
  | [], b :: R => some ([], R, if sym then some b else none)
  | _ :: _, [] => none

/-- Every tower that an iteration hands on was there before. -/
def Conserves (P : Pick K V) : Prop :=
  ∀ L R L' R' o, P L R = some (L', R', o) → ∀ x, x ∈ L' ∨ x ∈ R' ∨ o = some x → x ∈ L ∨ x ∈ R

theorem union_conserves : Conserves (unionP (K := K) (V := V)) := by
  intro L R L' R' o h x hx
  cases L <;> cases R <;> simp only [unionP] at h
  · simp at h; obtain ⟨rfl, rfl, rfl⟩ := h; simp at hx
  · simp at h; obtain ⟨rfl, rfl, rfl⟩ := h; simp at hx ⊢; tauto
  · simp at h; obtain ⟨rfl, rfl, rfl⟩ := h; simp at hx ⊢; tauto
  · split at h <;> (simp at h; obtain ⟨rfl, rfl, rfl⟩ := h; simp at hx ⊢; tauto)

theorem inter_conserves : Conserves (interP (K := K) (V := V)) := by
  intro L R L' R' o h x hx
  cases L <;> cases R <;> simp only [interP] at h
  · simp at h; obtain ⟨rfl, rfl, rfl⟩ := h; simp at hx
  · simp at h; obtain ⟨rfl, rfl, rfl⟩ := h; simp at hx ⊢; tauto
  · simp at h; obtain ⟨rfl, rfl, rfl⟩ := h; simp at hx ⊢; tauto
  · split at h <;> (simp at h; obtain ⟨rfl, rfl, rfl⟩ := h; simp at hx ⊢; tauto)

theorem diff_conserves (sym : Bool) : Conserves (diffP (K := K) (V := V) sym) := by
  intro L R L' R' o h x hx
  cases L <;> cases R <;> simp only [diffP] at h
  · simp at h; obtain ⟨rfl, rfl, rfl⟩ := h; simp at hx
  · simp at h; obtain ⟨rfl, rfl, rfl⟩ := h; cases sym <;> (simp at hx ⊢; tauto)
  · simp at h
  · split at h <;> (simp at h; obtain ⟨rfl, rfl, rfl⟩ := h; cases sym <;> (simp at hx ⊢; tauto))

omit [LinearOrder K] in
theorem listMerge_mem {P : Pick K V} (hP : Conserves P) : ∀ (f : Nat) (L R Z : List (Tower (K × V))),
    listMerge P f L R = some Z → ∀ x ∈ Z, x ∈ L ∨ x ∈ R := by
  intro f
  induction f with
  | zero => intro L R Z h x hx; cases L <;> cases R <;> simp [listMerge] at h; subst h; simp at hx
  | succ f ih =>
    intro L R Z h x hx
    by_cases hLR : L = [] ∧ R = []
    · obtain ⟨rfl, rfl⟩ := hLR
      simp [listMerge] at h; subst h; simp at hx
    · have e : listMerge P (f + 1) L R = (match P L R with
          | none => none
          | some (L', R', none) => listMerge P f L' R'
          | some (L', R', some t) => (listMerge P f L' R').map (t :: ·)) := by
        cases L <;> cases R <;> first | rfl | simp at hLR
      rw [e] at h
      cases hp : P L R with
      | none => simp [hp] at h
      | some q =>
        obtain ⟨L', R', o⟩ := q
        have hc := hP _ _ _ _ _ hp
        cases o with
        | none =>
          simp only [hp] at h
          rcases ih _ _ _ h x hx with h1 | h1
          · exact hc x (.inl h1)
          · exact hc x (.inr (.inl h1))
        | some t =>
          simp only [hp, Option.map_eq_some_iff] at h
          obtain ⟨Z', h1, rfl⟩ := h
          rcases List.mem_cons.1 hx with rfl | hx
          · exact hc x (.inr (.inr rfl))
          · rcases ih _ _ _ h1 x hx with h2 | h2
            · exact hc x (.inl h2)
            · exact hc x (.inr (.inl h2))

theorem compareAt_ok {s : Merge K V} {head lh rh : Addr} {O L R X : List (Tower (K × V))} {a b : Tower (K × V)}
    (h : MInv s head lh rh O (a :: L) (b :: R) X) : compareAt s.mem a.addr b.addr = some (compare a.e.1 b.e.1) := by
  have h1 := entryAt_of_shape (h.tow a (by simp))
  have h2 := entryAt_of_shape (h.tow b (by simp))
  simp [compareAt, h1, h2]

section
variable {s : Merge K V} {head lh rh : Addr} {O L R X : List (Tower (K × V))} {t : Tower (K × V)}

omit [LinearOrder K] in
theorem takeL_ok (h : MInv s head lh rh O (t :: L) R []) :
    ∃ s', takeL s = some (s', some t.addr) ∧ MInv s' head lh rh O L R [t] := by
  obtain ⟨s', h1, h2, _⟩ := popL_ok h
  exact ⟨s', by simp [takeL, h1], h2⟩

omit [LinearOrder K] in
theorem takeR_ok (h : MInv s head lh rh O L (t :: R) []) :
    ∃ s', takeR s = some (s', some t.addr) ∧ MInv s' head lh rh O L R [t] := by
  obtain ⟨s', h1, h2, _⟩ := popR_ok h
  exact ⟨s', by simp [takeR, h1], h2⟩

omit [LinearOrder K] in
theorem dropL_ok (h : MInv s head lh rh O (t :: L) R []) :
    ∃ s', dropL s = some (s', none) ∧ MInv s' head lh rh O L R [] := by
  obtain ⟨s1, h1, h2, _⟩ := popL_ok h
  obtain ⟨s2, h3, h4, _⟩ := free_hand h2
  exact ⟨s2, by simp [dropL, h1, h3], h4⟩

omit [LinearOrder K] in
theorem dropR_ok (h : MInv s head lh rh O L (t :: R) []) :
    ∃ s', dropR s = some (s', none) ∧ MInv s' head lh rh O L R [] := by
  obtain ⟨s1, h1, h2, _⟩ := popR_ok h
  obtain ⟨s2, h3, h4, _⟩ := free_hand h2
  exact ⟨s2, by simp [dropR, h1, h3], h4⟩

omit [LinearOrder K] in
theorem MInv.swap {x y : Tower (K × V)} (h : MInv s head lh rh O L R (x :: y :: X)) :
    MInv s head lh rh O L R (y :: x :: X) :=
  h.perm rfl rfl rfl ((List.Perm.swap x y X).append_left _) h.left h.right
end

theorem union_implements : Implements (unionPick (K := K) (V := V)) unionP := by
  intro s head lh rh O L R h hne
  cases L with
  | nil =>
    cases R with
    | nil => simp at hne
    | cons b R =>
      obtain ⟨s', h1, h2⟩ := takeR_ok h
      have e1 : s.left = none := h.left.1
      exact ⟨s', by simp [unionPick, e1, h1], h2⟩
  | cons a L =>
    have e1 : s.left = some a.addr := h.left.1
    cases R with
    | nil =>
      obtain ⟨s', h1, h2⟩ := takeL_ok h
      have e2 : s.right = none := h.right.1
      exact ⟨s', by simp [unionPick, e1, e2, h1], h2⟩
    | cons b R =>
      have e2 : s.right = some b.addr := h.right.1
      have e3 := compareAt_ok h
      simp only [unionP, unionPick, e1, e2, e3]
      cases hc : compare a.e.1 b.e.1 with
      | lt =>
        obtain ⟨s', h1, h2⟩ := takeL_ok h
        exact ⟨s', h1, h2⟩
      | eq =>
        obtain ⟨s', h1, h2⟩ := dropR_ok h
        exact ⟨s', h1, h2⟩
      | gt =>
        obtain ⟨s', h1, h2⟩ := takeR_ok h
        exact ⟨s', h1, h2⟩

theorem inter_implements : Implements (interPick (K := K) (V := V)) interP := by
  intro s head lh rh O L R h hne
  cases L with
  | nil =>
    cases R with
    | nil => simp at hne
    | cons b R =>
      obtain ⟨s', h1, h2⟩ := dropR_ok h
      have e1 : s.left = none := h.left.1
      exact ⟨s', by simp [interPick, e1, h1], h2⟩
  | cons a L =>
    have e1 : s.left = some a.addr := h.left.1
    cases R with
    | nil =>
      obtain ⟨s', h1, h2⟩ := dropL_ok h
      have e2 : s.right = none := h.right.1
      exact ⟨s', by simp [interPick, e1, e2, h1], h2⟩
    | cons b R =>
      have e2 : s.right = some b.addr := h.right.1
      have e3 := compareAt_ok h
      simp only [interP, interPick, e1, e2, e3]
      cases hc : compare a.e.1 b.e.1 with
      | lt =>
        obtain ⟨s', h1, h2⟩ := dropL_ok h
        exact ⟨s', h1, h2⟩
      | eq =>
        obtain ⟨s1, h1, h2, _⟩ := popL_ok h
        obtain ⟨s2, h3, h4, _⟩ := popR_ok h2
        obtain ⟨s3, h5, h6, _⟩ := free_hand h4
        exact ⟨s3, by simp [h1, h3, h5], h6⟩
      | gt =>
        obtain ⟨s', h1, h2⟩ := dropR_ok h
        exact ⟨s', h1, h2⟩

theorem diff_implements (sym : Bool) : Implements (diffPick (K := K) (V := V) sym) (diffP sym) := by
  intro s head lh rh O L R h hne
  cases L with
  | nil =>
    cases R with
    | nil => simp at hne
    | cons b R =>
      have e1 : s.left = none := h.left.1
      cases sym with
      | true =>
        obtain ⟨s', h1, h2⟩ := takeR_ok h
        exact ⟨s', by simp [diffPick, e1, h1], h2⟩
      | false =>
        obtain ⟨s', h1, h2⟩ := dropR_ok h
        exact ⟨s', by simp [diffPick, e1, h1], h2⟩
  | cons a L =>
    have e1 : s.left = some a.addr := h.left.1
    cases R with
    | nil =>
      have e2 : s.right = none := h.right.1
      show diffPick sym s = none
      simp [diffPick, e1, e2, takeR, popR]
    | cons b R =>
      have e2 : s.right = some b.addr := h.right.1
      have e3 := compareAt_ok h
      simp only [diffP, diffPick, e1, e2, e3]
      cases hc : compare a.e.1 b.e.1 with
      | lt =>
        obtain ⟨s', h1, h2⟩ := takeL_ok h
        exact ⟨s', h1, h2⟩
      | eq =>
        obtain ⟨s1, h1, h2, _⟩ := popL_ok h
        obtain ⟨s2, h3, h4, _⟩ := popR_ok h2
        obtain ⟨s3, h5, h6, _⟩ := free_hand h4.swap
        obtain ⟨s4, h7, h8, _⟩ := free_hand h6
        exact ⟨s4, by simp [h1, h3, h5, h7], h8⟩
      | gt =>
        cases sym with
        | true =>
          obtain ⟨s', h1, h2⟩ := takeR_ok h
          exact ⟨s', by simpa using h1, h2⟩
        | false =>
          obtain ⟨s', h1, h2⟩ := dropR_ok h
          exact ⟨s', by simpa using h1, h2⟩

/-! ### The list loops -/

/-- Entries of towers. -/
abbrev ents (T : List (Tower (K × V))) : List (K × V) := T.map (·.e)

omit [LinearOrder K] in
theorem listMerge_nil (P : Pick K V) (f : Nat) : listMerge P f [] [] = some [] := by
  cases f <;> rfl

/-- Left bindings take precedence. -/
def gU (x y : Option (K × V)) : Option (K × V) := x.or y
/-- Common keys. -/
def gI (x y : Option (K × V)) : Option (K × V) := if y.isSome then x else none
/-- Difference and symmetric difference. -/
def gD (sym : Bool) (x y : Option (K × V)) : Option (K × V) :=
  match x, y with
  | some _, some _ => none
  | some x, none => some x
  | none, y => if sym then y else none

theorem head_lt_all {a b : Tower (K × V)} {R : List (Tower (K × V))} (hs : Sorted (ents (b :: R)))
    (h : a.e.1 < b.e.1) : ∀ x ∈ ents (b :: R), a.e.1 < x.1 := by
  intro x hx
  simp only [ents, List.map_cons, List.mem_cons] at hx
  rcases hx with rfl | hx
  · exact h
  · exact h.trans ((sorted_cons'.1 hs).1 x hx)

theorem union_list (f : Nat) (L R : List (Tower (K × V))) (hf : L.length + R.length ≤ f)
    (hL : Sorted (ents L)) (hR : Sorted (ents R)) :
    ∃ Z, listMerge unionP f L R = some Z ∧ Comb gU (ents L) (ents R) (ents Z) := by
  induction f generalizing L R with
  | zero =>
    have h1 : L = [] := List.eq_nil_of_length_eq_zero (by omega)
    have h2 : R = [] := List.eq_nil_of_length_eq_zero (by omega)
    subst h1 h2
    exact ⟨[], rfl, comb_nil rfl⟩
  | succ f ih =>
    cases L with
    | nil =>
      cases R with
      | nil => exact ⟨[], rfl, comb_nil rfl⟩
      | cons b R =>
        obtain ⟨Z, h1, h2⟩ := ih [] R (by simp at hf ⊢; omega) hL (sorted_cons'.1 hR).2
        exact ⟨b :: Z, by simp [listMerge, unionP, h1], comb_takeR rfl (fun _ => rfl) hR (by simp) h2⟩
    | cons a L =>
      cases R with
      | nil =>
        obtain ⟨Z, h1, h2⟩ := ih L [] (by simp at hf ⊢; omega) (sorted_cons'.1 hL).2 hR
        exact ⟨a :: Z, by simp [listMerge, unionP, h1], comb_takeL rfl (fun _ => rfl) hL (by simp) h2⟩
      | cons b R =>
        cases hc : compare a.e.1 b.e.1 with
        | lt =>
          obtain ⟨Z, h1, h2⟩ := ih L (b :: R) (by simp at hf ⊢; omega) (sorted_cons'.1 hL).2 hR
          exact ⟨a :: Z, by simp [listMerge, unionP, hc, h1], comb_takeL rfl (fun _ => rfl) hL
            (head_lt_all hR (compare_lt_iff_lt.1 hc)) h2⟩
        | eq =>
          obtain ⟨Z, h1, h2⟩ := ih (a :: L) R (by simp at hf ⊢; omega) hL (sorted_cons'.1 hR).2
          exact ⟨Z, by simp [listMerge, unionP, hc, h1], comb_freeR (fun _ _ => rfl) (compare_eq_iff_eq.1 hc) h2⟩
        | gt =>
          obtain ⟨Z, h1, h2⟩ := ih (a :: L) R (by simp at hf ⊢; omega) hL (sorted_cons'.1 hR).2
          exact ⟨b :: Z, by simp [listMerge, unionP, hc, h1], comb_takeR rfl (fun _ => rfl) hR
            (head_lt_all hL (compare_gt_iff_gt.1 hc)) h2⟩

theorem inter_list (f : Nat) (L R : List (Tower (K × V))) (hf : L.length + R.length ≤ f)
    (hL : Sorted (ents L)) (hR : Sorted (ents R)) :
    ∃ Z, listMerge interP f L R = some Z ∧ Comb gI (ents L) (ents R) (ents Z) := by
  induction f generalizing L R with
  | zero =>
    have h1 : L = [] := List.eq_nil_of_length_eq_zero (by omega)
    have h2 : R = [] := List.eq_nil_of_length_eq_zero (by omega)
    subst h1 h2
    exact ⟨[], rfl, comb_nil rfl⟩
  | succ f ih =>
    cases L with
    | nil =>
      cases R with
      | nil => exact ⟨[], rfl, comb_nil rfl⟩
      | cons b R =>
        obtain ⟨Z, h1, h2⟩ := ih [] R (by simp at hf ⊢; omega) hL (sorted_cons'.1 hR).2
        exact ⟨Z, by simp [listMerge, interP, h1], comb_dropR rfl (fun _ => rfl) hR (by simp) h2⟩
    | cons a L =>
      cases R with
      | nil =>
        obtain ⟨Z, h1, h2⟩ := ih L [] (by simp at hf ⊢; omega) (sorted_cons'.1 hL).2 hR
        exact ⟨Z, by simp [listMerge, interP, h1], comb_dropL rfl (fun _ => rfl) hL (by simp) h2⟩
      | cons b R =>
        cases hc : compare a.e.1 b.e.1 with
        | lt =>
          obtain ⟨Z, h1, h2⟩ := ih L (b :: R) (by simp at hf ⊢; omega) (sorted_cons'.1 hL).2 hR
          exact ⟨Z, by simp [listMerge, interP, hc, h1], comb_dropL rfl (fun _ => rfl) hL
            (head_lt_all hR (compare_lt_iff_lt.1 hc)) h2⟩
        | eq =>
          obtain ⟨Z, h1, h2⟩ := ih L R (by simp at hf ⊢; omega) (sorted_cons'.1 hL).2 (sorted_cons'.1 hR).2
          exact ⟨a :: Z, by simp [listMerge, interP, hc, h1],
            comb_takeBoth rfl (fun _ _ => rfl) (compare_eq_iff_eq.1 hc) hL hR h2⟩
        | gt =>
          obtain ⟨Z, h1, h2⟩ := ih (a :: L) R (by simp at hf ⊢; omega) hL (sorted_cons'.1 hR).2
          exact ⟨Z, by simp [listMerge, interP, hc, h1], comb_dropR rfl (fun _ => rfl) hR
            (head_lt_all hL (compare_gt_iff_gt.1 hc)) h2⟩

/-- Some left key exceeds every right key. -/
def Overhang (L R : List (Tower (K × V))) : Prop := ∃ x ∈ L, ∀ y ∈ R, y.e.1 < x.e.1

theorem mem_ents {x : Tower (K × V)} {L : List (Tower (K × V))} (h : x ∈ L) : x.e ∈ ents L :=
  List.mem_map.2 ⟨x, h, rfl⟩

theorem diff_list (sym : Bool) (f : Nat) (L R : List (Tower (K × V))) (hf : L.length + R.length ≤ f)
    (hL : Sorted (ents L)) (hR : Sorted (ents R)) :
    (¬ Overhang L R → ∃ Z, listMerge (diffP sym) f L R = some Z ∧ Comb (gD sym) (ents L) (ents R) (ents Z)) ∧
      (Overhang L R → listMerge (diffP sym) f L R = none) := by
  have g0 : gD sym (none : Option (K × V)) none = none := by cases sym <;> rfl
  induction f generalizing L R with
  | zero =>
    have h1 : L = [] := List.eq_nil_of_length_eq_zero (by omega)
    have h2 : R = [] := List.eq_nil_of_length_eq_zero (by omega)
    subst h1 h2
    exact ⟨fun _ => ⟨[], rfl, comb_nil g0⟩, fun ⟨x, hx, _⟩ => by simp at hx⟩
  | succ f ih =>
    cases L with
    | nil =>
      refine ⟨fun _ => ?_, fun ⟨x, hx, _⟩ => by simp at hx⟩
      cases R with
      | nil => exact ⟨[], rfl, comb_nil g0⟩
      | cons b R =>
        obtain ⟨Z, h1, h2⟩ := (ih [] R (by simp at hf ⊢; omega) hL (sorted_cons'.1 hR).2).1 fun ⟨x, hx, _⟩ => by simp at hx
        cases sym with
        | true => exact ⟨b :: Z, by simp [listMerge, diffP, h1], comb_takeR rfl (fun _ => rfl) hR (by simp) h2⟩
        | false => exact ⟨Z, by simp [listMerge, diffP, h1], comb_dropR rfl (fun _ => rfl) hR (by simp) h2⟩
    | cons a L =>
      cases R with
      | nil =>
        refine ⟨fun h => absurd ⟨a, by simp, by simp⟩ h, fun _ => ?_⟩
        simp [listMerge, diffP]
      | cons b R =>
        cases hc : compare a.e.1 b.e.1 with
        | lt =>
          have hlt := compare_lt_iff_lt.1 hc
          obtain ⟨i1, i2⟩ := ih L (b :: R) (by simp at hf ⊢; omega) (sorted_cons'.1 hL).2 hR
          have ho : Overhang (a :: L) (b :: R) ↔ Overhang L (b :: R) := by
            constructor
            · rintro ⟨x, hx, h⟩
              rcases List.mem_cons.1 hx with rfl | hx
              · exact absurd (h b (by simp)) (not_lt_of_gt hlt)
              · exact ⟨x, hx, h⟩
            · rintro ⟨x, hx, h⟩; exact ⟨x, by simp [hx], h⟩
          rw [ho]
          constructor
          · intro h
            obtain ⟨Z, h1, h2⟩ := i1 h
            exact ⟨a :: Z, by simp [listMerge, diffP, hc, h1], comb_takeL g0 (fun _ => rfl) hL
              (head_lt_all hR hlt) h2⟩
          · intro h
            simp [listMerge, diffP, hc, i2 h]
        | eq =>
          have heq := compare_eq_iff_eq.1 hc
          obtain ⟨i1, i2⟩ := ih L R (by simp at hf ⊢; omega) (sorted_cons'.1 hL).2 (sorted_cons'.1 hR).2
          have ho : Overhang (a :: L) (b :: R) ↔ Overhang L R := by
            constructor
            · rintro ⟨x, hx, h⟩
              rcases List.mem_cons.1 hx with rfl | hx
              · exact absurd (h b (by simp)) (by rw [heq]; exact lt_irrefl _)
              · exact ⟨x, hx, fun y hy => h y (by simp [hy])⟩
            · rintro ⟨x, hx, h⟩
              refine ⟨x, by simp [hx], fun y hy => ?_⟩
              rcases List.mem_cons.1 hy with rfl | hy
              · rw [← heq]; exact (sorted_cons'.1 hL).1 _ (mem_ents hx)
              · exact h y hy
          rw [ho]
          constructor
          · intro h
            obtain ⟨Z, h1, h2⟩ := i1 h
            exact ⟨Z, by simp [listMerge, diffP, hc, h1], comb_dropBoth g0 (fun _ _ => rfl) heq hL hR h2⟩
          · intro h
            simp [listMerge, diffP, hc, i2 h]
        | gt =>
          have hlt : b.e.1 < a.e.1 := compare_gt_iff_gt.1 hc
          obtain ⟨i1, i2⟩ := ih (a :: L) R (by simp at hf ⊢; omega) hL (sorted_cons'.1 hR).2
          have ho : Overhang (a :: L) (b :: R) ↔ Overhang (a :: L) R := by
            constructor
            · rintro ⟨x, hx, h⟩; exact ⟨x, hx, fun y hy => h y (by simp [hy])⟩
            · rintro ⟨x, hx, h⟩
              refine ⟨x, hx, fun y hy => ?_⟩
              rcases List.mem_cons.1 hy with rfl | hy
              · exact head_lt_all hL hlt _ (mem_ents hx)
              · exact h y hy
          rw [ho]
          constructor
          · intro h
            obtain ⟨Z, h1, h2⟩ := i1 h
            cases sym with
            | true => exact ⟨b :: Z, by simp [listMerge, diffP, hc, h1], comb_takeR rfl (fun _ => rfl) hR
                (head_lt_all hL hlt) h2⟩
            | false => exact ⟨Z, by simp [listMerge, diffP, hc, h1], comb_dropR rfl (fun _ => rfl) hR
                (head_lt_all hL hlt) h2⟩
          · intro h
            cases sym <;> simp [listMerge, diffP, hc, i2 h]

/-! ### Whole operations -/

/-- The two maps own different memory. -/
def Disjoint (l r : SkipMap K V) : Prop := ∀ a, l.mem a = none ∨ r.mem a = none

/-- The start of a set operation: the state before the loop, and what follows the loop. -/
theorem merge_start (pick : Merge K V → Option (Merge K V × Option Addr))
    (extra off : Nat) {l r : SkipMap K V} {L R : List (Tower (K × V))} (hl : Good l L) (hr : Good r R)
    (hd : Disjoint l r) :
    ∃ s head, MInv s head l.head r.head [] L R [] ∧ l.head ≠ r.head ∧ (∀ a, head ≤ a → l.mem a = none ∧ r.mem a = none) ∧
      mergeWith pick extra l r off = (mergeLoop pick extra (l.len + r.len) s).bind
        fun s => (s.mem.free l.head).bind fun mem => (mem.free r.head).bind fun mem =>
          some ⟨mem, head, s.len, head + 1⟩ := by
  obtain ⟨hlr, hll, hls, hlb⟩ := hl
  obtain ⟨hrr, hrl, hrs, hrb⟩ := hr
  obtain ⟨head, hhead⟩ : ∃ h, h = Nat.max l.bump r.bump + off := ⟨_, rfl⟩
  obtain ⟨m0, hm0⟩ : ∃ m : MHeap K V, m = Heap.put (fun a => (l.mem a).or (r.mem a)) head headNode := ⟨_, rfl⟩
  have hL : ∀ a, l.mem a ≠ none → a ≠ head ∧ m0 a = l.mem a := by
    intro a ha
    have : a ≠ head := by
      rintro rfl
      exact ha (hlb _ (by rw [hhead]; exact Nat.le_trans (Nat.le_max_left _ _) (Nat.le_add_right _ _)))
    refine ⟨this, ?_⟩
    rw [hm0]
    simp only [Heap.put, if_neg this]
    cases h : l.mem a with
    | none => exact absurd h ha
    | some n => rfl
  have hR : ∀ a, r.mem a ≠ none → a ≠ head ∧ m0 a = r.mem a := by
    intro a ha
    have : a ≠ head := by
      rintro rfl
      exact ha (hrb _ (by rw [hhead]; exact Nat.le_trans (Nat.le_max_right _ _) (Nat.le_add_right _ _)))
    refine ⟨this, ?_⟩
    rw [hm0]
    simp only [Heap.put, if_neg this]
    rcases hd a with h | h
    · rw [h]; rfl
    · exact absurd h ha
  have nn : ∀ {m : MHeap K V} {a p}, Skip.shape m a = some p → m a ≠ none := by
    intro m a p h hc; simp [Skip.shape, hc] at h
  have sL : ∀ {a p}, Skip.shape l.mem a = some p → a ≠ head ∧ Skip.shape m0 a = some p ∧
      ∀ j, getLink m0 a j = getLink l.mem a j := by
    intro a p h
    obtain ⟨h1, h2⟩ := hL a (nn h)
    exact ⟨h1, by rw [← h]; simp only [Skip.shape, h2], fun j => by simp only [getLink, h2]⟩
  have sR : ∀ {a p}, Skip.shape r.mem a = some p → a ≠ head ∧ Skip.shape m0 a = some p ∧
      ∀ j, getLink m0 a j = getLink r.mem a j := by
    intro a p h
    obtain ⟨h1, h2⟩ := hR a (nn h)
    exact ⟨h1, by rw [← h]; simp only [Skip.shape, h2], fun j => by simp only [getLink, h2]⟩
  have dLR : ∀ {a b p q}, Skip.shape l.mem a = some p → Skip.shape r.mem b = some q → a ≠ b := by
    rintro a b p q h1 h2 rfl
    rcases hd a with h | h
    · exact nn h1 h
    · exact nn h2 h
  have hlh := sL hlr.shp.1.hd
  have hrh := sR hrr.shp.1.hd
  have hlrh : l.head ≠ r.head := dLR hlr.shp.1.hd hrr.shp.1.hd
  have cL := hlr.chain 0 (Nat.zero_le _)
  rw [lv_zero fun t ht => (hlr.shp.1.pos t ht).1] at cL
  have cR := hrr.chain 0 (Nat.zero_le _)
  rw [lv_zero fun t ht => (hrr.shp.1.pos t ht).1] at cR
  obtain ⟨m1, a1, a2, a3⟩ := zeroLinks_ok hlh.2.1 none
  obtain ⟨m2, b1, b2, b3⟩ := zeroLinks_ok (m := m1) (by rw [a2]; exact hrh.2.1) none
  have hlf : getLink m0 l.head 0 = some (addrs L).head? := by rw [hlh.2.2]; exact chain_link cL
  have hrf : getLink m0 r.head 0 = some (addrs R).head? := by rw [hrh.2.2]; exact chain_link cR
  have hsh2 : Skip.shape m2 = Skip.shape m0 := by rw [b2, a2]
  have hfar : ∀ a, a ≠ l.head → a ≠ r.head → ∀ j, getLink m2 a j = getLink m0 a j := by
    intro a h1 h2 j; rw [b3, if_neg h2, a3, if_neg h1]
  have hnl : ∀ t ∈ L, t.addr ≠ l.head ∧ t.addr ≠ r.head := fun t ht =>
    ⟨by rintro h; exact (List.nodup_cons.1 hlr.shp.1.nodup).1 (h ▸ List.mem_map.2 ⟨t, ht, rfl⟩),
      dLR (hlr.shp.1.tow t ht) hrr.shp.1.hd⟩
  have hnr : ∀ t ∈ R, t.addr ≠ l.head ∧ t.addr ≠ r.head := fun t ht =>
    ⟨(dLR hlr.shp.1.hd (hrr.shp.1.tow t ht)).symm,
      by rintro h; exact (List.nodup_cons.1 hrr.shp.1.nodup).1 (h ▸ List.mem_map.2 ⟨t, ht, rfl⟩)⟩
  have hheadsh : Skip.shape m0 head = some (none, maxHeight + 1) := by
    rw [hm0]; simp [Skip.shape, Heap.put, headNode]
  have hinv : MInv ⟨m2, (addrs L).head?, (addrs R).head?, List.replicate (maxHeight + 1) head, 0⟩
      head l.head r.head [] L R [] := by
    refine ⟨?_, ?_, ?_, ?_, ?_, ?_, ⟨by simp, ?_⟩, ⟨rfl, ?_⟩, ⟨rfl, ?_⟩, rfl⟩
    · intro a ha
      simp only [hsh2]
      simp only [List.mem_cons, List.not_mem_nil, or_false] at ha
      rcases ha with rfl | rfl | rfl
      · exact hheadsh
      · exact hlh.2.1
      · exact hrh.2.1
    · intro t ht
      simp only [hsh2]
      simp only [List.nil_append, List.append_nil, List.mem_append] at ht
      rcases ht with ht | ht
      · exact (sL (hlr.shp.1.tow t ht)).2.1
      · exact (sR (hrr.shp.1.tow t ht)).2.1
    · intro t ht
      simp only [List.nil_append, List.append_nil, List.mem_append] at ht
      rcases ht with ht | ht
      · exact hlr.shp.1.pos t ht
      · exact hrr.shp.1.pos t ht
    · intro a h1 h2
      simp only [hsh2]
      simp only [List.mem_cons, List.not_mem_nil, or_false, not_or] at h1
      simp only [List.nil_append, List.append_nil, List.map_append, List.mem_append, not_or] at h2
      have e1 := hlr.shp.2 a h1.2.1 h2.1
      have e2 := hrr.shp.2 a h1.2.2 h2.2
      simp only [Skip.shape, Option.map_eq_none_iff] at e1 e2 ⊢
      rw [hm0]
      simp [Heap.put, h1.1, e1, e2]
    · have e1 := hlr.shp.1.nodup
      have e2 := hrr.shp.1.nodup
      simp only [List.nil_append, List.append_nil, List.map_append, List.cons_append]
      refine List.nodup_cons.2 ⟨?_, ?_⟩
      · intro hc
        simp only [List.mem_cons, List.mem_append, List.mem_map] at hc
        rcases hc with h | h | ⟨t, ht, h⟩ | ⟨t, ht, h⟩
        · exact hlh.1 h.symm
        · exact hrh.1 h.symm
        · exact (sL (hlr.shp.1.tow t ht)).1 h
        · exact (sR (hrr.shp.1.tow t ht)).1 h
      · have p : (l.head :: r.head :: (L.map (·.addr) ++ R.map (·.addr))).Perm
            ((l.head :: L.map (·.addr)) ++ (r.head :: R.map (·.addr))) := by
          rw [List.cons_append]
          exact (List.perm_middle.symm).cons _
        rw [p.nodup_iff, List.nodup_append]
        refine ⟨e1, e2, ?_⟩
        have hl' : ∀ x ∈ l.head :: L.map (·.addr), ∃ p, Skip.shape l.mem x = some p := by
          intro x hx
          rcases List.mem_cons.1 hx with rfl | hx
          · exact ⟨_, hlr.shp.1.hd⟩
          · obtain ⟨t, ht, rfl⟩ := List.mem_map.1 hx; exact ⟨_, hlr.shp.1.tow t ht⟩
        have hr' : ∀ x ∈ r.head :: R.map (·.addr), ∃ p, Skip.shape r.mem x = some p := by
          intro x hx
          rcases List.mem_cons.1 hx with rfl | hx
          · exact ⟨_, hrr.shp.1.hd⟩
          · obtain ⟨t, ht, rfl⟩ := List.mem_map.1 hx; exact ⟨_, hrr.shp.1.tow t ht⟩
        intro x hx y hy
        obtain ⟨p1, h1⟩ := hl' x hx
        obtain ⟨p2, h2⟩ := hr' y hy
        exact dLR h1 h2
    · intro i hi
      show getLink m2 head i = some none
      rw [hfar head hlh.1.symm hrh.1.symm]
      rw [hm0]
      simp [getLink, Heap.put, headNode, List.getElem?_replicate, Nat.lt_succ_of_le hi]
    · intro i hi
      simp [List.getElem?_replicate, Nat.lt_succ_of_le hi]
    · intro a Q hP
      have ha : a ∈ addrs L := by obtain ⟨P, hP⟩ := hP; rw [hP]; simp
      obtain ⟨t, ht, rfl⟩ := List.mem_map.1 ha
      rw [hfar _ (hnl t ht).1 (hnl t ht).2, (sL (hlr.shp.1.tow t ht)).2.2]
      exact chain_next (lk := lk l.mem 0) cL _ _ hP
    · intro a Q hP
      have ha : a ∈ addrs R := by obtain ⟨P, hP⟩ := hP; rw [hP]; simp
      obtain ⟨t, ht, rfl⟩ := List.mem_map.1 ha
      rw [hfar _ (hnr t ht).1 (hnr t ht).2, (sR (hrr.shp.1.tow t ht)).2.2]
      exact chain_next (lk := lk r.mem 0) cR _ _ hP
  have hmw : mergeWith pick extra l r off =
      (mergeLoop pick extra (l.len + r.len) ⟨m2, (addrs L).head?, (addrs R).head?, List.replicate (maxHeight + 1) head, 0⟩).bind
        fun s => (s.mem.free l.head).bind fun mem => (mem.free r.head).bind fun mem =>
          some ⟨mem, head, s.len, head + 1⟩ := by
    unfold mergeWith
    simp only [← hhead, ← hm0, hlf, hrf, Option.bind_eq_bind, Option.bind_some, a1, b1]
    rfl
  exact ⟨_, head, hinv, hlrh, fun a ha =>
    ⟨hlb a (Nat.le_trans (by rw [hhead]; exact Nat.le_trans (Nat.le_max_left _ _) (Nat.le_add_right _ _)) ha),
      hrb a (Nat.le_trans (by rw [hhead]; exact Nat.le_trans (Nat.le_max_right _ _) (Nat.le_add_right _ _)) ha)⟩, hmw⟩

theorem mergeWith_ok {pick : Merge K V → Option (Merge K V × Option Addr)} {P : Pick K V} (hp : Implements pick P) (hP : Conserves P)
    {extra off : Nat} {l r : SkipMap K V} {L R : List (Tower (K × V))} (hl : Good l L) (hr : Good r R)
    (hd : Disjoint l r) :
    (∀ Z, listMerge P (l.len + r.len) L R = some Z → (extra = 0 ∨ ∀ t ∈ Z, t.h = maxHeight + 1) → Sorted (ents Z) →
      ∃ c, mergeWith pick extra l r off = some c ∧ Good c Z) ∧
    (listMerge P (l.len + r.len) L R = none → extra = 0 → mergeWith pick extra l r off = none) := by
  obtain ⟨s₀, head, hinv, hlrh, hbnd, hmw⟩ := merge_start pick extra off hl hr hd
  obtain ⟨hlr, hll, hls, hlb⟩ := hl
  obtain ⟨hrr, hrl, hrs, hrb⟩ := hr
  have nn : ∀ {m : MHeap K V} {a p}, Skip.shape m a = some p → m a ≠ none := by
    intro m a p h hc; simp [Skip.shape, hc] at h
  obtain ⟨i1, i2⟩ := mergeLoop_ok (extra := extra) (f := l.len + r.len) hp hinv
  constructor
  · intro Z hZ hext hsz
    obtain ⟨s', h1, h2⟩ := i1 Z hZ hext
    simp only [List.nil_append] at h2
    obtain ⟨m3, c1, c2, c3⟩ := free_ok (h2.hd l.head (by simp))
    obtain ⟨m4, d1, d2, d3⟩ := free_ok (m := m3) (p := (none, maxHeight + 1)) (a := r.head)
      (by rw [c2, if_neg hlrh.symm]; exact h2.hd r.head (by simp))
    have hsh : ∀ a, Skip.shape m4 a = if a = l.head ∨ a = r.head then none else Skip.shape s'.mem a := by
      intro a; rw [d2, c2]
      by_cases e1 : a = r.head
      · simp [e1]
      · by_cases e2 : a = l.head <;> simp [e1, e2]
    have hn := h2.nodup
    simp only [List.append_nil, List.cons_append, List.nil_append, List.nodup_cons, List.mem_cons, not_or] at hn
    have hgl : ∀ a j, a ≠ l.head → a ≠ r.head → getLink m4 a j = getLink s'.mem a j := by
      intro a j e1 e2; rw [d3, if_neg e2, c3, if_neg e1]
    have hZn : ∀ a ∈ head :: addrs Z, a ≠ l.head ∧ a ≠ r.head := by
      intro a ha
      rcases List.mem_cons.1 ha with rfl | ha
      · exact ⟨hn.1.1, hn.1.2.1⟩
      · exact ⟨by rintro rfl; exact hn.2.1.2 ha, by rintro rfl; exact hn.2.2.1 ha⟩
    refine ⟨⟨m4, head, s'.len, head + 1⟩, by rw [hmw, h1]; simp [c1, d1], ⟨⟨⟨?_, ?_, ?_, ?_⟩, ?_⟩, ?_⟩, h2.len, hsz, ?_⟩
    · rw [hsh, if_neg (by have := hZn head (by simp); tauto)]
      exact h2.hd head (by simp)
    · intro t ht
      have := hZn t.addr (List.mem_cons_of_mem _ (List.mem_map.2 ⟨t, ht, rfl⟩))
      rw [hsh, if_neg (by tauto)]
      exact h2.tow t (by simp [ht])
    · intro t ht; exact h2.pos t (by simp [ht])
    · exact List.nodup_cons.2 ⟨hn.1.2.2, hn.2.2.2⟩
    · intro a e1 e2
      simp only
      rw [hsh]
      split
      · rfl
      · rename_i e3
        refine h2.only a ?_ (by simpa using e2)
        simp only [List.mem_cons, List.not_mem_nil, or_false, not_or]
        simp only [not_or] at e3
        exact ⟨e1, e3.1, e3.2⟩
    · intro i hi
      refine chain_frame (h2.chain i hi) fun y hy => ?_
      have hy' : y ∈ head :: addrs Z := by
        rcases List.mem_cons.1 hy with rfl | hy
        · simp
        · exact List.mem_cons_of_mem _ (mem_lv_addr hy)
      exact hgl y i (hZn y hy').1 (hZn y hy').2
    · intro a ha
      have hZsub : ∀ t ∈ Z, t.addr < head := by
        intro t ht
        rcases listMerge_mem hP _ _ _ _ hZ t ht with h3 | h3
        · have h4 := nn (hlr.shp.1.tow t h3)
          by_contra hlt
          exact h4 (hbnd _ (Nat.le_of_not_lt hlt)).1
        · have h4 := nn (hrr.shp.1.tow t h3)
          by_contra hlt
          exact h4 (hbnd _ (Nat.le_of_not_lt hlt)).2
      have h5 : Skip.shape m4 a = none := by
        rw [hsh]
        split
        · rfl
        · rename_i e3
          refine h2.only a ?_ ?_
          · simp only [List.mem_cons, List.not_mem_nil, or_false, not_or]
            simp only [not_or] at e3
            exact ⟨Nat.ne_of_gt ha, e3.1, e3.2⟩
          · simp only [List.append_nil, List.mem_map]
            rintro ⟨t, ht, rfl⟩
            exact absurd (hZsub t ht) (Nat.not_lt.2 (Nat.le_of_lt ha))
      simpa [Skip.shape] using h5
  · intro hZ hext
    rw [hmw, i2 hZ hext]
    rfl

theorem union_ok {off : Nat} {l r : SkipMap K V} {L R : List (Tower (K × V))} (hl : Good l L) (hr : Good r R)
    (hd : Disjoint l r) :
    ∃ c Z, l.union r off = some c ∧ Good c Z ∧ Comb gU (ents L) (ents R) (ents Z) := by
  obtain ⟨Z, h1, h2⟩ := union_list (l.len + r.len) L R (by rw [hl.2.1, hr.2.1]; exact Nat.le_refl _) hl.2.2.1 hr.2.2.1
  obtain ⟨c, h3, h4⟩ := (mergeWith_ok (extra := 0) (off := off) union_implements union_conserves hl hr hd).1 Z h1 (.inl rfl) h2.1
  exact ⟨c, Z, h3, h4, h2⟩

theorem diff_ok (sym : Bool) {off : Nat} {l r : SkipMap K V} {L R : List (Tower (K × V))} (hl : Good l L) (hr : Good r R)
    (hd : Disjoint l r) (ho : ¬ Overhang L R) :
    ∃ c Z, mergeWith (diffPick sym) 0 l r off = some c ∧ Good c Z ∧ Comb (gD sym) (ents L) (ents R) (ents Z) := by
  obtain ⟨Z, h1, h2⟩ := (diff_list sym (l.len + r.len) L R (by rw [hl.2.1, hr.2.1]; exact Nat.le_refl _) hl.2.2.1 hr.2.2.1).1 ho
  obtain ⟨c, h3, h4⟩ := (mergeWith_ok (extra := 0) (off := off) (diff_implements sym) (diff_conserves sym) hl hr hd).1 Z h1
    (.inl rfl) h2.1
  exact ⟨c, Z, h3, h4, h2⟩

theorem diff_crash (sym : Bool) {off : Nat} {l r : SkipMap K V} {L R : List (Tower (K × V))} (hl : Good l L) (hr : Good r R)
    (hd : Disjoint l r) (ho : Overhang L R) : mergeWith (diffPick sym) 0 l r off = none :=
  (mergeWith_ok (extra := 0) (off := off) (diff_implements sym) (diff_conserves sym) hl hr hd).2
    ((diff_list sym (l.len + r.len) L R (by rw [hl.2.1, hr.2.1]; exact Nat.le_refl _) hl.2.2.1 hr.2.2.1).2 ho) rfl

theorem inter_ok {off : Nat} {l r : SkipMap K V} {L R : List (Tower (K × V))} (hl : Good l L) (hr : Good r R)
    (hd : Disjoint l r) (hn : ∀ k, find k (ents L) = none ∨ find k (ents R) = none) :
    ∃ c, l.intersection r off = some c ∧ Good c [] := by
  obtain ⟨Z, h1, h2⟩ := inter_list (l.len + r.len) L R (by rw [hl.2.1, hr.2.1]; exact Nat.le_refl _) hl.2.2.1 hr.2.2.1
  have hZ : Z = [] := by
    cases Z with
    | nil => rfl
    | cons t Z =>
      exfalso
      have h3 := find_of_mem h2.1 (mem_ents (List.mem_cons_self (a := t) (l := Z)))
      rw [h2.2] at h3
      rcases hn t.e.1 with h | h <;> simp [gI, h] at h3
  subst hZ
  obtain ⟨c, h3, h4⟩ := (mergeWith_ok (extra := 1) (off := off) inter_implements inter_conserves hl hr hd).1 [] h1 (.inr (by simp)) h2.1
  exact ⟨c, h3, h4⟩

end Verif.Skip.Map
