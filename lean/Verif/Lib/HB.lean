import Verif.Spec.HappensBefore

/-! Happens-before of a history that grows at the end. -/

namespace Verif.Spec

variable {T Op Res : Type} {H : List (HEvent T Op Res)} {e : HEvent T Op Res}

theorem getElem?_snoc_lt {α : Type} {l : List α} {x : α} {i : Nat} (h : i < l.length) : (l ++ [x])[i]? = l[i]? :=
  List.getElem?_append_left h

theorem getElem?_snoc_eq {α : Type} (l : List α) (x : α) : (l ++ [x])[l.length]? = some x := by simp

theorem getElem?_lt {α : Type} {l : List α} {x : α} {i : Nat} (h : l[i]? = some x) : i < l.length :=
  (List.getElem?_eq_some_iff.1 h).1

theorem getElem?_snoc {α : Type} {l : List α} {x y : α} {i : Nat} (h : (l ++ [x])[i]? = some y) :
    l[i]? = some y ∨ (i = l.length ∧ y = x) := by
  by_cases hi : i < l.length
  · rw [getElem?_snoc_lt hi] at h
    exact Or.inl h
  · have := getElem?_lt h
    rw [List.length_append, List.length_singleton] at this
    have : i = l.length := by omega
    subst this
    rw [getElem?_snoc_eq] at h
    exact Or.inr ⟨rfl, by injection h with h; exact h.symm⟩

theorem getElem?_snoc_of {α : Type} {l : List α} {x y : α} {i : Nat} (h : l[i]? = some y) :
    (l ++ [x])[i]? = some y := by rw [getElem?_snoc_lt (getElem?_lt h)]; exact h

theorem HB.lt {p q : Nat} (h : HB H p q) : p < q := by
  induction h with
  | single h => exact h.1
  | tail _ h ih => exact Nat.lt_trans ih h.1

theorem isSend_snoc {k p : Nat} (h : p < H.length) : IsSend (H ++ [e]) k p ↔ IsSend H k p := by
  unfold IsSend
  rw [getElem?_snoc_lt h, List.take_append_of_le_length (Nat.le_of_lt h)]

theorem edge_snoc {p q : Nat} (h : q < H.length) : Edge (H ++ [e]) p q ↔ Edge H p q := by
  unfold Edge
  rw [getElem?_snoc_lt h]
  constructor
  · rintro ⟨h1, x, y, h2, h3, h4⟩
    rw [getElem?_snoc_lt (Nat.lt_trans h1 h)] at h2
    refine ⟨h1, x, y, h2, h3, h4.imp id ?_⟩
    rintro ⟨u, k, h5, h6⟩
    exact ⟨u, k, h5, (isSend_snoc (Nat.lt_trans h1 h)).1 h6⟩
  · rintro ⟨h1, x, y, h2, h3, h4⟩
    refine ⟨h1, x, y, getElem?_snoc_of h2, h3, h4.imp id ?_⟩
    rintro ⟨u, k, h5, h6⟩
    exact ⟨u, k, h5, (isSend_snoc (Nat.lt_trans h1 h)).2 h6⟩

theorem hb_snoc {p q : Nat} (h : q < H.length) (hb : HB (H ++ [e]) p q) : HB H p q := by
  induction hb with
  | single he => exact .single ((edge_snoc h).1 he)
  | tail _ he ih => exact .tail (ih (Nat.lt_trans he.1 h)) ((edge_snoc h).1 he)

theorem hb_last {p : Nat} (hb : HB (H ++ [e]) p H.length) :
    ∃ r, (p = r ∨ HB H p r) ∧ Edge (H ++ [e]) r H.length := by
  rcases Relation.TransGen.tail'_iff.1 hb with ⟨r, h1, h2⟩
  refine ⟨r, ?_, h2⟩
  rcases Relation.reflTransGen_iff_eq_or_transGen.1 h1 with h1 | h1
  · exact Or.inl h1.symm
  · exact Or.inr (hb_snoc h2.1 h1)

theorem returns_snoc {c r : Nat} {res : Res} (h : r < H.length) :
    Returns (H ++ [e]) c r res ↔ Returns H c r res := by
  unfold Returns
  constructor
  · rintro ⟨h1, t, op, h2, h3, h4⟩
    rw [getElem?_snoc_lt h] at h3
    rw [getElem?_snoc_lt (Nat.lt_trans h1 h)] at h2
    exact ⟨h1, t, op, h2, h3, fun m f hm hm' hf => h4 m f hm hm' (getElem?_snoc_of hf)⟩
  · rintro ⟨h1, t, op, h2, h3, h4⟩
    refine ⟨h1, t, op, getElem?_snoc_of h2, getElem?_snoc_of h3, fun m f hm hm' hf => ?_⟩
    rw [getElem?_snoc_lt (Nat.lt_trans hm' h)] at hf
    exact h4 m f hm hm' hf

theorem returns_lt {c r : Nat} {res : Res} (h : Returns H c r res) : r < H.length := by
  obtain ⟨_, t, op, _, h3, _⟩ := h
  exact getElem?_lt h3

/-- Position `p` happens before, or is, an event of `t`. -/
def Known (H : List (HEvent T Op Res)) (t : T) (p : Nat) : Prop :=
  ∃ q f, H[q]? = some f ∧ f.thread = t ∧ (p = q ∨ HB H p q)

/-- Position `p` happens before, or is, the `k`-th `send`. -/
def KnownPost (H : List (HEvent T Op Res)) (k p : Nat) : Prop := ∃ q, IsSend H k q ∧ (p = q ∨ HB H p q)

theorem known_lt {t : T} {p : Nat} (h : Known H t p) : p < H.length := by
  obtain ⟨q, f, h1, _, h3⟩ := h
  have := getElem?_lt h1
  rcases h3 with rfl | h3
  · exact this
  · exact Nat.lt_trans h3.lt this

theorem knownPost_lt {k p : Nat} (h : KnownPost H k p) : p < H.length := by
  obtain ⟨q, ⟨⟨t, h1⟩, _⟩, h3⟩ := h
  have := getElem?_lt h1
  rcases h3 with rfl | h3
  · exact this
  · exact Nat.lt_trans h3.lt this

theorem hb_known {t : T} {p c : Nat} {f : HEvent T Op Res} (h : HB H p c) (hc : H[c]? = some f) (hf : f.thread = t) :
    Known H t p := ⟨c, f, hc, hf, Or.inr h⟩

theorem known_snoc_other {t : T} {p : Nat} (he : e.thread ≠ t) (h : Known (H ++ [e]) t p) : Known H t p := by
  obtain ⟨q, f, h1, h2, h3⟩ := h
  rcases getElem?_snoc h1 with h1 | ⟨_, h1⟩
  · exact ⟨q, f, h1, h2, h3.imp id (hb_snoc (getElem?_lt h1))⟩
  · exact absurd (h1 ▸ h2) he

theorem edge_last {r : Nat} (h : Edge (H ++ [e]) r H.length) :
    (∃ f, H[r]? = some f ∧ f.thread = e.thread) ∨ ∃ u k, e = .recv u k ∧ IsSend H k r := by
  obtain ⟨h1, x, y, h2, h3, h4⟩ := h
  rw [getElem?_snoc_eq] at h3
  injection h3 with h3
  subst h3
  rw [getElem?_snoc_lt h1] at h2
  rcases h4 with h4 | ⟨u, k, h4, h5⟩
  · exact Or.inl ⟨x, h2, h4⟩
  · exact Or.inr ⟨u, k, h4, (isSend_snoc h1).1 h5⟩

theorem known_snoc_self {p : Nat} (h : Known (H ++ [e]) e.thread p) :
    p = H.length ∨ Known H e.thread p ∨ ∃ u k, e = .recv u k ∧ KnownPost H k p := by
  obtain ⟨q, f, h1, h2, h3⟩ := h
  rcases getElem?_snoc h1 with h1 | ⟨hq, h1⟩
  · exact Or.inr (Or.inl ⟨q, f, h1, h2, h3.imp id (hb_snoc (getElem?_lt h1))⟩)
  · subst hq
    rcases h3 with h3 | h3
    · exact Or.inl h3
    · obtain ⟨r, hr, hed⟩ := hb_last h3
      rcases edge_last hed with ⟨g, hg, hgt⟩ | ⟨u, k, hu, hk⟩
      · exact Or.inr (Or.inl ⟨r, g, hg, hgt, hr⟩)
      · exact Or.inr (Or.inr ⟨u, k, hu, r, hk, hr⟩)

theorem isSend_snoc_cases {j q : Nat} (h : IsSend (H ++ [e]) j q) :
    IsSend H j q ∨ (q = H.length ∧ (∃ t, e = .send t) ∧ j = H.countP HEvent.isSend) := by
  have h' := h
  obtain ⟨⟨t, h1⟩, h2⟩ := h
  rcases getElem?_snoc h1 with h3 | ⟨hq, h3⟩
  · exact Or.inl ((isSend_snoc (getElem?_lt h3)).1 h')
  · subst hq
    refine Or.inr ⟨rfl, ⟨t, h3.symm⟩, ?_⟩
    rw [List.take_append_of_le_length (Nat.le_refl _), List.take_length] at h2
    exact h2.symm

theorem knownPost_snoc {j p : Nat} (h : KnownPost (H ++ [e]) j p) :
    KnownPost H j p ∨ ((∃ t, e = .send t) ∧ j = H.countP HEvent.isSend ∧ (p = H.length ∨ Known H e.thread p)) := by
  obtain ⟨q, h1, h2⟩ := h
  rcases isSend_snoc_cases h1 with h1 | ⟨hq, ⟨t, ht⟩, hj⟩
  · refine Or.inl ⟨q, h1, h2.imp id (hb_snoc ?_)⟩
    obtain ⟨⟨t, h1⟩, _⟩ := h1
    exact getElem?_lt h1
  · subst hq
    refine Or.inr ⟨⟨t, ht⟩, hj, ?_⟩
    rcases h2 with h2 | h2
    · exact Or.inl h2
    · obtain ⟨r, hr, hed⟩ := hb_last h2
      rcases edge_last hed with ⟨g, hg, hgt⟩ | ⟨u, k, hu, _⟩
      · exact Or.inr ⟨r, g, hg, hgt, hr⟩
      · rw [ht] at hu; cases hu

theorem knownPost_lt_count {j p : Nat} (h : KnownPost H j p) : j < H.countP HEvent.isSend := by
  obtain ⟨q, ⟨⟨t, h1⟩, h2⟩, _⟩ := h
  rw [← h2]
  have hq := getElem?_lt h1
  conv => rhs; rw [← List.take_append_drop q H, List.countP_append]
  rw [List.drop_eq_getElem_cons hq, List.countP_cons]
  rw [List.getElem?_eq_getElem hq] at h1
  injection h1 with h1
  rw [h1]
  simp only [HEvent.isSend, if_true]
  omega

end Verif.Spec
