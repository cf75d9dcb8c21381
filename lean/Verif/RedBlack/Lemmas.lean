/- Invariant and refinement lemmas for the red-black model. -/
import Verif.RedBlack.Model
import Verif.Bst.Lemmas

namespace Verif.RedBlack

open Verif.Bst Verif.Spec
open Verif.SL (Sorted)

variable {K V : Type}

/-- Left-leaning red-black tree with `n` black links on each path and root colour `c`
(an empty tree counts as black). -/
def LL : Nat → Color → RTree K V → Prop
  | n, c, .nil => n = 0 ∧ c = .black
  | n, c, .node .red l _ _ r => c = .red ∧ LL n .black l ∧ LL n .black r
  | 0, _, .node .black _ _ _ _ => False
  | n + 1, c, .node .black l _ _ r => c = .black ∧ (LL n .black l ∨ LL n .red l) ∧ LL n .black r

@[simp] theorem isRed_node {c : Color} {l r : RTree K V} {k v} :
    isRed (.node c l k v r) = (c == .red) := rfl
@[simp] theorem isRed_nil : isRed (.nil : RTree K V) = false := rfl
@[simp] theorem left_node {c : Color} {l r : RTree K V} {k v} : left (.node c l k v r) = l := rfl
@[simp] theorem right_node {c : Color} {l r : RTree K V} {k v} : right (.node c l k v r) = r := rfl

theorem ll_nil {n : Nat} {c : Color} : LL n c (.nil : RTree K V) ↔ n = 0 ∧ c = .black := by
  simp [LL]

theorem ll_red {n : Nat} {c : Color} {l r : RTree K V} {k v} :
    LL n c (.node .red l k v r) ↔ c = .red ∧ LL n .black l ∧ LL n .black r := by
  simp [LL]

theorem ll_black {n : Nat} {c : Color} {l r : RTree K V} {k v} :
    LL n c (.node .black l k v r) ↔
      c = .black ∧ ∃ m, n = m + 1 ∧ (LL m .black l ∨ LL m .red l) ∧ LL m .black r := by
  cases n <;> simp [LL]

theorem ll_color {n : Nat} {t : RTree K V} {c} (h : LL n c t) : isRed t = (c == .red) := by
  cases t with
  | nil => simp [ll_nil] at h; simp [h.2]
  | node d l k v r =>
    cases d <;> simp [ll_red, ll_black] at h <;> simp [isRed_node, h.1]

/-- Black tree: not red at the root. -/
theorem isRed_of_black {n : Nat} {t : RTree K V} (h : LL n .black t) : isRed t = false := by
  rw [ll_color h]; rfl

theorem red_cases {n : Nat} {t : RTree K V} (h : LL n .red t) :
    ∃ l k v r, t = .node .red l k v r ∧ LL n .black l ∧ LL n .black r := by
  cases t with
  | nil => simp [ll_nil] at h
  | node d l k v r =>
    cases d
    · exact ⟨l, k, v, r, rfl, (ll_red.1 h).2⟩
    · simp [ll_black] at h

theorem black_cases {n : Nat} {t : RTree K V} (h : LL n .black t) :
    (t = .nil ∧ n = 0) ∨ ∃ m l k v r, t = .node .black l k v r ∧ n = m + 1 ∧
      (LL m .black l ∨ LL m .red l) ∧ LL m .black r := by
  cases t with
  | nil => simp [ll_nil] at h; exact .inl ⟨rfl, h⟩
  | node d l k v r =>
    cases d
    · simp [ll_red] at h
    · obtain ⟨_, m, hm⟩ := ll_black.1 h
      exact .inr ⟨m, l, k, v, r, rfl, hm⟩

theorem balance_black {m : Nat} {cl cr : Color} {l r : RTree K V} (k : K) (v : V)
    (hl : LL m cl l) (hr : LL m cr r) :
    ∃ t', balance (.node .black l k v r) = some t' ∧ t'.toList = l.toList ++ (k, v) :: r.toList ∧
      ∃ c', LL (m + 1) c' t' ∧ (cl = .black ∨ cr = .black → c' = .black) := by
  cases cr with
  | black =>
    have h1 := isRed_of_black hr
    cases cl with
    | black =>
      have h2 := isRed_of_black hl
      refine ⟨.node .black l k v r, ?_, rfl, .black, ?_, fun _ => rfl⟩
      · simp [balance, leanLeft, unstackLeft, splitFour, leftLeftRed, left_node, right_node, h1, h2]
      · rw [ll_black]; exact ⟨rfl, m, rfl, .inl hl, hr⟩
    | red =>
      obtain ⟨ll, lk, lv, lr, rfl, h3, h4⟩ := red_cases hl
      have h5 := isRed_of_black h3
      refine ⟨.node .black (.node .red ll lk lv lr) k v r, ?_, rfl, .black, ?_, fun _ => rfl⟩
      · simp [balance, leanLeft, unstackLeft, splitFour, leftLeftRed, left_node, right_node, h1, isRed_node, h5]
      · rw [ll_black]; exact ⟨rfl, m, rfl, .inr hl, hr⟩
  | red =>
    obtain ⟨rl, rk, rv, rr, rfl, h3, h4⟩ := red_cases hr
    have h5 := isRed_of_black h4
    cases cl with
    | black =>
      have h2 := isRed_of_black hl
      refine ⟨.node .black (.node .red l k v rl) rk rv rr, ?_, by simp, .black, ?_, fun _ => rfl⟩
      · simp [balance, leanLeft, unstackLeft, splitFour, leftLeftRed, left_node, right_node, isRed_node, rotateLeft,
          h2, h5]
      · rw [ll_black]; exact ⟨rfl, m, rfl, .inr (ll_red.2 ⟨rfl, hl, h3⟩), h4⟩
    | red =>
      obtain ⟨ll, lk, lv, lr, rfl, h6, h7⟩ := red_cases hl
      refine ⟨.node .red (.node .black ll lk lv lr) k v (.node .black rl rk rv rr), ?_, by simp,
        .red, ?_, by simp⟩
      · simp [balance, leanLeft, unstackLeft, splitFour, leftLeftRed, left_node, right_node, isRed_node, rotateLeft,
          rotateRight, flipColors, flipChild, Color.flip]
      · rw [ll_red, ll_black, ll_black]
        exact ⟨rfl, ⟨rfl, m, rfl, .inl h6, h7⟩, ⟨rfl, m, rfl, .inl h3, h4⟩⟩

theorem balance_red {n : Nat} {l r : RTree K V} (k : K) (v : V)
    (hl : LL n .black l) (hr : LL n .black r) :
    balance (.node .red l k v r) = some (.node .red l k v r) ∧ LL n .red (.node .red l k v r) := by
  have h1 := isRed_of_black hr
  have h2 := isRed_of_black hl
  refine ⟨?_, ll_red.2 ⟨rfl, hl, hr⟩⟩
  simp [balance, leanLeft, unstackLeft, splitFour, leftLeftRed, left_node, right_node, h1, h2]

/-- A tree from which a removal may start: empty, red, or with a red left child. -/
def Ready (t : RTree K V) : Prop := t = .nil ∨ isRed t = true ∨ isRed (left t) = true

/-- What a completed removal below a hole must provide, for the left hole. -/
def HoleL (n : Nat) (c : Color) (m : Nat) (cl : Color) (c₁ : Color) (r : RTree K V) : Prop :=
  ∀ l' cl' k v, LL m cl' l' → (cl = .black → cl' = .black) →
    ∃ t', balance (.node c₁ l' k v r) = some t' ∧ t'.toList = l'.toList ++ (k, v) :: r.toList ∧
      ∃ c', LL n c' t' ∧ (c = .black → c' = .black)

/-- The same for the right hole. -/
def HoleR (n : Nat) (c : Color) (m : Nat) (cr : Color) (c₁ : Color) (l : RTree K V) : Prop :=
  ∀ r' cr' k v, LL m cr' r' → (cr = .black → cr' = .black) →
    ∃ t', balance (.node c₁ l k v r') = some t' ∧ t'.toList = l.toList ++ (k, v) :: r'.toList ∧
      ∃ c', LL n c' t' ∧ (c = .black → c' = .black)

theorem holeL_black {m : Nat} {cl : Color} {c : Color} {cr} {r : RTree K V} (hr : LL m cr r)
    (hc : c = .red ∨ cr = .black) : HoleL (m + 1) c m cl .black r := by
  intro l' cl' k v hl' _
  obtain ⟨t', h1, h2, c', h3, h4⟩ := balance_black k v hl' hr
  refine ⟨t', h1, h2, c', h3, fun h => ?_⟩
  rcases hc with hc | hc
  · simp [hc] at h
  · exact h4 (.inr hc)

theorem holeR_black {m : Nat} {cl : Color} {c : Color} {cr} {l : RTree K V} (hl : LL m cl l)
    (hc : c = .red ∨ cl = .black) : HoleR (m + 1) c m cr .black l := by
  intro r' cr' k v hr' _
  obtain ⟨t', h1, h2, c', h3, h4⟩ := balance_black k v hl hr'
  refine ⟨t', h1, h2, c', h3, fun h => ?_⟩
  rcases hc with hc | hc
  · simp [hc] at h
  · exact h4 (.inl hc)

theorem holeL_red {n : Nat} {r : RTree K V} (hr : LL n .black r) :
    HoleL n .red n .black .red r := by
  intro l' cl' k v hl' hc
  have := hc rfl; subst this
  obtain ⟨h1, h2⟩ := balance_red k v hl' hr
  exact ⟨_, h1, rfl, .red, h2, by simp⟩

theorem holeR_red {n : Nat} {l : RTree K V} (hl : LL n .black l) :
    HoleR n .red n .black .red l := by
  intro r' cr' k v hr' hc
  have := hc rfl; subst this
  obtain ⟨h1, h2⟩ := balance_red k v hl hr'
  exact ⟨_, h1, rfl, .red, h2, by simp⟩

/-- Twice the number of black links on a path, and one more for a red root: more than for any subtree. -/
def rank (n : Nat) : Color → Nat
  | .black => 2 * n
  | .red => 2 * n + 1

/-- Preparing a descent to the left. -/
theorem moveLeft_spec {n : Nat} {c : Color} {l r : RTree K V} {x : K} {w : V}
    (h : LL n c (.node c l x w r)) (hr : Ready (.node c l x w r)) :
    ∃ c₁ l₁ x₁ w₁ r₁ m cl, moveLeft (.node c l x w r) = some (.node c₁ l₁ x₁ w₁ r₁) ∧
      l₁.toList ++ (x₁, w₁) :: r₁.toList = l.toList ++ (x, w) :: r.toList ∧
      (x₁ = x ∨ ∃ e ∈ r.toList, e.1 = x₁) ∧ (l ≠ .nil → l₁ ≠ .nil) ∧
      LL m cl l₁ ∧ Ready l₁ ∧ HoleL n c m cl c₁ r₁ ∧ rank m cl < rank n c := by
  cases c with
  | black =>
    obtain ⟨_, m, rfl, h1, h2⟩ := ll_black.1 h
    have hred : isRed l = true := by
      rcases hr with hr | hr | hr
      · simp at hr
      · simp [isRed_node] at hr
      · exact hr
    have h3 : LL m .red l := by
      rcases h1 with h1 | h1
      · rw [isRed_of_black h1] at hred; simp at hred
      · exact h1
    obtain ⟨ll, lk, lv, lr, rfl, h4, h5⟩ := red_cases h3
    refine ⟨.black, _, x, w, r, m, .red, ?_, rfl, .inl rfl, fun h => h, h3, .inr (.inl rfl), holeL_black h2 (.inr rfl), by simp only [rank]; omega⟩
    simp [moveLeft, left_node, needShift]
  | red =>
    obtain ⟨_, h1, h2⟩ := ll_red.1 h
    rcases black_cases h1 with ⟨rfl, rfl⟩ | ⟨m, ll, lk, lv, lr, rfl, rfl, h3, h4⟩
    · refine ⟨.red, .nil, x, w, r, 0, .black, ?_, rfl, .inl rfl, fun h => h, h1, .inl rfl, holeL_red h2, by simp only [rank]; omega⟩
      simp [moveLeft, left_node, needShift]
    · rcases h3 with h3 | h3
      · have h5 := isRed_of_black h3
        -- shift needed
        rcases black_cases h2 with ⟨rfl, h6⟩ | ⟨m', rl, rk, rv, rr, rfl, h6, h7, h8⟩
        · omega
        have : m' = m := by omega
        subst this
        rcases h7 with h7 | h7
        · have h9 := isRed_of_black h7
          refine ⟨.black, .node .red ll lk lv lr, x, w, .node .red rl rk rv rr, m', .red, ?_, rfl,
            .inl rfl, by simp, ll_red.2 ⟨rfl, h3, h4⟩, .inr (.inl rfl),
            holeL_black (ll_red.2 ⟨rfl, h7, h8⟩) (.inl rfl), by simp only [rank]; omega⟩
          simp [moveLeft, left_node, needShift, h5, shiftLeft, flipColors, flipChild, Color.flip, h9]
        · obtain ⟨a, ak, av, b, rfl, h9, h10⟩ := red_cases h7
          refine ⟨.red, .node .black (.node .red ll lk lv lr) x w a, ak, av, .node .black b rk rv rr,
            m' + 1, .black, ?_, by simp, .inr ⟨(ak, av), by simp, rfl⟩, by simp,
            ll_black.2 ⟨rfl, m', rfl, .inr (ll_red.2 ⟨rfl, h3, h4⟩), h9⟩, .inr (.inr rfl),
            holeL_red (ll_black.2 ⟨rfl, m', rfl, .inl h10, h8⟩), by simp only [rank]; omega⟩
          simp [moveLeft, left_node, needShift, h5, shiftLeft, flipColors, flipChild, Color.flip,
            isRed_node, rotateRight, rotateLeft]
      · obtain ⟨a, ak, av, b, rfl, h9, h10⟩ := red_cases h3
        refine ⟨.red, _, x, w, r, m + 1, .black, ?_, rfl, .inl rfl, fun h => h, h1, .inr (.inr rfl), holeL_red h2, by simp only [rank]; omega⟩
        simp [moveLeft, left_node, needShift, isRed_node]

theorem removeMin_spec (fuel : Nat) : ∀ {n : Nat} {c : Color} {t : RTree K V}, LL n c t → Ready t →
    t ≠ .nil → t.toList.length < fuel →
    ∃ e t', removeMin fuel t = some (e, t') ∧ t.toList = e :: t'.toList ∧
      ∃ c', LL n c' t' ∧ (c = .black → c' = .black) := by
  induction fuel with
  | zero => intro n c t _ _ _ h; simp at h
  | succ fuel ih =>
    intro n c t h hr hne hf
    cases t with
    | nil => exact absurd rfl hne
    | node d l x w r =>
      have hd : d = c := by cases d <;> simp [ll_red, ll_black] at h <;> exact h.1.symm
      subst hd
      cases l with
      | nil =>
        refine ⟨(x, w), r, rfl, rfl, ?_⟩
        cases d with
        | red => exact ⟨.black, (ll_red.1 h).2.2, by simp⟩
        | black => rcases hr with hr | hr | hr <;> simp [isRed_node, left_node] at hr
      | node cl ll lk lv lr =>
        obtain ⟨c₁, l₁, x₁, w₁, r₁, m, cl', h1, h2, _, h3, h4, h5, h6, -⟩ := moveLeft_spec h hr
        have hlen : l₁.toList.length < fuel := by
          have := congrArg List.length h2
          simp only [Tree.toList_node, List.length_append, List.length_cons] at this hf
          omega
        obtain ⟨e, l', h7, h8, c', h9, h10⟩ := ih h4 h5 (h3 (by simp)) hlen
        obtain ⟨t', h11, h12, c'', h13, h14⟩ := h6 l' c' x₁ w₁ h9 h10
        refine ⟨e, t', ?_, ?_, c'', h13, h14⟩
        · simp only [removeMin, h1, Option.bind_eq_bind, Option.bind_some, h7, h11]; rfl
        · rw [Tree.toList_node, ← h2, h8, h12]; rfl

/-- A black node whose right child is red (arises inside `remove`, only on the way to larger keys). -/
def RightRed (n : Nat) : RTree K V → Prop
  | .node .black l _ _ r => ∃ m, n = m + 1 ∧ LL m .black l ∧ LL m .red r
  | _ => False

/-- Preparing a descent to the right. -/
theorem moveRight_spec {n : Nat} {c d : Color} {l r : RTree K V} {x : K} {w : V}
    (h : (LL n c (.node d l x w r) ∧ Ready (.node d l x w r)) ∨
      (c = .black ∧ RightRed n (.node d l x w r))) :
    ∃ c₁ l₁ x₁ w₁ r₁, moveRight₁ (.node d l x w r) = some (.node c₁ l₁ x₁ w₁ r₁) ∧
      l₁.toList ++ (x₁, w₁) :: r₁.toList = l.toList ++ (x, w) :: r.toList ∧
      (x₁ = x ∨ (∃ e ∈ l.toList, e.1 = x₁)) ∧
      (r₁ = .nil → l₁ = .nil ∧ LL n .black (.nil : RTree K V)) ∧
      ∃ c₂ l₂ x₂ w₂ r₂ m cr, moveRight₂ (.node c₁ l₁ x₁ w₁ r₁) = some (.node c₂ l₂ x₂ w₂ r₂) ∧
        l₂.toList ++ (x₂, w₂) :: r₂.toList = l.toList ++ (x, w) :: r.toList ∧
        (x₂ = x ∨ (∃ e ∈ l.toList, e.1 = x₂)) ∧
        (r₁ ≠ .nil → r₂ ≠ .nil) ∧ HoleR n c m cr c₂ l₂ ∧ rank m cr < rank n c ∧
        ((LL m cr r₂ ∧ Ready r₂) ∨
          (cr = .black ∧ RightRed m r₂ ∧ (∃ e ∈ l.toList, e.1 = x₂) ∧
            ∃ cy ly wy ry, r₂ = .node cy ly x wy ry)) := by
  rcases h with ⟨h, hr⟩ | ⟨rfl, h⟩
  · have hd : d = c := by cases d <;> simp [ll_red, ll_black] at h <;> exact h.1.symm
    subst hd
    cases d with
    | black =>
      obtain ⟨_, m, rfl, h1, h2⟩ := ll_black.1 h
      have hred : isRed l = true := by
        rcases hr with hr | hr | hr
        · simp at hr
        · simp [isRed_node] at hr
        · exact hr
      have h3 : LL m .red l := by
        rcases h1 with h1 | h1
        · rw [isRed_of_black h1] at hred; simp at hred
        · exact h1
      obtain ⟨ll, lk, lv, lr, rfl, h4, h5⟩ := red_cases h3
      refine ⟨.black, ll, lk, lv, .node .red lr x w r, ?_, by simp, .inr ⟨(lk, lv), by simp, rfl⟩,
        by simp, .black, ll, lk, lv, .node .red lr x w r, m, .red, ?_, by simp,
        .inr ⟨(lk, lv), by simp, rfl⟩, by simp, holeR_black h4 (.inr rfl), by simp only [rank]; omega,
        .inl ⟨ll_red.2 ⟨rfl, h5, h2⟩, .inr (.inl rfl)⟩⟩
      · simp [moveRight₁, left_node, isRed_node, rotateRight]
      · simp [moveRight₂, right_node, needShift]
    | red =>
      obtain ⟨_, h1, h2⟩ := ll_red.1 h
      have hl := isRed_of_black h1
      refine ⟨.red, l, x, w, r, ?_, rfl, .inl rfl, ?_, ?_⟩
      · simp [moveRight₁, left_node, hl]
      · rintro rfl
        obtain ⟨rfl, _⟩ := ll_nil.1 h2
        rcases black_cases h1 with ⟨rfl, _⟩ | ⟨_, _, _, _, _, _, h, _⟩
        · exact ⟨rfl, ll_nil.2 ⟨rfl, rfl⟩⟩
        · omega
      · rcases black_cases h2 with ⟨rfl, rfl⟩ | ⟨m, rl, rk, rv, rr, rfl, rfl, h3, h4⟩
        · refine ⟨.red, l, x, w, .nil, 0, .black, ?_, rfl, .inl rfl, fun h => h, holeR_red h1, by simp only [rank]; omega, .inl ⟨h2, .inl rfl⟩⟩
          simp [moveRight₂, right_node, needShift]
        · rcases h3 with h3 | h3
          · have h5 := isRed_of_black h3
            rcases black_cases h1 with ⟨rfl, h6⟩ | ⟨m', ll, lk, lv, lr, rfl, h6, h7, h8⟩
            · omega
            have : m' = m := by omega
            subst this
            rcases h7 with h7 | h7
            · have h9 := isRed_of_black h7
              refine ⟨.black, .node .red ll lk lv lr, x, w, .node .red rl rk rv rr, m', .red, ?_, rfl,
                .inl rfl, by simp, holeR_black (ll_red.2 ⟨rfl, h7, h8⟩) (.inl rfl), by simp only [rank]; omega,
                .inl ⟨ll_red.2 ⟨rfl, h3, h4⟩, .inr (.inl rfl)⟩⟩
              simp [moveRight₂, right_node, left_node, needShift, h5, shiftRight, flipColors, flipChild,
                Color.flip, h9]
            · obtain ⟨a, ak, av, b, rfl, h9, h10⟩ := red_cases h7
              refine ⟨.red, .node .black a ak av b, lk, lv, .node .black lr x w (.node .red rl rk rv rr),
                m' + 1, .black, ?_, by simp, .inr ⟨(lk, lv), by simp, rfl⟩, by simp,
                holeR_red (ll_black.2 ⟨rfl, m', rfl, .inl h9, h10⟩), by simp only [rank]; omega, .inr ⟨rfl, ?_, ⟨(lk, lv), by simp, rfl⟩,
                  _, _, _, _, rfl⟩⟩
              · simp [moveRight₂, right_node, left_node, needShift, h5, shiftRight, flipColors, flipChild,
                  Color.flip, isRed_node, rotateRight]
              · exact ⟨m', rfl, h8, ll_red.2 ⟨rfl, h3, h4⟩⟩
          · obtain ⟨a, ak, av, b, rfl, h9, h10⟩ := red_cases h3
            refine ⟨.red, l, x, w, _, m + 1, .black, ?_, rfl, .inl rfl, fun h => h, holeR_red h1, by simp only [rank]; omega,
              .inl ⟨h2, .inr (.inr rfl)⟩⟩
            simp [moveRight₂, right_node, needShift, isRed_node]
  · cases d with
    | red => exact absurd h (by simp [RightRed])
    | black =>
      obtain ⟨m, rfl, h1, h2⟩ := h
      have hl := isRed_of_black h1
      obtain ⟨rl, rk, rv, rr, rfl, h4, h5⟩ := red_cases h2
      refine ⟨.black, l, x, w, _, ?_, rfl, .inl rfl, by simp, .black, l, x, w, _, m, .red, ?_, rfl,
        .inl rfl, by simp, holeR_black h1 (.inr rfl), by simp only [rank]; omega, .inl ⟨h2, .inr (.inl rfl)⟩⟩
      · simp [moveRight₁, left_node, hl]
      · simp [moveRight₂, right_node, needShift]

theorem combine_spec {n : Nat} {cr : Color} {l r : RTree K V} (c : Color) (h : LL n cr r) (hr : Ready r)
    (hne : r ≠ .nil) :
    ∃ k v r', combineSubtrees l r c = some (.node c l k v r') ∧ r.toList = (k, v) :: r'.toList ∧
      ∃ c', LL n c' r' ∧ (cr = .black → c' = .black) := by
  obtain ⟨⟨k, v⟩, r', h1, h2, h3⟩ := removeMin_spec (r.size + 1) h hr hne
    (by rw [Tree.size_eq_length]; omega)
  refine ⟨k, v, r', ?_, h2, h3⟩
  simp [combineSubtrees, h1]

variable [LinearOrder K]

theorem remove_spec (fuel : Nat) : ∀ {n : Nat} {c : Color} {t : RTree K V} {k : K},
    ((LL n c t ∧ Ready t) ∨
      (c = .black ∧ RightRed n t ∧ ∀ d l x w r, t = .node d l x w r → ¬ k < x)) →
    Sorted t.toList → t.toList.length < fuel →
    ∃ t', remove fuel t k = some (t', SL.find k t.toList) ∧ t'.toList = SL.del k t.toList ∧
      ∃ c', LL n c' t' ∧ (c = .black → c' = .black) := by
  induction fuel with
  | zero => intro n c t k _ _ h; simp at h
  | succ fuel ih =>
    intro n c t k h hs hf
    cases t with
    | nil =>
      rcases h with ⟨h, _⟩ | ⟨_, h, _⟩
      · exact ⟨.nil, rfl, rfl, c, h, fun h => h⟩
      · exact absurd h (by simp [RightRed])
    | node d l x w r =>
      by_cases hk : k < x
      · -- left
        rcases h with ⟨h, hr⟩ | ⟨_, _, h⟩
        rotate_left
        · exact absurd hk (h d l x w r rfl)
        have hd : d = c := by cases d <;> simp [ll_red, ll_black] at h <;> exact h.1.symm
        subst hd
        obtain ⟨c₁, l₁, x₁, w₁, r₁, m, cl', h1, h2, h2', _, h4, h5, h6, -⟩ := moveLeft_spec h hr
        rw [Tree.toList_node] at hs hf ⊢
        have hkx₁ : k < x₁ := by
          rcases h2' with rfl | ⟨e, he, rfl⟩
          · exact hk
          · exact lt_trans hk ((SL.sorted_mid.1 hs).2.2.2 e he)
        rw [← h2] at hs hf ⊢
        have hlen : l₁.toList.length < fuel := by
          simp only [List.length_append, List.length_cons] at hf; omega
        obtain ⟨l', h7, h8, c', h9, h10⟩ := ih (k := k) (.inl ⟨h4, h5⟩) (SL.sorted_mid.1 hs).1 hlen
        obtain ⟨t', h11, h12, c'', h13, h14⟩ := h6 l' c' x₁ w₁ h9 h10
        refine ⟨t', ?_, ?_, c'', h13, h14⟩
        · simp only [remove, if_pos hk, h1, Option.bind_eq_bind, Option.bind_some, h7, h11,
            SL.find_mid_lt hs hkx₁]; rfl
        · rw [SL.del_mid_lt hs hkx₁, h12, h8]
      · have hpre : (LL n c (.node d l x w r) ∧ Ready (.node d l x w r)) ∨
            (c = .black ∧ RightRed n (.node d l x w r)) := by
          rcases h with h | h
          · exact .inl h
          · exact .inr ⟨h.1, h.2.1⟩
        obtain ⟨c₁, l₁, x₁, w₁, r₁, h1, h2, h2', h3, c₂, l₂, x₂, w₂, r₂, m, cr, h4, h5, h5', h6, h7, -, h8⟩ :=
          moveRight_spec hpre
        rw [Tree.toList_node] at hs hf ⊢
        have hx₂ : ¬ k < x₂ := by
          rcases h5' with rfl | ⟨e, he, rfl⟩
          · exact hk
          · intro hlt
            exact hk (lt_trans hlt ((SL.sorted_mid.1 hs).2.2.1 e he))
        have hlx : ∀ e ∈ l.toList, e.1 < x := (SL.sorted_mid.1 hs).2.2.1
        by_cases hend : k = x₁ ∧ isNil r₁ = true
        · have hr₁ : r₁ = .nil := by cases r₁ <;> simp [isNil] at hend ⊢
          obtain ⟨hl₁, hln⟩ := h3 hr₁
          rw [hl₁, hr₁] at h2
          have hx₁ := hend.1
          refine ⟨.nil, ?_, ?_, .black, hln, fun _ => rfl⟩
          · subst hr₁ hl₁ hx₁
            rw [← h2]
            simp [remove, if_neg hk, h1, isNil, SL.find_cons]
          · rw [← h2, hx₁]; simp [SL.del_cons, SL.del]
        · rw [← h5] at hs hf ⊢
          have hlen : r₂.toList.length < fuel := by
            simp only [List.length_append, List.length_cons] at hf; omega
          by_cases hkx : k = x₂
          · subst hkx
            -- the node itself
            have hkx1 : ¬ (∃ e ∈ l.toList, e.1 = k) := by
              rintro ⟨e, he, rfl⟩; exact hk (hlx e he)
            have hkx2 : k = x := by
              rcases h5' with h | h
              · exact h
              · exact absurd h hkx1
            have h8' : LL m cr r₂ ∧ Ready r₂ := by
              rcases h8 with h8 | ⟨_, _, h8, _⟩
              · exact h8
              · exact absurd h8 hkx1
            have hx₁ : r₁ ≠ .nil := by
              intro hr₁
              apply hend
              refine ⟨?_, by rw [hr₁]; rfl⟩
              -- with an empty right child nothing was rotated
              obtain ⟨hl₁, _⟩ := h3 hr₁
              rw [hl₁, hr₁, ← h5] at h2
              have := congrArg List.length h2
              simp only [Tree.toList_nil, List.nil_append, List.length_cons, List.length_nil,
                List.length_append] at this
              have e1 : l₂.toList = [] := List.eq_nil_of_length_eq_zero (by omega)
              have e2 : r₂.toList = [] := List.eq_nil_of_length_eq_zero (by omega)
              rw [e1, e2] at h2
              simp at h2
              exact h2.1.symm
            obtain ⟨y, u, r', h9, h10, c', h11, h12⟩ := combine_spec (l := l₂) c₂ h8'.1 h8'.2 (h6 hx₁)
            obtain ⟨t', h13, h14, c'', h15, h16⟩ := h7 r' c' y u h11 h12
            refine ⟨t', ?_, ?_, c'', h15, h16⟩
            · simp only [remove, if_neg hk, h1, Option.bind_eq_bind, Option.bind_some, if_neg hend, h4,
                if_true, h9, h13, SL.find_mid_eq hs]; rfl
            · rw [SL.del_mid_eq hs, h14, h10]
          · have hgt : x₂ < k := by grind
            have hpre' : (LL m cr r₂ ∧ Ready r₂) ∨
                (cr = .black ∧ RightRed m r₂ ∧ ∀ d l x w r, r₂ = .node d l x w r → ¬ k < x) := by
              rcases h8 with h8 | ⟨e1, e2, _, cy, ly, wy, ry, rfl⟩
              · exact .inl h8
              · refine .inr ⟨e1, e2, ?_⟩
                intro d' l' x' w' r' he
                simp only [Tree.node.injEq] at he
                rw [← he.2.2.1]; exact hk
            obtain ⟨r', h9, h10, c', h11, h12⟩ := ih hpre' (SL.sorted_mid.1 hs).2.1 hlen
            obtain ⟨t', h13, h14, c'', h15, h16⟩ := h7 r' c' x₂ w₂ h11 h12
            refine ⟨t', ?_, ?_, c'', h15, h16⟩
            · simp only [remove, if_neg hk, h1, Option.bind_eq_bind, Option.bind_some, if_neg hend, h4,
                if_neg hkx, h9, h13, SL.find_mid_gt hs hgt]; rfl
            · rw [SL.del_mid_gt hs hgt, h14, h10]


/-- A red node with a red left child: the only defect `insert` leaves at the root of a subtree. -/
def Almost (n : Nat) (t : RTree K V) : Prop :=
  ∃ l k v r, t = .node .red l k v r ∧ LL n .red l ∧ LL n .black r

omit [LinearOrder K] in
theorem fix_red_left {n : Nat} {cl : Color} {l r : RTree K V} (k : K) (v : V)
    (hl : LL n cl l) (hr : LL n .black r) :
    fixInsert (.node .red l k v r) = some (.node .red l k v r) ∧
      (LL n .red (.node .red l k v r) ∨ Almost n (.node .red l k v r)) := by
  have h1 := isRed_of_black hr
  cases cl with
  | black =>
    have h2 := isRed_of_black hl
    exact ⟨by simp [fixInsert, leanLeftInsert, unstackLeft, splitFour, leftLeftRed, h1, h2],
      .inl (ll_red.2 ⟨rfl, hl, hr⟩)⟩
  | red =>
    obtain ⟨ll, lk, lv, lr, rfl, h3, h4⟩ := red_cases hl
    have h5 := isRed_of_black h3
    exact ⟨by simp [fixInsert, leanLeftInsert, unstackLeft, splitFour, leftLeftRed, h1, h5],
      .inr ⟨_, _, _, _, rfl, hl, hr⟩⟩

omit [LinearOrder K] in
theorem fix_red_right {n : Nat} {cr : Color} {l r : RTree K V} (k : K) (v : V)
    (hl : LL n .black l) (hr : LL n cr r) :
    ∃ t', fixInsert (.node .red l k v r) = some t' ∧ t'.toList = l.toList ++ (k, v) :: r.toList ∧
      (LL n .red t' ∨ Almost n t') := by
  cases cr with
  | black => exact ⟨_, (fix_red_left k v hl hr).1, rfl, (fix_red_left k v hl hr).2⟩
  | red =>
    obtain ⟨rl, rk, rv, rr, rfl, h3, h4⟩ := red_cases hr
    have h1 := isRed_of_black hl
    have h5 := isRed_of_black h4
    refine ⟨.node .red (.node .red l k v rl) rk rv rr, ?_, by simp,
      .inr ⟨_, _, _, _, rfl, ll_red.2 ⟨rfl, hl, h3⟩, h4⟩⟩
    simp [fixInsert, leanLeftInsert, unstackLeft, splitFour, leftLeftRed, h1, h5, rotateLeft]

omit [LinearOrder K] in
theorem fix_black_left {m : Nat} {l r : RTree K V} (k : K) (v : V)
    (hl : (∃ c, LL m c l) ∨ Almost m l) (hr : LL m .black r) :
    ∃ t', fixInsert (.node .black l k v r) = some t' ∧ t'.toList = l.toList ++ (k, v) :: r.toList ∧
      ∃ c', LL (m + 1) c' t' := by
  have h1 := isRed_of_black hr
  rcases hl with ⟨c, hl⟩ | ⟨ll, lk, lv, lr, rfl, h3, h4⟩
  · cases c with
    | black =>
      have h2 := isRed_of_black hl
      refine ⟨.node .black l k v r, ?_, rfl, .black, ll_black.2 ⟨rfl, m, rfl, .inl hl, hr⟩⟩
      simp [fixInsert, leanLeftInsert, unstackLeft, splitFour, leftLeftRed, h1, h2]
    | red =>
      obtain ⟨ll, lk, lv, lr, rfl, h3, h4⟩ := red_cases hl
      have h5 := isRed_of_black h3
      refine ⟨.node .black (.node .red ll lk lv lr) k v r, ?_, rfl, .black, ll_black.2 ⟨rfl, m, rfl, .inr hl, hr⟩⟩
      simp [fixInsert, leanLeftInsert, unstackLeft, splitFour, leftLeftRed, h1, h5]
  · obtain ⟨a, ak, av, b, rfl, h5, h6⟩ := red_cases h3
    refine ⟨.node .red (.node .black a ak av b) lk lv (.node .black lr k v r), ?_, by simp, .red,
      ll_red.2 ⟨rfl, ll_black.2 ⟨rfl, m, rfl, .inl h5, h6⟩, ll_black.2 ⟨rfl, m, rfl, .inl h4, hr⟩⟩⟩
    simp [fixInsert, leanLeftInsert, unstackLeft, splitFour, leftLeftRed, h1, rotateRight, flipColors,
      flipChild, Color.flip]

omit [LinearOrder K] in
theorem fix_black_right {m : Nat} {cl cr : Color} {l r : RTree K V} (k : K) (v : V)
    (hl : LL m cl l) (hr : LL m cr r) :
    ∃ t', fixInsert (.node .black l k v r) = some t' ∧ t'.toList = l.toList ++ (k, v) :: r.toList ∧
      ∃ c', LL (m + 1) c' t' := by
  cases cr with
  | black => exact fix_black_left k v (.inl ⟨cl, hl⟩) hr
  | red =>
    obtain ⟨rl, rk, rv, rr, rfl, h3, h4⟩ := red_cases hr
    have h5 := isRed_of_black h4
    cases cl with
    | black =>
      have h2 := isRed_of_black hl
      refine ⟨.node .black (.node .red l k v rl) rk rv rr, ?_, by simp, .black,
        ll_black.2 ⟨rfl, m, rfl, .inr (ll_red.2 ⟨rfl, hl, h3⟩), h4⟩⟩
      simp [fixInsert, leanLeftInsert, unstackLeft, splitFour, leftLeftRed, h2, h5, rotateLeft]
    | red =>
      obtain ⟨ll, lk, lv, lr, rfl, h6, h7⟩ := red_cases hl
      have h8 := isRed_of_black h6
      refine ⟨.node .red (.node .black ll lk lv lr) k v (.node .black rl rk rv rr), ?_, by simp, .red,
        ll_red.2 ⟨rfl, ll_black.2 ⟨rfl, m, rfl, .inl h6, h7⟩, ll_black.2 ⟨rfl, m, rfl, .inl h3, h4⟩⟩⟩
      simp [fixInsert, leanLeftInsert, unstackLeft, splitFour, leftLeftRed, h8, flipColors,
        flipChild, Color.flip]

theorem insert_spec (t : RTree K V) (k : K) (v : V) : ∀ {n : Nat} {c : Color}, LL n c t →
    Sorted t.toList →
    ∃ t', insert t k v = some (t', SL.find k t.toList) ∧ t'.toList = SL.ins k v t.toList ∧
      (c = .black → ∃ c', LL n c' t') ∧ (c = .red → LL n .red t' ∨ Almost n t') := by
  induction t with
  | nil =>
    intro n c h hs
    obtain ⟨rfl, rfl⟩ := ll_nil.1 h
    exact ⟨_, rfl, rfl, fun _ => ⟨.red, ll_red.2 ⟨rfl, ll_nil.2 ⟨rfl, rfl⟩, ll_nil.2 ⟨rfl, rfl⟩⟩⟩, by simp⟩
  | node d l x w r ihl ihr =>
    intro n c h hs
    obtain ⟨hs1, hs2, _, _⟩ := SL.sorted_mid.1 hs
    have hd : d = c := by cases d <;> simp [ll_red, ll_black] at h <;> exact h.1.symm
    subst hd
    -- the three recursive situations, for both colours
    have key : ∃ t', insert (.node d l x w r) k v = some (t', SL.find k (l.toList ++ (x, w) :: r.toList)) ∧
        t'.toList = SL.ins k v (l.toList ++ (x, w) :: r.toList) ∧
        (d = .black → ∃ c', LL n c' t') ∧ (d = .red → LL n .red t' ∨ Almost n t') := by
      simp only [insert]
      by_cases hlt : k < x
      · rw [if_pos hlt]
        cases d with
        | red =>
          obtain ⟨_, h1, h2⟩ := ll_red.1 h
          obtain ⟨l', e1, e2, e3, _⟩ := ihl h1 hs1
          obtain ⟨c', e3⟩ := e3 rfl
          obtain ⟨f1, f2⟩ := fix_red_left x w e3 h2
          refine ⟨_, ?_, ?_, by simp, fun _ => f2⟩
          · simp [e1, f1, SL.find_mid_lt hs hlt]
          · rw [SL.ins_mid_lt hs hlt, Tree.toList_node, e2]
        | black =>
          obtain ⟨_, m, rfl, h1, h2⟩ := ll_black.1 h
          have : ∃ l', insert l k v = some (l', SL.find k l.toList) ∧ l'.toList = SL.ins k v l.toList ∧
              ((∃ c, LL m c l') ∨ Almost m l') := by
            rcases h1 with h1 | h1
            · obtain ⟨l', e1, e2, e3, _⟩ := ihl h1 hs1
              exact ⟨l', e1, e2, .inl (e3 rfl)⟩
            · obtain ⟨l', e1, e2, _, e3⟩ := ihl h1 hs1
              refine ⟨l', e1, e2, ?_⟩
              rcases e3 rfl with e3 | e3
              · exact .inl ⟨_, e3⟩
              · exact .inr e3
          obtain ⟨l', e1, e2, e3⟩ := this
          obtain ⟨t', f1, f2, f3⟩ := fix_black_left x w e3 h2
          refine ⟨t', ?_, ?_, fun _ => f3, by simp⟩
          · simp [e1, f1, SL.find_mid_lt hs hlt]
          · rw [SL.ins_mid_lt hs hlt, f2, e2]
      · rw [if_neg hlt]
        by_cases hgt : x < k
        · rw [if_pos hgt]
          cases d with
          | red =>
            obtain ⟨_, h1, h2⟩ := ll_red.1 h
            obtain ⟨r', e1, e2, e3, _⟩ := ihr h2 hs2
            obtain ⟨c', e3⟩ := e3 rfl
            obtain ⟨t', f1, f2, f3⟩ := fix_red_right x w h1 e3
            refine ⟨t', ?_, ?_, by simp, fun _ => f3⟩
            · simp [e1, f1, SL.find_mid_gt hs hgt]
            · rw [SL.ins_mid_gt hs hgt, f2, e2]
          | black =>
            obtain ⟨_, m, rfl, h1, h2⟩ := ll_black.1 h
            obtain ⟨r', e1, e2, e3, _⟩ := ihr h2 hs2
            obtain ⟨c', e3⟩ := e3 rfl
            have : ∃ cl, LL m cl l := by rcases h1 with h1 | h1 <;> exact ⟨_, h1⟩
            obtain ⟨cl, h1⟩ := this
            obtain ⟨t', f1, f2, f3⟩ := fix_black_right x w h1 e3
            refine ⟨t', ?_, ?_, fun _ => f3, by simp⟩
            · simp [e1, f1, SL.find_mid_gt hs hgt]
            · rw [SL.ins_mid_gt hs hgt, f2, e2]
        · rw [if_neg hgt]
          have : x = k := by grind
          subst this
          cases d with
          | red =>
            obtain ⟨_, h1, h2⟩ := ll_red.1 h
            obtain ⟨f1, f2⟩ := fix_red_left x v h1 h2
            refine ⟨_, ?_, ?_, by simp, fun _ => f2⟩
            · simp [f1, SL.find_mid_eq hs]
            · rw [SL.ins_mid_eq hs, Tree.toList_node]
          | black =>
            obtain ⟨_, m, rfl, h1, h2⟩ := ll_black.1 h
            have : ∃ cl, LL m cl l := by rcases h1 with h1 | h1 <;> exact ⟨_, h1⟩
            obtain ⟨t', f1, f2, f3⟩ := fix_black_left x v (.inl this) h2
            refine ⟨t', ?_, ?_, fun _ => f3, by simp⟩
            · simp [f1, SL.find_mid_eq hs]
            · rw [SL.ins_mid_eq hs, f2]
    exact key

/-- Invariant of a `RedBlackMap` tree between calls. -/
def Inv (t : RTree K V) : Prop := ∃ n, LL n .black t

omit [LinearOrder K] in
theorem blacken_toList (t : RTree K V) : (blacken t).toList = t.toList := by cases t <;> rfl

omit [LinearOrder K] in
theorem blacken_inv {n : Nat} {c : Color} {t : RTree K V} (h : LL n c t) : Inv (blacken t) := by
  cases t with
  | nil => exact ⟨0, ll_nil.2 ⟨rfl, rfl⟩⟩
  | node d l k v r =>
    cases d with
    | red => obtain ⟨_, h1, h2⟩ := ll_red.1 h; exact ⟨n + 1, ll_black.2 ⟨rfl, n, rfl, .inl h1, h2⟩⟩
    | black => obtain ⟨_, h1⟩ := ll_black.1 h; exact ⟨n, ll_black.2 ⟨rfl, h1⟩⟩

omit [LinearOrder K] in
theorem fixRoot_toList (t : RTree K V) : (fixRoot t).toList = t.toList := by
  cases t with
  | nil => rfl
  | node => simp only [fixRoot]; split <;> rfl

omit [LinearOrder K] in
theorem fixRoot_spec {t : RTree K V} (h : Inv t) : ∃ n c, LL n c (fixRoot t) ∧ Ready (fixRoot t) := by
  obtain ⟨n, h⟩ := h
  rcases black_cases h with ⟨rfl, rfl⟩ | ⟨m, l, k, v, r, rfl, rfl, h1, h2⟩
  · exact ⟨0, .black, h, .inl rfl⟩
  · rcases h1 with h1 | h1
    · refine ⟨m, .red, ?_⟩
      simp only [fixRoot, isRed_of_black h1, isRed_of_black h2, Bool.not_false, Bool.and_self, if_true]
      exact ⟨ll_red.2 ⟨rfl, h1, h2⟩, .inr (.inl rfl)⟩
    · refine ⟨m + 1, .black, ?_⟩
      simp only [fixRoot, ll_color h1, beq_self_eq_true, Bool.not_true, Bool.false_and, Bool.false_eq_true,
        if_false]
      exact ⟨h, .inr (.inr (ll_color h1))⟩

theorem getMut_ll (t : RTree K V) (k : K) (f : V → V) : ∀ {n : Nat} {c : Color}, LL n c t →
    LL n c (t.getMut k f).2 := by
  induction t with
  | nil => intro n c h; exact h
  | node d l x w r ihl ihr =>
    intro n c h
    have hl : ∀ m c, LL m c l → LL m c (l.getMut k f).2 := fun m c h => ihl h
    have hr : ∀ m c, LL m c r → LL m c (r.getMut k f).2 := fun m c h => ihr h
    simp only [Tree.getMut]
    cases d with
    | red =>
      obtain ⟨h0, h1, h2⟩ := ll_red.1 h
      split
      · exact ll_red.2 ⟨h0, hl _ _ h1, h2⟩
      · split
        · exact ll_red.2 ⟨h0, h1, hr _ _ h2⟩
        · exact ll_red.2 ⟨h0, h1, h2⟩
    | black =>
      obtain ⟨h0, m, hm, h1, h2⟩ := ll_black.1 h
      split
      · exact ll_black.2 ⟨h0, m, hm, h1.imp (hl _ _) (hl _ _), h2⟩
      · split
        · exact ll_black.2 ⟨h0, m, hm, h1, hr _ _ h2⟩
        · exact ll_black.2 ⟨h0, m, hm, h1, h2⟩

/-- The simulation of `RedBlackMap` by sorted lists. -/
def sim (K V : Type) [LinearOrder K] : SL.ListSim (impl K V) where
  rel s l := s.tree.toList = l ∧ s.len = l.length ∧ Inv s.tree
  empty := ⟨rfl, rfl, 0, ll_nil.2 ⟨rfl, rfl⟩⟩
  step := by
    rintro ⟨t, n⟩ l op d hs ⟨rfl, hn, hi⟩
    simp only at hn; subst hn
    change Sorted t.toList at hs
    change Inv t at hi
    simp only [impl]
    cases op with
    | insert k v =>
      obtain ⟨n, hll⟩ := hi
      obtain ⟨t', h1, h2, h2', _⟩ := insert_spec t k v hll hs
      obtain ⟨c', h2'⟩ := h2' rfl
      have h3 := SL.length_ins (k := k) (v := v) hs
      have h4 := blacken_inv h2'
      have h5 := blacken_toList t'
      rw [h2] at h5
      cases hf : SL.find k t.toList with
      | none =>
        rw [hf] at h1 h3
        exact ⟨⟨blacken t', t.toList.length + 1⟩, by simp [step, RedBlackMap.insert, h1, SL.res, hf],
          h5, by simpa [SL.next] using h3.symm, h4⟩
      | some e =>
        rw [hf] at h1 h3
        exact ⟨⟨blacken t', t.toList.length⟩, by simp [step, RedBlackMap.insert, h1, SL.res, hf, decr],
          h5, by simpa [SL.next] using h3.symm, h4⟩
    | remove k =>
      obtain ⟨n, c, hll, hrd⟩ := fixRoot_spec hi
      have hfr := fixRoot_toList t
      obtain ⟨t', h1, h2, c', h2', _⟩ := remove_spec (t.size + 1) (k := k) (.inl ⟨hll, hrd⟩)
        (by rw [hfr]; exact hs) (by rw [hfr, Tree.size_eq_length]; omega)
      rw [hfr] at h1 h2
      have h3 := SL.length_del (k := k) hs
      have h4 := blacken_inv h2'
      have h5 := blacken_toList t'
      rw [h2] at h5
      cases hf : SL.find k t.toList with
      | none =>
        rw [hf] at h1 h3
        exact ⟨⟨blacken t', t.toList.length⟩, by simp [step, RedBlackMap.remove, h1, SL.res, hf],
          h5, by simpa [SL.next] using h3.symm, h4⟩
      | some e =>
        rw [hf] at h1 h3
        have hp := List.length_pos_of_mem (SL.find_some_mem hf)
        obtain ⟨n, hn⟩ : ∃ n, t.toList.length = n + 1 := ⟨_, (Nat.succ_pred_eq_of_pos hp).symm⟩
        refine ⟨⟨blacken t', n⟩, by simp [step, RedBlackMap.remove, h1, SL.res, hf, decr, hn],
          h5, ?_, h4⟩
        rw [hn] at h3; simpa [SL.next] using h3.symm
    | get k => exact ⟨⟨t, t.toList.length⟩, by simp [step, SL.res, Tree.get_eq t k hs], rfl, rfl, hi⟩
    | containsKey k =>
      exact ⟨⟨t, t.toList.length⟩, by simp [step, SL.res, Tree.get_eq t k hs], rfl, rfl, hi⟩
    | getMut k f =>
      obtain ⟨n, hll⟩ := hi
      refine ⟨⟨(t.getMut k f).2, t.toList.length⟩, ?_, Tree.getMut_snd t k f hs, SL.length_upd.symm,
        n, getMut_ll t k f hll⟩
      simp [step, SL.res, Tree.getMut_fst, Tree.get_eq t k hs]
    | floor k => exact ⟨⟨t, t.toList.length⟩, by simp [step, SL.res, Tree.floor_eq t k hs], rfl, rfl, hi⟩
    | ceil k => exact ⟨⟨t, t.toList.length⟩, by simp [step, SL.res, Tree.ceil_eq t k hs], rfl, rfl, hi⟩
    | min => exact ⟨⟨t, t.toList.length⟩, by simp [step, SL.res, Tree.min_eq], rfl, rfl, hi⟩
    | max => exact ⟨⟨t, t.toList.length⟩, by simp [step, SL.res, Tree.max_eq], rfl, rfl, hi⟩
    | len => exact ⟨⟨t, t.toList.length⟩, by simp [step, SL.res], rfl, rfl, hi⟩
    | isEmpty =>
      refine ⟨⟨t, t.toList.length⟩, ?_, rfl, rfl, hi⟩
      simp only [step, SL.res]; cases t.toList <;> simp
    | iter => exact ⟨⟨t, t.toList.length⟩, by simp [step, SL.res, Iter.collect_start], rfl, rfl, hi⟩
    | clear => exact ⟨⟨.nil, 0⟩, rfl, rfl, rfl, 0, ll_nil.2 ⟨rfl, rfl⟩⟩

end Verif.RedBlack
