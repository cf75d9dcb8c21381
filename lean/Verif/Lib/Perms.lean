/- Sums over all orders of a list: the counting lemmas behind the expected height of a treap.  No code of
the repository is modelled here. -/
import Mathlib.Data.List.Permutation
import Mathlib.Data.List.Sort
import Mathlib.Data.Nat.Choose.Basic
import Mathlib.Data.Nat.Factorial.Basic
import Mathlib.Algebra.Order.BigOperators.Group.List
import Mathlib.Algebra.BigOperators.Group.List.Basic
import Mathlib.Tactic.Ring
import Mathlib.Tactic.Linarith

namespace Verif.Perms

variable {ι K : Type}

/-- The orders of a list, by their first element. -/
theorem permutations_head [DecidableEq ι] {T : List ι} (hT : T.Nodup) (hne : T ≠ []) :
    T.permutations.Perm (T.flatMap fun x => (T.erase x).permutations.map (x :: ·)) := by
  refine (List.perm_ext_iff_of_nodup (List.nodup_permutations _ hT) ?_).2 ?_
  · rw [List.nodup_flatMap]
    refine ⟨fun x _ => ?_, ?_⟩
    · exact (List.nodup_permutations _ (hT.erase x)).map (fun a b h => by simpa using h)
    · refine hT.imp ?_
      intro a b hab l h1 h2
      simp only [List.mem_map] at h1 h2
      obtain ⟨u, _, rfl⟩ := h1
      obtain ⟨w, _, e⟩ := h2
      simp only [List.cons.injEq] at e
      exact hab e.1.symm
  · intro l
    simp only [List.mem_permutations, List.mem_flatMap, List.mem_map]
    constructor
    · intro h
      cases l with
      | nil => exact absurd h.symm.eq_nil hne
      | cons x l =>
        have hx : x ∈ T := h.subset (by simp)
        refine ⟨x, hx, l, ?_, rfl⟩
        exact (List.cons_perm_iff_perm_erase.1 h).2
    · rintro ⟨x, hx, u, hu, rfl⟩
      exact List.cons_perm_iff_perm_erase.2 ⟨hx, hu⟩

theorem sum_flatMap (T : List ι) {β : Type} (f : ι → List β) (g : β → Nat) :
    ((T.flatMap f).map g).sum = (T.map fun x => ((f x).map g).sum).sum := by
  induction T with
  | nil => rfl
  | cons a T ih => simp [List.flatMap_cons, ih]

/-- A sum over all orders, by the first element. -/
theorem sum_head [DecidableEq ι] {T : List ι} (hT : T.Nodup) (hne : T ≠ []) (F : List ι → Nat) :
    (T.permutations.map F).sum =
      (T.map fun x => ((T.erase x).permutations.map fun l => F (x :: l)).sum).sum := by
  rw [((permutations_head hT hne).map F).sum_eq, sum_flatMap]
  simp [Function.comp_def]

theorem sum_le_sum {β : Type} {l : List β} {f g : β → Nat} (h : ∀ x ∈ l, f x ≤ g x) :
    (l.map f).sum ≤ (l.map g).sum := List.sum_le_sum h

theorem sum_add {β : Type} (l : List β) (f g : β → Nat) :
    (l.map fun x => f x + g x).sum = (l.map f).sum + (l.map g).sum := by
  induction l with
  | nil => rfl
  | cons a l ih => simp only [List.map_cons, List.sum_cons, ih]; omega

theorem sum_mul {β : Type} (l : List β) (c : Nat) (f : β → Nat) :
    (l.map fun x => c * f x).sum = c * (l.map f).sum := by
  induction l with
  | nil => rfl
  | cons a l ih => simp only [List.map_cons, List.sum_cons, ih, Nat.mul_add]

theorem sum_const {β : Type} (l : List β) (c : Nat) : (l.map fun _ => c).sum = l.length * c := by
  induction l with
  | nil => simp
  | cons a l ih => simp only [List.map_cons, List.sum_cons, ih, List.length_cons, Nat.succ_mul]; omega

/-- `g 0 + … + g (n-1)`. -/
def upTo (g : Nat → Nat) : Nat → Nat
  | 0 => 0
  | n + 1 => upTo g n + g n

theorem choose_upTo (n : Nat) : 4 * upTo (fun i => (i + 3).choose 3) n = n * (n + 3).choose 3 := by
  have h : ∀ n, upTo (fun i => (i + 3).choose 3) n = (n + 3).choose 4 := by
    intro n
    induction n with
    | zero => rfl
    | succ n ih =>
      rw [upTo, ih, show n + 1 + 3 = (n + 3) + 1 by omega, Nat.choose_succ_succ' (n + 3) 3]; exact Nat.add_comm _ _
  rw [h]
  have := Nat.choose_succ_right_eq (n + 3) 3
  rw [show n + 3 - 3 = n by omega] at this
  linarith

section

variable [LinearOrder K]

/-- The `i`-th smallest item has at most `i` smaller ones. -/
theorem sum_ranks (κ : ι → K) (g : Nat → Nat) (hg : Monotone g) (B : List ι) :
    (B.map fun x => g (B.countP fun y => decide (κ y < κ x))).sum ≤ upTo g B.length := by
  classical
  have key : ∀ C : List ι, C.Pairwise (fun a b => κ a ≤ κ b) →
      (C.map fun x => g (C.countP fun y => decide (κ y < κ x))).sum ≤ upTo g C.length := by
    intro C
    induction C using List.reverseRecOn with
    | nil => intro _; simp [upTo]
    | append_singleton C y ih =>
      intro hC
      rw [List.pairwise_append] at hC
      obtain ⟨h1, _, h2⟩ := hC
      rw [List.map_append, List.sum_append, List.length_append, List.length_singleton, upTo]
      refine Nat.add_le_add ?_ ?_
      · refine le_trans (sum_le_sum ?_) (ih h1)
        intro x hx
        apply hg
        rw [List.countP_append]
        have := h2 x hx y (by simp)
        simp [not_lt.2 this]
      · simp only [List.map_cons, List.map_nil, List.sum_cons, List.sum_nil, Nat.add_zero]
        apply hg
        rw [List.countP_append]
        simp [List.countP_le_length]
  let r : ι → ι → Prop := fun a b => κ a ≤ κ b
  have hp := List.perm_insertionSort r B
  have hs : (B.insertionSort r).Pairwise r := by
    haveI : Std.Total r := ⟨fun a b => le_total _ _⟩
    haveI : IsTrans ι r := ⟨fun a b c h h' => le_trans h h'⟩
    exact List.pairwise_insertionSort r B
  have := key _ hs
  rw [hp.length_eq] at this
  refine le_trans (le_of_eq ?_) this
  rw [(hp.map _).sum_eq]
  congr 1
  apply List.map_congr_left
  intro x _
  rw [hp.countP_eq]

/-- Height of the search tree in which every item of the list is above all later ones, items with equal
keys being merged. -/
def orderHeight (κ : ι → K) : List ι → Nat
  | [] => 0
  | x :: xs => 1 + max (orderHeight κ (xs.filter fun y => decide (κ y < κ x)))
      (orderHeight κ (xs.filter fun y => decide (κ x < κ y)))
termination_by l => l.length
decreasing_by all_goals (simp; exact Nat.lt_succ_of_le (le_trans (List.length_filter_le _ _) (by simp)))

theorem orderHeight_nil (κ : ι → K) : orderHeight κ [] = 0 := by rw [orderHeight]

theorem orderHeight_cons (κ : ι → K) (x : ι) (xs : List ι) : orderHeight κ (x :: xs) =
    1 + max (orderHeight κ (xs.filter fun y => decide (κ y < κ x)))
      (orderHeight κ (xs.filter fun y => decide (κ x < κ y))) := by rw [orderHeight]

theorem two_pow_height (κ : ι → K) (x : ι) (xs : List ι) : 2 ^ orderHeight κ (x :: xs) ≤
    2 * (2 ^ orderHeight κ (xs.filter fun y => decide (κ y < κ x)) +
      2 ^ orderHeight κ (xs.filter fun y => decide (κ x < κ y))) := by
  rw [orderHeight_cons, Nat.pow_add, Nat.pow_one]
  apply Nat.mul_le_mul_left
  rcases le_total (orderHeight κ (xs.filter fun y => decide (κ y < κ x)))
      (orderHeight κ (xs.filter fun y => decide (κ x < κ y))) with h | h
  · rw [max_eq_right h]; exact Nat.le_add_left _ _
  · rw [max_eq_left h]; exact Nat.le_add_right _ _

/-- The sum of `2 ^ height` over all orders of `T`, looking only at the items in `A`. -/
theorem sum_two_pow (κ : ι → K) (n : Nat) : ∀ (T : List ι) (_ : T.Nodup) (_ : T.length = n)
    (A : ι → Bool), (T.permutations.map fun l => 2 ^ orderHeight κ (l.filter A)).sum ≤
      n.factorial * (T.countP A + 3).choose 3 := by
  classical
  induction n with
  | zero =>
    intro T _ h A
    rw [List.length_eq_zero_iff] at h
    subst h
    simp [List.permutations, List.permutationsAux_nil, orderHeight_nil]
  | succ n ih =>
    intro T hT hn A
    have hne : T ≠ [] := by rintro rfl; simp at hn
    rw [sum_head hT hne]
    have hg : Monotone fun i : Nat => (i + 3).choose 3 :=
      fun a b h => Nat.choose_le_choose 3 (by omega)
    let lt : ι → Nat := fun x => (T.filter A).countP fun y => decide (κ y < κ x)
    let gt : ι → Nat := fun x => (T.filter A).countP fun y => decide (κ x < κ y)
    let w : ι → Nat := fun x =>
      if A x then 2 * ((lt x + 3).choose 3 + (gt x + 3).choose 3) else (T.countP A + 3).choose 3
    have hx : ∀ x ∈ T, ((T.erase x).permutations.map fun l => 2 ^ orderHeight κ ((x :: l).filter A)).sum
        ≤ n.factorial * w x := by
      intro x hx
      have hl : (T.erase x).length = n := by rw [List.length_erase_of_mem hx]; omega
      have hd := hT.erase x
      have hsub : (T.erase x).Sublist T := List.erase_sublist
      by_cases hA : A x = true
      · simp only [w, hA, if_true]
        have e : ∀ l : List ι, (x :: l).filter A = x :: l.filter A := by
          intro l; rw [List.filter_cons_of_pos hA]
        simp only [e]
        refine le_trans (sum_le_sum fun l _ => two_pow_height κ x (l.filter A)) ?_
        rw [sum_mul, sum_add]
        simp only [List.filter_filter]
        have h1 := ih _ hd hl (fun y => decide (κ y < κ x) && A y)
        have h2 := ih _ hd hl (fun y => decide (κ x < κ y) && A y)
        have c1 : (T.erase x).countP (fun y => decide (κ y < κ x) && A y) ≤ lt x := by
          refine le_trans hsub.countP_le ?_
          simp only [lt, List.countP_filter]; exact le_refl _
        have c2 : (T.erase x).countP (fun y => decide (κ x < κ y) && A y) ≤ gt x := by
          refine le_trans hsub.countP_le ?_
          simp only [gt, List.countP_filter]; exact le_refl _
        have h1' := le_trans h1 (Nat.mul_le_mul_left _ (hg c1))
        have h2' := le_trans h2 (Nat.mul_le_mul_left _ (hg c2))
        simp only [] at h1' h2'
        nlinarith
      · simp only [w, hA, Bool.false_eq_true, if_false]
        have e : ∀ l : List ι, (x :: l).filter A = l.filter A := by
          intro l; rw [List.filter_cons_of_neg hA]
        simp only [e]
        exact le_trans (ih _ hd hl A) (Nat.mul_le_mul_left _ (hg hsub.countP_le))
    refine le_trans (sum_le_sum hx) ?_
    rw [sum_mul, Nat.factorial_succ, Nat.mul_comm (n + 1), Nat.mul_assoc]
    apply Nat.mul_le_mul_left
    have split : ∀ l : List ι, (l.map w).sum =
        ((l.filter A).map fun x => 2 * ((lt x + 3).choose 3 + (gt x + 3).choose 3)).sum +
          (l.length - l.countP A) * (T.countP A + 3).choose 3 := by
      intro l
      induction l with
      | nil => simp
      | cons y l ihl =>
        rw [List.map_cons, List.sum_cons, ihl]
        by_cases hA : A y = true
        · simp only [w, hA, if_true, List.filter_cons_of_pos hA, List.map_cons, List.sum_cons,
            List.countP_cons_of_pos hA, List.length_cons]
          rw [show l.length + 1 - (l.countP A + 1) = l.length - l.countP A by omega]
          omega
        · have := List.countP_le_length (p := A) (l := l)
          simp only [w, hA, Bool.false_eq_true, if_false, List.filter_cons_of_neg hA,
            List.countP_cons_of_neg hA, List.length_cons]
          rw [show l.length + 1 - l.countP A = (l.length - l.countP A) + 1 by omega, Nat.succ_mul]
          omega
    rw [split T, sum_mul, sum_add]
    have r1 := sum_ranks κ (fun i => (i + 3).choose 3) hg (T.filter A)
    have r2 := sum_ranks (fun x => OrderDual.toDual (κ x)) (fun i => (i + 3).choose 3) hg (T.filter A)
    simp only [OrderDual.toDual_lt_toDual, ← List.countP_eq_length_filter] at r1 r2
    have c4 := choose_upTo (T.countP A)
    have hle := List.countP_le_length (p := A) (l := T)
    obtain ⟨d, hd⟩ := Nat.exists_eq_add_of_le hle
    rw [show T.length - T.countP A = d by omega, show n + 1 = T.countP A + d by omega, Nat.add_mul]
    simp only [lt, gt]
    omega

end

theorem sum_by_key (κ : ι → Nat) (g : Nat → Nat) (k : Nat) (B : List ι) (hB : ∀ x ∈ B, κ x < k) :
    (B.map fun x => g (κ x)).sum = upTo (fun i => B.countP (fun x => κ x == i) * g i) k := by
  induction B with
  | nil =>
    have : ∀ k, upTo (fun i => ([] : List ι).countP (fun x => κ x == i) * g i) k = 0 := by
      intro k; induction k with
      | zero => rfl
      | succ k ih => rw [upTo, ih]; simp
    rw [this]; rfl
  | cons x B ih =>
    rw [List.map_cons, List.sum_cons, ih fun y hy => hB y (by simp [hy])]
    have h0 : ∀ m, upTo (fun i => (x :: B).countP (fun y => κ y == i) * g i) m =
        upTo (fun i => B.countP (fun y => κ y == i) * g i) m + if κ x < m then g (κ x) else 0 := by
      intro m
      induction m with
      | zero => simp [upTo]
      | succ m im =>
        rw [upTo, upTo, im, List.countP_cons]
        by_cases e : κ x = m
        · subst e; simp [Nat.add_mul]; omega
        · have : (κ x < m + 1) ↔ κ x < m := by omega
          simp only [this, beq_iff_eq, e, if_false, Nat.add_zero]
          omega
    rw [h0, if_pos (hB x (by simp))]
    omega

theorem upTo_two_pow (k : Nat) : upTo (fun i => 2 ^ i * (i + 2)) k = k * 2 ^ k := by
  induction k with
  | zero => rfl
  | succ k ih => rw [upTo, ih]; ring

theorem upTo_pow (k : Nat) : upTo (fun i => 2 ^ i * 1) k + 1 = 2 ^ k := by
  induction k with
  | zero => rfl
  | succ k ih => rw [upTo, Nat.pow_succ]; omega

theorem upTo_congr {g h : Nat → Nat} (k : Nat) (e : ∀ i < k, g i = h i) : upTo g k = upTo h k := by
  induction k with
  | zero => rfl
  | succ k ih => rw [upTo, upTo, ih fun i hi => e i (by omega), e k (by omega)]

/-- If key `i` occurs `2 ^ i` times, for all `i < k`, the sum of the heights over all orders is at least `k / 2`
times the number of orders. -/
theorem sum_height_ge (κ : ι → Nat) (n : Nat) : ∀ (T : List ι) (_ : T.Nodup) (_ : T.length = n)
    (A : ι → Bool) (k : Nat) (_ : ∀ i < k, (T.filter A).countP (fun x => κ x == i) = 2 ^ i)
    (_ : ∀ x ∈ T, A x = true → κ x < k),
    n.factorial * k ≤ (T.permutations.map fun l => 2 * orderHeight κ (l.filter A)).sum := by
  classical
  induction n with
  | zero =>
    intro T _ h A k hc _
    rw [List.length_eq_zero_iff] at h
    subst h
    cases k with
    | zero => simp
    | succ k => have := hc 0 (by omega); simp at this
  | succ n ih =>
    intro T hT hn A k hc hA
    have hne : T ≠ [] := by rintro rfl; simp at hn
    rw [sum_head hT hne]
    let w : ι → Nat := fun x => if A x then κ x + 2 else k
    have hx : ∀ x ∈ T, n.factorial * w x ≤
        ((T.erase x).permutations.map fun l => 2 * orderHeight κ ((x :: l).filter A)).sum := by
      intro x hx
      have hl : (T.erase x).length = n := by rw [List.length_erase_of_mem hx]; omega
      have hd := hT.erase x
      by_cases hAx : A x = true
      · simp only [w, hAx, if_true]
        have e : ∀ l : List ι, 2 + 2 * orderHeight κ (l.filter fun y => decide (κ y < κ x) && A y) ≤
            2 * orderHeight κ ((x :: l).filter A) := by
          intro l
          rw [List.filter_cons_of_pos hAx, orderHeight_cons, List.filter_filter]
          have := Nat.le_max_left (orderHeight κ (l.filter fun y => decide (κ y < κ x) && A y))
            (orderHeight κ ((l.filter A).filter fun y => decide (κ x < κ y)))
          omega
        refine le_trans ?_ (sum_le_sum fun l _ => e l)
        rw [sum_add, sum_const, List.length_permutations, hl]
        have h1 := ih _ hd hl (fun y => decide (κ y < κ x) && A y) (κ x) ?_ ?_
        · rw [Nat.mul_add]; omega
        · intro i hi
          rw [← hc i (lt_trans hi (hA x hx hAx)), List.countP_filter, List.countP_filter]
          rw [hT.erase_eq_filter, List.countP_filter]
          apply List.countP_congr
          intro y _
          simp only [Bool.and_eq_true, beq_iff_eq, decide_eq_true_eq, bne_iff_ne, ne_eq]
          constructor
          · rintro ⟨⟨h1, _, h2⟩, _⟩; exact ⟨h1, h2⟩
          · rintro ⟨h1, h2⟩
            refine ⟨⟨h1, by omega, h2⟩, ?_⟩
            rintro rfl; omega
        · intro y _ hy
          simp only [Bool.and_eq_true, decide_eq_true_eq] at hy
          exact hy.1
      · simp only [w, hAx, Bool.false_eq_true, if_false]
        have e : ∀ l : List ι, (x :: l).filter A = l.filter A := by
          intro l; rw [List.filter_cons_of_neg hAx]
        simp only [e]
        refine ih _ hd hl A k ?_ fun y hy => hA y (List.mem_of_mem_erase hy)
        intro i hi
        rw [← hc i hi, hT.erase_eq_filter, List.countP_filter, List.countP_filter, List.countP_filter]
        apply List.countP_congr
        intro y _
        simp only [Bool.and_eq_true, beq_iff_eq, bne_iff_ne, ne_eq]
        constructor
        · rintro ⟨h1, _⟩; exact h1
        · intro h1
          refine ⟨h1, ?_⟩
          rintro rfl; exact hAx h1.2
    refine le_trans ?_ (sum_le_sum hx)
    rw [sum_mul, Nat.factorial_succ, Nat.mul_comm (n + 1), Nat.mul_assoc]
    apply Nat.mul_le_mul_left
    have split : ∀ l : List ι, (l.map w).sum =
        ((l.filter A).map fun x => κ x + 2).sum + (l.length - (l.filter A).length) * k := by
      intro l
      induction l with
      | nil => simp
      | cons y l ihl =>
        rw [List.map_cons, List.sum_cons, ihl]
        by_cases hA : A y = true
        · simp only [w, hA, if_true, List.filter_cons_of_pos hA, List.map_cons, List.sum_cons,
            List.length_cons]
          rw [show l.length + 1 - ((l.filter A).length + 1) = l.length - (l.filter A).length by omega]
          omega
        · have := List.length_filter_le A l
          simp only [w, hA, Bool.false_eq_true, if_false, List.filter_cons_of_neg hA, List.length_cons]
          rw [show l.length + 1 - (l.filter A).length = (l.length - (l.filter A).length) + 1 by omega,
            Nat.succ_mul]
          omega
    have hB : ∀ x ∈ T.filter A, κ x < k := fun x hx =>
      hA x (List.mem_filter.1 hx).1 (List.mem_filter.1 hx).2
    rw [split T, sum_by_key κ (fun i => i + 2) k _ hB,
      upTo_congr k (fun i hi => by rw [hc i hi] : ∀ i < k, _ = 2 ^ i * (i + 2)), upTo_two_pow]
    have h1 : (T.filter A).length + 1 = 2 ^ k := by
      have := sum_by_key κ (fun _ => 1) k _ hB
      rw [sum_const, Nat.mul_one,
        upTo_congr k (fun i hi => by rw [hc i hi] : ∀ i < k, _ = 2 ^ i * 1)] at this
      rw [this, upTo_pow]
    have hle := List.length_filter_le A T
    obtain ⟨d, hd⟩ := Nat.exists_eq_add_of_le hle
    rw [show T.length - (T.filter A).length = d by omega, show n + 1 = (T.filter A).length + d by omega,
      ← h1]
    nlinarith

/-- Giving the numbers `ps` to the items `T` in all ways is the same as listing `T` in all orders (by
decreasing number). -/
theorem orders (T : List ι) (ps : List Nat) (hT : T.Nodup) (hp : ps.Nodup) (hl : T.length = ps.length)
    (π : List Nat → ι → Nat) (hπ : ∀ qs, qs.length = T.length → T.map (π qs) = qs) :
    ∃ ord : List Nat → List ι,
      (∀ qs ∈ ps.permutations, (ord qs).Perm T ∧ (ord qs).Pairwise fun a b => π qs b < π qs a) ∧
      (ps.permutations.map ord).Perm T.permutations := by
  classical
  let r : List Nat → ι → ι → Prop := fun qs a b => π qs b ≤ π qs a
  let ord : List Nat → List ι := fun qs => T.insertionSort (r qs)
  have hperm : ∀ qs, (ord qs).Perm T := fun qs => List.perm_insertionSort (r qs) T
  have hsort : ∀ qs, (ord qs).Pairwise (r qs) := by
    intro qs
    haveI : Std.Total (r qs) := ⟨fun a b => le_total _ _⟩
    haveI : IsTrans ι (r qs) := ⟨fun a b c h h' => le_trans h' h⟩
    exact List.pairwise_insertionSort (r qs) T
  have hlen : ∀ qs ∈ ps.permutations, qs.length = T.length := by
    intro qs h; rw [(List.mem_permutations.1 h).length_eq, hl]
  have hmap : ∀ qs ∈ ps.permutations, ((ord qs).map (π qs)).Perm ps := by
    intro qs h
    refine ((hperm qs).map _).trans ?_
    rw [hπ qs (hlen qs h)]
    exact List.mem_permutations.1 h
  have hstrict : ∀ qs ∈ ps.permutations, (ord qs).Pairwise fun a b => π qs b < π qs a := by
    intro qs h
    have hnd : ((ord qs).map (π qs)).Nodup := (hmap qs h).nodup_iff.2 hp
    rw [List.Nodup, List.pairwise_map] at hnd
    refine ((hsort qs).and hnd).imp ?_
    rintro a b ⟨h1, h2⟩
    exact lt_of_le_of_ne h1 (fun e => h2 e.symm)
  refine ⟨ord, fun qs h => ⟨hperm qs, hstrict qs h⟩, ?_⟩
  have hinj : ∀ a ∈ ps.permutations, ∀ b ∈ ps.permutations, ord a = ord b → a = b := by
    intro a ha b hb e
    have h1 : (ord a).map (π a) = (ord b).map (π b) := by
      have p : ((ord a).map (π a)).Perm ((ord b).map (π b)) := (hmap a ha).trans (hmap b hb).symm
      have s1 : ((ord a).map (π a)).Pairwise (· > ·) := by
        rw [List.pairwise_map]; exact hstrict a ha
      have s2 : ((ord b).map (π b)).Pairwise (· > ·) := by
        rw [List.pairwise_map]; exact hstrict b hb
      exact p.eq_of_pairwise (fun x y _ _ h h' => absurd h (lt_asymm h')) s1 s2
    rw [← e] at h1
    have h2 : ∀ x ∈ T, π a x = π b x := by
      intro x hx
      exact List.map_inj_left.1 h1 x ((hperm a).mem_iff.2 hx)
    rw [← hπ a (hlen a ha), ← hπ b (hlen b hb)]
    exact List.map_congr_left h2
  have hnd1 : (ps.permutations.map ord).Nodup :=
    (List.nodup_permutations _ hp).map_on hinj
  have hsub : ps.permutations.map ord ⊆ T.permutations := by
    intro l h
    obtain ⟨qs, _, rfl⟩ := List.mem_map.1 h
    exact List.mem_permutations.2 (hperm qs)
  refine (List.subperm_of_subset hnd1 hsub).perm_of_length_le ?_
  rw [List.length_map, List.length_permutations, List.length_permutations, hl]

end Verif.Perms
