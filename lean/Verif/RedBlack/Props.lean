/- Properties C02, C08 of `RedBlackMap`. -/
import Verif.RedBlack.Lemmas
import Verif.Spec.TreeShape
import Mathlib.Data.Nat.Basic

namespace Verif.RedBlack

open Verif.Bst Verif.Spec

/-! ### Specification vocabulary -/

/-- The colour sequences of all paths from the root down to an empty subtree. -/
def paths {K V : Type} : RTree K V → List (List Color)
  | .nil => [[]]
  | .node c l _ _ r => (paths l ++ paths r).map (c :: ·)

/-- Two neighbouring nodes on the path are both red. -/
def AdjacentReds : List Color → Prop
  | .red :: .red :: _ => True
  | _ :: p => AdjacentReds p
  | [] => False

/-- No node has a red right child. -/
def LeansLeft {K V : Type} : RTree K V → Prop
  | .nil => True
  | .node _ l _ _ r => isRed r = false ∧ LeansLeft l ∧ LeansLeft r

/-! ### Lemmas -/

variable {K V : Type}

theorem ll_paths {t : RTree K V} : ∀ {n c}, LL n c t → ∀ p ∈ paths t,
    p.count .black = n ∧ ¬ AdjacentReds p ∧ (c = .black → p.head? ≠ some .red) := by
  induction t with
  | nil =>
    intro n c h p hp
    obtain ⟨rfl, rfl⟩ := ll_nil.1 h
    simp [paths] at hp; subst hp; simp [AdjacentReds]
  | node d l k v r ihl ihr =>
    intro n c h p hp
    simp only [paths, List.mem_map] at hp
    obtain ⟨q, hq, rfl⟩ := hp
    cases d with
    | red =>
      obtain ⟨rfl, h1, h2⟩ := ll_red.1 h
      have : q.count .black = n ∧ ¬ AdjacentReds q ∧ q.head? ≠ some .red := by
        rcases List.mem_append.1 hq with hq | hq
        · have := ihl h1 q hq; exact ⟨this.1, this.2.1, this.2.2 rfl⟩
        · have := ihr h2 q hq; exact ⟨this.1, this.2.1, this.2.2 rfl⟩
      obtain ⟨q1, q2, q3⟩ := this
      refine ⟨by simpa [List.count_cons] using q1, ?_, by simp⟩
      cases q with
      | nil => simp [AdjacentReds]
      | cons a q =>
        cases a with
        | red => simp at q3
        | black => exact q2
    | black =>
      obtain ⟨rfl, m, rfl, h1, h2⟩ := ll_black.1 h
      have : q.count .black = m ∧ ¬ AdjacentReds q := by
        rcases List.mem_append.1 hq with hq | hq
        · rcases h1 with h1 | h1
          · have := ihl h1 q hq; exact ⟨this.1, this.2.1⟩
          · have := ihl h1 q hq; exact ⟨this.1, this.2.1⟩
        · have := ihr h2 q hq; exact ⟨this.1, this.2.1⟩
      refine ⟨by simp [this.1], ?_, by simp⟩
      exact this.2

theorem ll_leans {t : RTree K V} : ∀ {n c}, LL n c t → LeansLeft t := by
  induction t with
  | nil => intros; trivial
  | node d l k v r ihl ihr =>
    intro n c h
    cases d with
    | red =>
      obtain ⟨_, h1, h2⟩ := ll_red.1 h
      exact ⟨isRed_of_black h2, ihl h1, ihr h2⟩
    | black =>
      obtain ⟨_, m, _, h1, h2⟩ := ll_black.1 h
      exact ⟨isRed_of_black h2, h1.elim (ihl ·) (ihl ·), ihr h2⟩

theorem ll_depth {t : RTree K V} : ∀ {n c}, LL n c t →
    depth t ≤ 2 * n + (if c = .red then 1 else 0) ∧ 2 ^ n ≤ t.size + 1 := by
  induction t with
  | nil => intro n c h; obtain ⟨rfl, rfl⟩ := ll_nil.1 h; simp [depth, Tree.size]
  | node d l k v r ihl ihr =>
    intro n c h
    cases d with
    | red =>
      obtain ⟨rfl, h1, h2⟩ := ll_red.1 h
      have e1 := ihl h1
      have e2 := ihr h2
      simp only [depth, Tree.size, reduceCtorEq, if_false, if_true] at *
      omega
    | black =>
      obtain ⟨rfl, m, rfl, h1, h2⟩ := ll_black.1 h
      have e2 := ihr h2
      have e1 : depth l ≤ 2 * m + 1 ∧ 2 ^ m ≤ l.size + 1 := by
        rcases h1 with h1 | h1
        · have := ihl h1; simp at this; omega
        · have := ihl h1; simp at this; omega
      simp only [depth, Tree.size, reduceCtorEq, if_false, if_true, Nat.pow_succ] at *
      omega

/-! ### Properties -/

/-- **C02.** Every history of `RedBlackMap` calls runs without panic and returns what an abstract
ordered map returns. -/
theorem C02_rb_history (K V : Type) [LinearOrder K] : (impl K V).Correct := (sim K V).correct

/-- A history with an overwrite and removals of inner nodes. -/
example : ((impl Nat Nat).run RedBlackMap.new [(.insert 2 20, ()), (.insert 1 10, ()),
      (.insert 3 30, ()), (.insert 4 40, ()), (.insert 5 50, ()),
      (.insert 2 21, ()), (.remove 4, ()), (.remove 2, ()), (.floor 2, ()), (.ceil 2, ()), (.get 2, ()),
      (.len, ())]).map (fun p => p.2.map (·.2)) =
    some [.pair none, .pair none, .pair none, .pair none, .pair none, .pair (some (2, 20)),
      .pair (some (4, 40)), .pair (some (2, 21)), .key (some 1), .key (some 3), .val none, .num 3] := by
  decide

/-- **C08.** After every history the tree of a `RedBlackMap` with `n` keys has no adjacent red
nodes on any path, no red right child, the same number of black nodes on every path, and so
`2 ^ depth ≤ (n + 1) ^ 2`, i.e. depth at most `2 * log2 (n + 1)`; no search compares with more keys. -/
theorem C08_rb_height {K V : Type} [LinearOrder K] (ops : List (MapOp K V × Unit)) :
    ∃ s h, (impl K V).run RedBlackMap.new ops = some (s, h) ∧
      (∃ n, ∀ p ∈ paths s.tree, p.count .black = n) ∧
      (∀ p ∈ paths s.tree, ¬ AdjacentReds p) ∧ LeansLeft s.tree ∧
      2 ^ depth s.tree ≤ (s.len + 1) ^ 2 ∧ ∀ k, 2 ^ searchCost s.tree k ≤ (s.len + 1) ^ 2 := by
  obtain ⟨s, h, l, h1, _, _, _, h2, h3, n, h4⟩ :=
    (sim K V).run ops RedBlackMap.new [] (by simp [SL.Sorted]) (sim K V).empty
  have hd : 2 ^ depth s.tree ≤ (s.len + 1) ^ 2 := by
    obtain ⟨e1, e2⟩ := ll_depth h4
    simp only [reduceCtorEq, if_false, Nat.add_zero] at e1
    rw [Tree.size_eq_length, h2, ← h3] at e2
    calc 2 ^ depth s.tree ≤ 2 ^ (2 * n) := Nat.pow_le_pow_right (by omega) e1
      _ = (2 ^ n) ^ 2 := by rw [Nat.mul_comm, Nat.pow_mul]
      _ ≤ (s.len + 1) ^ 2 := Nat.pow_le_pow_left e2 2
  refine ⟨s, h, h1, ⟨n, fun p hp => (ll_paths h4 p hp).1⟩, fun p hp => (ll_paths h4 p hp).2.1,
    ll_leans h4, hd, fun k => Nat.le_trans (Nat.pow_le_pow_right (by omega) ?_) hd⟩
  exact searchCost_le_depth _ k

/-- A seven-key instance after a removal: depth 3 with 6 keys. -/
example : ∃ s h, (impl Nat Nat).run RedBlackMap.new
      [(.insert 1 0, ()), (.insert 2 0, ()), (.insert 3 0, ()), (.insert 4 0, ()), (.insert 5 0, ()),
       (.insert 6 0, ()), (.insert 7 0, ()), (.remove 4, ())] = some (s, h) ∧
      depth s.tree = 3 ∧ s.len = 6 :=
  ⟨_, _, rfl, by decide, by decide⟩

end Verif.RedBlack
