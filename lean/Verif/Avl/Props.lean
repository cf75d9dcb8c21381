/- Properties C01, C06, C07 of `AvlMap`. -/
import Verif.Avl.Balance
import Mathlib.Data.Nat.Basic

namespace Verif.Avl

open Verif.Bst Verif.Spec

/-- **C01.** Every history of `AvlMap` calls runs without panic and returns what an abstract
ordered map returns. -/
theorem C01_avl_history (K V : Type) [LinearOrder K] : (impl K V).Correct := (sim K V).correct

/-- A non-trivial history: an overwrite, a removal with two children, navigation. -/
example : ((impl Nat Nat).run AvlMap.new [(.insert 2 20, ()), (.insert 1 10, ()), (.insert 3 30, ()),
      (.insert 2 21, ()), (.remove 2, ()), (.floor 2, ()), (.ceil 2, ()), (.get 2, ()), (.len, ())]).map
      (fun p => p.2.map (·.2)) =
    some [.pair none, .pair none, .pair none, .pair (some (2, 20)), .pair (some (2, 21)),
      .key (some 1), .key (some 3), .val none, .num 2] := by decide

/-- **C06.** After every history without `remove` the tree is height balanced, every recorded height
is right, and a search in a map with `len` keys compares with at most `c` keys where
`fib (c + 2) ≤ len + 1`. -/
theorem C06_avl_insert_balance {K V : Type} [LinearOrder K] (ops : List (MapOp K V × Unit))
    (hops : ∀ p ∈ ops, ∀ k, p.1 ≠ .remove k) :
    ∃ s h, (impl K V).run AvlMap.new ops = some (s, h) ∧ HeightBalanced s.tree ∧ HeightsOk s.tree ∧
      ∀ k, fib (searchCost s.tree k + 2) ≤ s.len + 1 := by
  suffices H : ∀ s l, SL.Sorted l → (sim K V).rel s l → Good s.tree →
      ∃ s' h, (impl K V).run s ops = some (s', h) ∧ Good s'.tree ∧ s'.len = s'.tree.size by
    obtain ⟨s, h, h1, h2, h3⟩ := H AvlMap.new [] (by simp [SL.Sorted]) ⟨rfl, rfl⟩ ⟨trivial, trivial⟩
    refine ⟨s, h, h1, h2.2, h2.1, fun k => ?_⟩
    rw [h3]
    exact Nat.le_trans (fib_mono (Nat.add_le_add_right (searchCost_le_depth s.tree k) 2))
      (fib_depth_le h2.2)
  induction ops with
  | nil =>
    intro s l hs hr hg
    refine ⟨s, [], rfl, hg, ?_⟩
    rw [Tree.size_eq_length, hr.2, hr.1]
  | cons p ops ih =>
    intro s l hs hr hg
    obtain ⟨op, d⟩ := p
    obtain ⟨s₁, h1, h2⟩ := (sim K V).step s l op d hs hr
    have hg₁ : Good s₁.tree := step_good (hops (op, d) (by simp)) h1 hg
    obtain ⟨s', h, h3, h4, h5⟩ := ih (fun p hp => hops p (by simp [hp])) s₁ _ (SL.sorted_next hs op) h2 hg₁
    refine ⟨s', (op, SL.res l op) :: h, ?_, h4, h5⟩
    simp only [MapImpl.run, h1, Option.bind_eq_bind, Option.bind_some, h3]; rfl

/-- The hypothesis of C06 is met by a history that needs single and double rotations. -/
example : ∃ s h, (impl Nat Nat).run AvlMap.new
      [(.insert 1 0, ()), (.insert 3 0, ()), (.insert 2 0, ()), (.insert 4 0, ()), (.insert 5 0, ())]
      = some (s, h) ∧ HeightBalanced s.tree ∧ depth s.tree = 3 :=
  ⟨_, _, rfl, by decide, by decide⟩

/-- **C07 fails**: removals can leave a tree that is not height balanced (the successor taken out
by `remove_min` leaves stale heights behind). -/
theorem C07_avl_remove_unbalanced : ∃ (ops : List (MapOp Nat Nat × Unit)) (s : AvlMap Nat Nat) (h : _),
    (impl Nat Nat).run AvlMap.new ops = some (s, h) ∧ ¬ HeightBalanced s.tree :=
  ⟨[(.insert 2 0, ()), (.insert 1 0, ()), (.insert 4 0, ()), (.insert 0 0, ()), (.insert 3 0, ()),
    (.insert 5 0, ()), (.insert 6 0, ()), (.remove 2, ())], _, _, rfl, by decide⟩

/-- **C07, partial**: `remove` keeps a height-balanced tree with right heights balanced whenever the
removed key is absent, or its node has at most one child, or its successor is its right child
(`EasyKey`).  Missing: the other two-children removals, for which the claim is false. -/
theorem C07_avl_remove_balance_partial {K V : Type} [LinearOrder K] (t : ATree K V) (k : K)
    (hh : HeightsOk t) (hb : HeightBalanced t) (he : EasyKey t k) (hs : SL.Sorted t.toList) :
    ∃ t' o, remove t k = some (t', o) ∧ HeightsOk t' ∧ HeightBalanced t' := by
  obtain ⟨t', h1, _⟩ := remove_spec t k hs
  obtain ⟨h2, _⟩ := remove_good ⟨hh, hb⟩ he h1
  exact ⟨t', _, h1, h2.1, h2.2⟩

/-- The hypotheses are met by a removal that triggers a rebalancing rotation. -/
example : ∃ t : ATree Nat Nat, HeightsOk t ∧ HeightBalanced t ∧ EasyKey t 1 ∧ SL.Sorted t.toList ∧
    ∃ t', remove t 1 = some (t', some (1, 0)) ∧ depth t' < depth t := by
  refine ⟨.node 3 (newNode 1 0) 2 0 (.node 2 .nil 3 0 (newNode 4 0)), ?_, ?_, ?_, ?_, ?_⟩
  · simp [HeightsOk, newNode, depth]
  · decide
  · simp [EasyKey, newNode]
  · simp [SL.Sorted, newNode, Tree.toList]
  · exact ⟨_, rfl, by decide⟩

end Verif.Avl
