/- Specification vocabulary for the shape of binary trees. -/
import Verif.Bst.Model

namespace Verif.Spec

open Verif.Bst

variable {A K V : Type}

/-- Number of nodes on the longest downward path. -/
def depth : Tree A K V → Nat
  | .nil => 0
  | .node _ l _ _ r => max (depth l) (depth r) + 1

/-- At every node the depths of the two subtrees differ by at most one. -/
def HeightBalanced : Tree A K V → Prop
  | .nil => True
  | .node _ l _ _ r => depth l ≤ depth r + 1 ∧ depth r ≤ depth l + 1 ∧
      HeightBalanced l ∧ HeightBalanced r

instance : (t : Tree A K V) → Decidable (HeightBalanced t)
  | .nil => .isTrue trivial
  | .node _ l _ _ r =>
    have := instDecidableHeightBalanced l
    have := instDecidableHeightBalanced r
    by unfold HeightBalanced; infer_instance

/-- Every recorded height is the true one. -/
def HeightsOk : Tree Nat K V → Prop
  | .nil => True
  | .node h l _ _ r => h = max (depth l) (depth r) + 1 ∧ HeightsOk l ∧ HeightsOk r

/-- Number of nodes whose key a search for `k` compares with. -/
def searchCost [LinearOrder K] : Tree A K V → K → Nat
  | .nil, _ => 0
  | .node _ l x _ r, k =>
    if k < x then searchCost l k + 1 else if x < k then searchCost r k + 1 else 1

theorem searchCost_le_depth [LinearOrder K] (t : Tree A K V) (k : K) : searchCost t k ≤ depth t := by
  induction t with
  | nil => exact Nat.le_refl _
  | node a l x v r ihl ihr =>
    simp only [searchCost, depth]
    split
    · omega
    · split <;> omega

/-- Fibonacci numbers: 0, 1, 1, 2, 3, 5, … -/
def fib : Nat → Nat
  | 0 => 0
  | 1 => 1
  | n + 2 => fib n + fib (n + 1)

end Verif.Spec
