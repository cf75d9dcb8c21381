/- The searches shared by the four search trees, when a comparison of keys panics (C74).

`b` is the number of comparisons that still return; with `b = 0` the next one panics.  The result is `none` if the
comparison panics.  None of these functions changes the tree before its last comparison. -/
import Verif.Bst.Lemmas
import Verif.Spec.TreeShape
import Verif.Spec.Panic

namespace Verif.Bst.Tree

open Verif.Spec

variable {A K V : Type} [LinearOrder K]

/-- `tree::get` (see `Tree.get`), comparison `b + 1` panicking. -/
def getP : Nat → Tree A K V → K → Option (Option (K × V))
  | _, nil, _ => some none
  | 0, node .., _ => none
  | b + 1, node _ l x v r, k =>
    if k < x then l.getP b k
    else if x < k then r.getP b k
    else some (some (x, v))

/-- `tree::get_mut` (see `Tree.getMut`), comparison `b + 1` panicking. -/
def getMutP : Nat → Tree A K V → K → (V → V) → Option (Option (K × V) × Tree A K V)
  | _, nil, _, _ => some (none, nil)
  | 0, node .., _, _ => none
  | b + 1, node a l x v r, k, f =>
    if k < x then do
      let (e, l') ← l.getMutP b k f
      return (e, node a l' x v r)
    else if x < k then do
      let (e, r') ← r.getMutP b k f
      return (e, node a l x v r')
    else some (some (x, v), node a l x (f v) r)

/-- `tree::ceil` (see `Tree.ceil`), comparison `b + 1` panicking. -/
def ceilP : Nat → Tree A K V → K → Option (Option (K × V))
  | _, nil, _ => some none
  | 0, node .., _ => none
  | b + 1, node _ l x v r, k =>
    if x < k then r.ceilP b k
    else if k < x then do
      match ← l.ceilP b k with
      | none => some (some (x, v))
      | res => some res
    else some (some (x, v))

/-- `tree::floor` (see `Tree.floor`), comparison `b + 1` panicking. -/
def floorP : Nat → Tree A K V → K → Option (Option (K × V))
  | _, nil, _ => some none
  | 0, node .., _ => none
  | b + 1, node _ l x v r, k =>
    if k < x then l.floorP b k
    else if x < k then do
      match ← r.floorP b k with
      | none => some (some (x, v))
      | res => some res
    else some (some (x, v))

theorem getP_eq (b : Nat) (t : Tree A K V) (k : K) :
    t.getP b k = if b < searchCost t k then none else some (t.get k) := by
  induction t generalizing b with
  | nil => cases b <;> simp [getP, searchCost, get]
  | node a l x v r ihl ihr =>
    cases b with
    | zero => simp only [getP, searchCost]; split_ifs <;> simp_all
    | succ b =>
      simp only [getP, searchCost, get, ihl, ihr]
      split_ifs <;> first | rfl | omega

theorem getMutP_eq (b : Nat) (t : Tree A K V) (k : K) (f : V → V) :
    t.getMutP b k f = if b < searchCost t k then none else some (t.getMut k f) := by
  induction t generalizing b with
  | nil => cases b <;> simp [getMutP, searchCost, getMut]
  | node a l x v r ihl ihr =>
    cases b with
    | zero => simp only [getMutP, searchCost]; split_ifs <;> simp_all
    | succ b =>
      simp only [getMutP, searchCost, getMut, ihl, ihr]
      split_ifs <;> first | rfl | omega

theorem ceilP_eq (b : Nat) (t : Tree A K V) (k : K) :
    t.ceilP b k = if b < searchCost t k then none else some (t.ceil k) := by
  induction t generalizing b with
  | nil => cases b <;> simp [ceilP, searchCost, ceil]
  | node a l x v r ihl ihr =>
    cases b with
    | zero => simp only [ceilP, searchCost]; split_ifs <;> simp_all
    | succ b =>
      simp only [ceilP, searchCost, ceil, ihl, ihr]
      split_ifs <;> first | rfl | (exfalso; grind) | (cases l.ceil k <;> rfl)

theorem floorP_eq (b : Nat) (t : Tree A K V) (k : K) :
    t.floorP b k = if b < searchCost t k then none else some (t.floor k) := by
  induction t generalizing b with
  | nil => cases b <;> simp [floorP, searchCost, floor]
  | node a l x v r ihl ihr =>
    cases b with
    | zero => simp only [floorP, searchCost]; split_ifs <;> simp_all
    | succ b =>
      simp only [floorP, searchCost, floor, ihl, ihr]
      split_ifs <;> first | rfl | (exfalso; grind) | (cases r.floor k <;> rfl)

end Verif.Bst.Tree
