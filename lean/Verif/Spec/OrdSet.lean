/-
Specification of an ordered set, independent of every model.

The abstract state of a set is a predicate on keys.  For every API call of the
set types of the crate the relation `SetOp.Spec` says which result the call must
return and which keys are in the set afterwards.
-/
import Verif.Spec.OrdMap

namespace Verif.Spec

/-- The API calls shared by `AvlSet`, `RedBlackSet`, `SplaySet`, `TreapSet`, `SkipSet` (`RadixSet` has no
`floor` and `ceil`).  `iter` is `iter().collect()`. -/
inductive SetOp (K : Type) where
  | insert (k : K)
  | remove (k : K)
  | contains (k : K)
  | floor (k : K)
  | ceil (k : K)
  | min
  | max
  | len
  | isEmpty
  | iter
  | clear

/-- Results of API calls. -/
inductive SetRes (K : Type) where
  | key (o : Option K)
  | bool (b : Bool)
  | num (n : Nat)
  | list (l : List K)
  | unit
  deriving DecidableEq

/-- Abstract set. -/
abbrev ASet (K : Type) := K → Prop

variable {K : Type} [LinearOrder K]

/-- `l` lists exactly the elements, in strictly ascending order. -/
def ListsSet (s : ASet K) (l : List K) : Prop := l.Pairwise (· < ·) ∧ ∀ k, k ∈ l ↔ s k

/-- The element `k` if it is in the set, else nothing. -/
def IsIt (s : ASet K) (k : K) (o : Option K) : Prop := (s k → o = some k) ∧ (¬ s k → o = none)

/-- What each API call must do: old state, result, new state. -/
def SetOp.Spec : SetOp K → ASet K → SetRes K → ASet K → Prop
  | .insert k, s, r, s' => (∃ o, r = .key o ∧ IsIt s k o) ∧ ∀ x, s' x ↔ x = k ∨ s x
  | .remove k, s, r, s' => (∃ o, r = .key o ∧ IsIt s k o) ∧ ∀ x, s' x ↔ x ≠ k ∧ s x
  | .contains k, s, r, s' => (∃ b, r = .bool b ∧ (b = true ↔ s k)) ∧ s' = s
  | .floor k, s, r, s' => (∃ o, r = .key o ∧ IsGreatestKey (fun x => s x ∧ x ≤ k) o) ∧ s' = s
  | .ceil k, s, r, s' => (∃ o, r = .key o ∧ IsLeastKey (fun x => s x ∧ k ≤ x) o) ∧ s' = s
  | .min, s, r, s' => (∃ o, r = .key o ∧ IsLeastKey s o) ∧ s' = s
  | .max, s, r, s' => (∃ o, r = .key o ∧ IsGreatestKey s o) ∧ s' = s
  | .len, s, r, s' => (∃ l, ListsSet s l ∧ r = .num l.length) ∧ s' = s
  | .isEmpty, s, r, s' => (∃ b, r = .bool b ∧ (b = true ↔ ∀ k, ¬ s k)) ∧ s' = s
  | .iter, s, r, s' => (∃ l, ListsSet s l ∧ r = .list l) ∧ s' = s
  | .clear, _, r, s' => r = .unit ∧ ∀ x, ¬ s' x

/-- A history (calls with their results) that an abstract set can show when it starts as `s` and ends as
`s'`. -/
inductive SetHistory : ASet K → List (SetOp K × SetRes K) → ASet K → Prop where
  | nil (s) : SetHistory s [] s
  | cons {s s₁ s₂ op r h} : op.Spec s r s₁ → SetHistory s₁ h s₂ → SetHistory s ((op, r) :: h) s₂

/-- An implementation of the set API as a state machine; `step` returns `none` if the call panics. -/
structure SetImpl (K : Type) where
  State : Type
  Draw : Type
  empty : State
  step : State → SetOp K → Draw → Option (State × SetRes K)

/-- Run a list of calls, collecting call/result pairs; `none` if some call panics. -/
def SetImpl.run {K : Type} (I : SetImpl K) : I.State → List (SetOp K × I.Draw) →
    Option (I.State × List (SetOp K × SetRes K))
  | s, [] => some (s, [])
  | s, (op, d) :: ops => do
    let (s₁, r) ← I.step s op d
    let (s₂, h) ← I.run s₁ ops
    return (s₂, (op, r) :: h)

/-- From state `s` on, the implementation behaves as an ordered set whose elements now are `a`. -/
def SetImpl.Represents (I : SetImpl K) (s : I.State) (a : ASet K) : Prop :=
  ∀ ops : List (SetOp K × I.Draw), ∃ s' h a',
    I.run s ops = some (s', h) ∧ h.map (·.1) = ops.map (·.1) ∧ SetHistory a h a'

/-- The implementation behaves as an ordered set on every history: no call panics, whatever numbers are
drawn, and the results are those of an abstract set. -/
def SetImpl.Correct (I : SetImpl K) : Prop := I.Represents I.empty (fun _ => False)

end Verif.Spec
