/-
Specification of an ordered map, independent of every model.

The abstract state of a map is a partial function `K → Option V`.  For every
API call of the map types of the crate the relation `MapOp.Spec` says which
result the call must return and what the abstract state is afterwards.
-/
import Mathlib.Order.Defs.LinearOrder
import Mathlib.Order.Basic

namespace Verif.Spec

/-- The API calls shared by `AvlMap`, `RedBlackMap`, `SplayMap`, `TreapMap`, `SkipMap`.
`getMut k f` is a `get_mut(&k)` whose returned reference (if any) is used to
replace the value `x` by `f x`.  `iter` is `iter().collect()`. -/
inductive MapOp (K V : Type) where
  | insert (k : K) (v : V)
  | remove (k : K)
  | get (k : K)
  | containsKey (k : K)
  | getMut (k : K) (f : V → V)
  | floor (k : K)
  | ceil (k : K)
  | min
  | max
  | len
  | isEmpty
  | iter
  | clear

/-- Results of API calls. -/
inductive MapRes (K V : Type) where
  | pair (o : Option (K × V))
  | val (o : Option V)
  | key (o : Option K)
  | bool (b : Bool)
  | num (n : Nat)
  | list (l : List (K × V))
  | unit
  deriving DecidableEq

/-- Abstract map. -/
abbrev AMap (K V : Type) := K → Option V

variable {K V : Type} [LinearOrder K]

/-- The map with no binding. -/
def AMap.empty : AMap K V := fun _ => none

/-- Point update. -/
def AMap.set (m : AMap K V) (k : K) (o : Option V) : AMap K V :=
  fun x => if x = k then o else m x

/-- `l` lists exactly the bindings of `m`, in strictly ascending key order. -/
def Lists (m : AMap K V) (l : List (K × V)) : Prop :=
  l.Pairwise (fun a b => a.1 < b.1) ∧ ∀ k v, (k, v) ∈ l ↔ m k = some v

/-- `o` is the greatest key satisfying `P`, if there is one. -/
def IsGreatestKey (P : K → Prop) : Option K → Prop
  | none => ∀ k, ¬ P k
  | some k => P k ∧ ∀ k', P k' → k' ≤ k

/-- `o` is the least key satisfying `P`, if there is one. -/
def IsLeastKey (P : K → Prop) : Option K → Prop
  | none => ∀ k, ¬ P k
  | some k => P k ∧ ∀ k', P k' → k ≤ k'

/-- `m` has a binding for `k`. -/
def AMap.Has (m : AMap K V) (k : K) : Prop := (m k).isSome = true

/-- What each API call must do: old state, result, new state. -/
def MapOp.Spec : MapOp K V → AMap K V → MapRes K V → AMap K V → Prop
  | .insert k v, m, r, m' => r = .pair ((m k).map fun old => (k, old)) ∧ m' = m.set k (some v)
  | .remove k, m, r, m' => r = .pair ((m k).map fun old => (k, old)) ∧ m' = m.set k none
  | .get k, m, r, m' => r = .val (m k) ∧ m' = m
  | .containsKey k, m, r, m' => r = .bool (m k).isSome ∧ m' = m
  | .getMut k f, m, r, m' => r = .val (m k) ∧ m' = m.set k ((m k).map f)
  | .floor k, m, r, m' => (∃ o, r = .key o ∧ IsGreatestKey (fun x => m.Has x ∧ x ≤ k) o) ∧ m' = m
  | .ceil k, m, r, m' => (∃ o, r = .key o ∧ IsLeastKey (fun x => m.Has x ∧ k ≤ x) o) ∧ m' = m
  | .min, m, r, m' => (∃ o, r = .key o ∧ IsLeastKey m.Has o) ∧ m' = m
  | .max, m, r, m' => (∃ o, r = .key o ∧ IsGreatestKey m.Has o) ∧ m' = m
  | .len, m, r, m' => (∃ l, Lists m l ∧ r = .num l.length) ∧ m' = m
  | .isEmpty, m, r, m' => (∃ b, r = .bool b ∧ (b = true ↔ ∀ k, m k = none)) ∧ m' = m
  | .iter, m, r, m' => (∃ l, Lists m l ∧ r = .list l) ∧ m' = m
  | .clear, _, r, m' => r = .unit ∧ m' = AMap.empty

/-- A history (calls with their results) that an abstract map can show when it
starts in state `m` and ends in state `m'`. -/
inductive History : AMap K V → List (MapOp K V × MapRes K V) → AMap K V → Prop where
  | nil (m) : History m [] m
  | cons {m m₁ m₂ op r h} : op.Spec m r m₁ → History m₁ h m₂ → History m ((op, r) :: h) m₂

/-- An implementation of the map API as a state machine.  `Draw` is the type of
random numbers a call may consume (`Unit` if none); `step` returns `none` if
the call panics. -/
structure MapImpl (K V : Type) where
  State : Type
  Draw : Type
  empty : State
  step : State → MapOp K V → Draw → Option (State × MapRes K V)

/-- Run a list of calls, collecting call/result pairs; `none` if some call panics. -/
def MapImpl.run (I : MapImpl K V) : I.State → List (MapOp K V × I.Draw) →
    Option (I.State × List (MapOp K V × MapRes K V))
  | s, [] => some (s, [])
  | s, (op, d) :: ops => do
    let (s₁, r) ← I.step s op d
    let (s₂, h) ← I.run s₁ ops
    return (s₂, (op, r) :: h)

/-- The implementation behaves as an ordered map on every history: no call
panics, whatever numbers are drawn, and the results are those of an abstract map. -/
def MapImpl.Correct (I : MapImpl K V) : Prop :=
  ∀ ops : List (MapOp K V × I.Draw), ∃ s h m,
    I.run I.empty ops = some (s, h) ∧ h.map (·.1) = ops.map (·.1) ∧ History AMap.empty h m

end Verif.Spec

namespace Verif.Spec

variable {K V : Type}

/-- A state that some history from the empty map reaches. -/
def MapImpl.Reachable (I : MapImpl K V) (s : I.State) : Prop :=
  ∃ ops h, I.run I.empty ops = some (s, h)

/-- From state `s` on, the implementation behaves as an ordered map whose current contents are `m`. -/
def MapImpl.Represents [LinearOrder K] (I : MapImpl K V) (s : I.State) (m : AMap K V) : Prop :=
  ∀ ops : List (MapOp K V × I.Draw), ∃ s' h m',
    I.run s ops = some (s', h) ∧ h.map (·.1) = ops.map (·.1) ∧ History m h m'

end Verif.Spec
