/- Specification of maps whose user-supplied comparison may panic, independent of the models.

The client catches the panic (`std::panic::catch_unwind`) and goes on using the map.  Every call gets a number `b`:
its first `b` comparisons of keys return, the next one panics. -/
import Verif.Spec.OrdMap

namespace Verif.Spec

variable {K V : Type} [LinearOrder K]

/-- A map API under panicking comparisons.  `step s op d b` runs the call `op` with random draw `d` when comparison
number `b + 1` of the call panics.  The result is the state left behind with `some r` if the call returned `r` and
`none` if the panic was raised and caught by the client; the outer `none` is any other failure (a failed `expect`,
an underflow, undefined behaviour). -/
structure PanicImpl (K V : Type) where
  State : Type
  Draw : Type
  empty : State
  step : State → MapOp K V → Draw → Nat → Option (State × Option (MapRes K V))

/-- Run a list of calls; the outcomes are in the second component. -/
def PanicImpl.run (I : PanicImpl K V) : I.State → List (MapOp K V × I.Draw × Nat) →
    Option (I.State × List (MapOp K V × Option (MapRes K V)))
  | s, [] => some (s, [])
  | s, (op, d, b) :: ops => do
    let (s₁, r) ← I.step s op d b
    let (s₂, h) ← I.run s₁ ops
    return (s₂, (op, r) :: h)

/-- Histories with caught panics: `R` says what a call that returns does, `D` what a call that panics leaves
behind. -/
inductive PanicHistory {S : Type} (R : MapOp K V → S → MapRes K V → S → Prop) (D : MapOp K V → S → S → Prop) :
    S → List (MapOp K V × Option (MapRes K V)) → S → Prop where
  | nil (σ) : PanicHistory R D σ [] σ
  | ret {σ σ₁ σ₂ op r h} : R op σ r σ₁ → PanicHistory R D σ₁ h σ₂ → PanicHistory R D σ ((op, some r) :: h) σ₂
  | panic {σ σ₁ σ₂ op h} : D op σ σ₁ → PanicHistory R D σ₁ h σ₂ → PanicHistory R D σ ((op, none) :: h) σ₂

/-- Every history, with any comparisons panicking, is explained by `R` and `D`, and nothing else goes wrong. -/
def PanicImpl.Obeys (I : PanicImpl K V) {S : Type} (σ₀ : S) (R : MapOp K V → S → MapRes K V → S → Prop)
    (D : MapOp K V → S → S → Prop) : Prop :=
  ∀ ops : List (MapOp K V × I.Draw × Nat), ∃ s h σ,
    I.run I.empty ops = some (s, h) ∧ h.map (·.1) = ops.map (·.1) ∧ PanicHistory R D σ₀ h σ

/-- All calls of a list satisfy `ok` in the state in which they are made. -/
def PanicImpl.Keeps (I : PanicImpl K V) (ok : I.State → MapOp K V → I.Draw → Nat → Prop) :
    I.State → List (MapOp K V × I.Draw × Nat) → Prop
  | _, [] => True
  | s, (op, d, b) :: ops => ok s op d b ∧ ∀ s' r, I.step s op d b = some (s', r) → I.Keeps ok s' ops

/-- Every history whose calls satisfy `ok`, with any comparisons panicking, is explained by `R` and `D`. -/
def PanicImpl.ObeysIf (I : PanicImpl K V) (ok : I.State → MapOp K V → I.Draw → Nat → Prop) {S : Type} (σ₀ : S)
    (R : MapOp K V → S → MapRes K V → S → Prop) (D : MapOp K V → S → S → Prop) : Prop :=
  ∀ ops : List (MapOp K V × I.Draw × Nat), I.Keeps ok I.empty ops → ∃ s h σ,
    I.run I.empty ops = some (s, h) ∧ h.map (·.1) = ops.map (·.1) ∧ PanicHistory R D σ₀ h σ

/-- The panic safety a client hopes for: a call that panics has happened entirely or not at all. -/
def AllOrNothing (op : MapOp K V) (m m' : AMap K V) : Prop := m' = m ∨ ∃ r, op.Spec m r m'

/-- The contents of a map, and the number that `len()` reports. -/
structure Counted (K V : Type) where
  map : AMap K V
  count : Nat

/-- The empty map. -/
def Counted.empty : Counted K V := ⟨AMap.empty, 0⟩

/-- What a call that returns does: it is the call of an ordered map, and the count is kept up to date. -/
def Counted.Ret : MapOp K V → Counted K V → MapRes K V → Counted K V → Prop
  | .len, σ, r, σ' => r = .num σ.count ∧ σ' = σ
  | .isEmpty, σ, r, σ' => r = .bool (σ.count == 0) ∧ σ' = σ
  | .insert k v, σ, r, σ' => (MapOp.insert k v).Spec σ.map r σ'.map ∧
      σ'.count = if (σ.map k).isSome then σ.count else σ.count + 1
  | .remove k, σ, r, σ' => (MapOp.remove k).Spec σ.map r σ'.map ∧
      σ.count = if (σ.map k).isSome then σ'.count + 1 else σ'.count
  | .clear, σ, r, σ' => MapOp.clear.Spec σ.map r σ'.map ∧ σ'.count = 0
  | op, σ, r, σ' => op.Spec σ.map r σ'.map ∧ σ'.count = σ.count

/-- `AvlMap` and `RedBlackMap` when a comparison panics: `insert` leaves the entries alone but has already counted
the new one; `remove` loses *all* entries, and the count stays; the other calls that compare keys change nothing. -/
def Counted.Uprooted : MapOp K V → Counted K V → Counted K V → Prop
  | .insert _ _, σ, σ' => σ' = ⟨σ.map, σ.count + 1⟩
  | .remove _, σ, σ' => σ' = ⟨AMap.empty, σ.count⟩
  | .get _, σ, σ' => σ' = σ
  | .containsKey _, σ, σ' => σ' = σ
  | .getMut _ _, σ, σ' => σ' = σ
  | .floor _, σ, σ' => σ' = σ
  | .ceil _, σ, σ' => σ' = σ
  | _, _, _ => False

/-- `m'` is what is left of `m` when some of its smallest keys and some of its largest keys are lost; the lost small
keys are smaller than `k`, the lost large ones larger. -/
def Trimmed (k : K) (m m' : AMap K V) : Prop :=
  ∃ A B : K → Prop, (∀ x y, A y → x ≤ y → A x) ∧ (∀ x, A x → x < k) ∧
    (∀ x y, B x → x ≤ y → B y) ∧ (∀ x, B x → k < x) ∧
    (∀ x, A x ∨ B x → m' x = none) ∧ ∀ x, ¬ (A x ∨ B x) → m' x = m x

/-- `SplayMap` when a comparison panics: the calls that restructure the tree lose the parts they have cut off;
`remove` may also lose everything. -/
def Counted.Trims : MapOp K V → Counted K V → Counted K V → Prop
  | .insert k _, σ, σ' => Trimmed k σ.map σ'.map ∧ σ'.count = σ.count + 1
  | .remove k, σ, σ' => (Trimmed k σ.map σ'.map ∨ (σ.map.Has k ∧ σ'.map = AMap.empty)) ∧ σ'.count = σ.count
  | .getMut k _, σ, σ' => Trimmed k σ.map σ'.map ∧ σ'.count = σ.count
  | .get _, σ, σ' => σ' = σ
  | .containsKey _, σ, σ' => σ' = σ
  | .floor _, σ, σ' => σ' = σ
  | .ceil _, σ, σ' => σ' = σ
  | _, _, _ => False

/-- `SkipMap` when a comparison panics (unless `insert` has already linked the new node somewhere): the entries are
left alone, but `insert` has already counted the new one. -/
def Counted.Kept : MapOp K V → Counted K V → Counted K V → Prop
  | .insert _ _, σ, σ' => σ' = ⟨σ.map, σ.count + 1⟩
  | .remove _, σ, σ' => σ' = σ
  | .get _, σ, σ' => σ' = σ
  | .containsKey _, σ, σ' => σ' = σ
  | .getMut _ _, σ, σ' => σ' = σ
  | .floor _, σ, σ' => σ' = σ
  | .ceil _, σ, σ' => σ' = σ
  | _, _, _ => False

/-- `TreapMap`, a call that returns: it is the call of an ordered map, except that `len()` may report too much. -/
def OverLen : MapOp K V → AMap K V → MapRes K V → AMap K V → Prop
  | .len, m, r, m' => (∃ l n, Lists m l ∧ l.length ≤ n ∧ r = .num n) ∧ m' = m
  | op, m, r, m' => op.Spec m r m'

/-- `TreapMap` when a comparison panics: `insert` may lose a run of neighbouring entries around the place of the new
key; the other calls that compare keys change nothing. -/
def HoleAt : MapOp K V → AMap K V → AMap K V → Prop
  | .insert k _, m, m' => ∃ P : K → Prop, (∀ x y z, P x → P z → x ≤ y → y ≤ z → P y) ∧
      (∀ x y, P x → x ≤ y → y ≤ k → P y) ∧ (∀ x y, P x → k ≤ y → y ≤ x → P y) ∧
      (∀ x, P x → m' x = none) ∧ ∀ x, ¬ P x → m' x = m x
  | .remove _, m, m' => m' = m
  | .get _, m, m' => m' = m
  | .containsKey _, m, m' => m' = m
  | .getMut _ _, m, m' => m' = m
  | .floor _, m, m' => m' = m
  | .ceil _, m, m' => m' = m
  | _, _, _ => False

end Verif.Spec
