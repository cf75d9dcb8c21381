/- Specification of a map that may lose sight of entries, independent of the models (C90).

The entries are in two groups: those that iteration shows, and those that it does not show (any more).  Entries of the
second group may still be found by other calls.  No entry is ever in both groups, made up or doubled. -/
import Verif.Spec.Panic
import Mathlib.Data.Multiset.AddSub

namespace Verif.Spec

variable {K V : Type}

/-- The entries of the map: those that iteration shows and those that it does not show. -/
structure Scattered (K V : Type) where
  seen : Multiset (K × V)
  lost : Multiset (K × V)

namespace Scattered

/-- The empty map. -/
def empty : Scattered K V := ⟨0, 0⟩

/-- The number of entries. -/
def count (σ : Scattered K V) : Nat := Multiset.card σ.seen + Multiset.card σ.lost

/-- At most one entry. -/
def one (o : Option (K × V)) : Multiset (K × V) := o.toList

/-- In the group that iteration shows, `out` is replaced by `inn`. -/
def SwapSeen (out inn : Multiset (K × V)) (σ σ' : Scattered K V) : Prop :=
  ∃ rest, σ.seen = out + rest ∧ σ'.seen = inn + rest ∧ σ'.lost = σ.lost

/-- In the other group, `out` is replaced by `inn`. -/
def SwapLost (out inn : Multiset (K × V)) (σ σ' : Scattered K V) : Prop :=
  ∃ rest, σ.lost = out + rest ∧ σ'.lost = inn + rest ∧ σ'.seen = σ.seen

variable [LinearOrder K]

/-- All keys that iteration does not show are greater than `k`. -/
def Sound (σ : Scattered K V) (k : K) : Prop := ∀ e ∈ σ.lost, k < e.1

/-- `out` is replaced by `inn`; in the group that iteration shows, if `k` is smaller than all keys of the other. -/
def Swap (k : K) (out inn : Multiset (K × V)) (σ σ' : Scattered K V) : Prop :=
  SwapSeen out inn σ σ' ∨ SwapLost out inn σ σ' ∧ ¬ σ.Sound k

/-- `o` is an entry with key `k`, or nothing; if nothing, and `k` is smaller than all keys that iteration does not
show, then there is no entry with key `k`. -/
def Answer (σ : Scattered K V) (k : K) (o : Option (K × V)) : Prop :=
  (∀ e ∈ o, e.1 = k ∧ (e ∈ σ.seen ∨ e ∈ σ.lost ∧ ¬ σ.Sound k)) ∧ (o = none → σ.Sound k → ∀ e ∈ σ.seen, e.1 ≠ k)

/-- What a call that returns does. -/
def Ret : MapOp K V → Scattered K V → MapRes K V → Scattered K V → Prop
  | .insert k v, σ, r, σ' => ∃ o : Option (K × V), r = .pair o ∧ σ.Answer k o ∧ Swap k (one o) {(k, v)} σ σ'
  | .remove k, σ, r, σ' => ∃ o : Option (K × V), r = .pair o ∧ σ.Answer k o ∧ Swap k (one o) 0 σ σ'
  | .get k, σ, r, σ' => ∃ o : Option (K × V), r = .val (o.map (·.2)) ∧ σ.Answer k o ∧ σ' = σ
  | .containsKey k, σ, r, σ' => ∃ o : Option (K × V), r = .bool o.isSome ∧ σ.Answer k o ∧ σ' = σ
  | .getMut k f, σ, r, σ' => ∃ o : Option (K × V), r = .val (o.map (·.2)) ∧ σ.Answer k o ∧
      Swap k (one o) (one (o.map fun e => (e.1, f e.2))) σ σ'
  | .floor k, σ, r, σ' => ∃ o : Option (K × V), r = .key (o.map (·.1)) ∧ (∀ e ∈ o, e.1 ≤ k ∧ (e ∈ σ.seen ∨ e ∈ σ.lost)) ∧
      (σ.Sound k → ∀ e ∈ σ.seen, e.1 ≤ k → ∃ f ∈ o, e.1 ≤ f.1) ∧ σ' = σ
  | .ceil k, σ, r, σ' => ∃ o : Option (K × V), r = .key (o.map (·.1)) ∧ (∀ e ∈ o, k ≤ e.1 ∧ (e ∈ σ.seen ∨ e ∈ σ.lost)) ∧
      (σ.Sound k → (∀ e ∈ o, e ∈ σ.seen) ∧ ∀ e ∈ σ.seen, k ≤ e.1 → ∃ f ∈ o, f.1 ≤ e.1) ∧ σ' = σ
  | .min, σ, r, σ' => ∃ o : Option (K × V), r = .key (o.map (·.1)) ∧ (∀ e ∈ o, e ∈ σ.seen) ∧ (∀ e ∈ σ.seen, ∃ f ∈ o, f.1 ≤ e.1) ∧ σ' = σ
  | .max, σ, r, σ' => ∃ o : Option (K × V), r = .key (o.map (·.1)) ∧ (∀ e ∈ o, e ∈ σ.seen ∨ e ∈ σ.lost) ∧
      (σ.lost = 0 → ∀ e ∈ σ.seen, ∃ f ∈ o, e.1 ≤ f.1) ∧ σ' = σ
  | .len, σ, r, σ' => r = .num σ.count ∧ σ' = σ
  | .isEmpty, σ, r, σ' => r = .bool (σ.count == 0) ∧ σ' = σ
  | .iter, σ, r, σ' => ∃ l, r = .list l ∧ l.Pairwise (fun a b => a.1 < b.1) ∧ (l : Multiset (K × V)) = σ.seen ∧ σ' = σ
  | .clear, _, r, σ' => r = .unit ∧ σ' = empty

omit [LinearOrder K] in
/-- What a call leaves in which a comparison panics: the entry that was to be inserted is among those that iteration
does not show, otherwise nothing has changed. -/
def Left : MapOp K V → Scattered K V → Scattered K V → Prop
  | .insert k v, σ, σ' => σ' = ⟨σ.seen, (k, v) ::ₘ σ.lost⟩
  | .remove _, σ, σ' => σ' = σ
  | .get _, σ, σ' => σ' = σ
  | .containsKey _, σ, σ' => σ' = σ
  | .getMut _ _, σ, σ' => σ' = σ
  | .floor _, σ, σ' => σ' = σ
  | .ceil _, σ, σ' => σ' = σ
  | _, _, _ => False

end Scattered

/-! ### Histories, without a state -/

/-- A history of calls and their outcomes (`none`: a comparison panicked). -/
abbrev PanicLog (K V : Type) := List (MapOp K V × Option (MapRes K V))

/-- The entries that `insert` was called with. -/
def PanicLog.inserted : PanicLog K V → Multiset (K × V)
  | [] => 0
  | (.insert k v, _) :: h => (k, v) ::ₘ PanicLog.inserted h
  | _ :: h => PanicLog.inserted h

/-- The entries that were handed back by `insert` and `remove`. -/
def PanicLog.returned : PanicLog K V → Multiset (K × V)
  | [] => 0
  | (_, some (.pair (some e))) :: h => e ::ₘ PanicLog.returned h
  | _ :: h => PanicLog.returned h

/-- Whether the call changes entries in another way than by adding the one inserted and handing one back. -/
def MapOp.rewrites : MapOp K V → Bool
  | .clear => true
  | .getMut _ _ => true
  | _ => false

/-- The value of `k` according to the calls that returned, starting with `o`. -/
def PanicLog.value [DecidableEq K] (k : K) : PanicLog K V → Option V → Option V
  | [], o => o
  | (.insert k' v, some _) :: h, o => PanicLog.value k h (if k' = k then some v else o)
  | (.remove k', some _) :: h, o => PanicLog.value k h (if k' = k then none else o)
  | (.getMut k' f, some _) :: h, o => PanicLog.value k h (if k' = k then o.map f else o)
  | (.clear, some _) :: h, _ => PanicLog.value k h none
  | _ :: h, o => PanicLog.value k h o

end Verif.Spec
