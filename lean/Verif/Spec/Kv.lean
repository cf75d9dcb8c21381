/-
Specification of the key-value store `LsmMap`, independent of the model: its calls, and the contents after a list
of calls.
-/
import Verif.Spec.OrdMap

namespace Verif.Spec

/-- The API calls of `LsmMap`.  `iter` is `iter()` collected into a list; `hold` is an `iter()` whose iterator is
kept alive (its result is the list of pairs the iterator yields) and `release` drops one such iterator; `reopen`
is `flush()`, dropping the map, and opening its directory again. -/
inductive KvOp (K V : Type) where
  | insert (k : K) (v : V)
  | remove (k : K)
  | get (k : K)
  | containsKey (k : K)
  | lenHint
  | len
  | isEmpty
  | min
  | max
  | iter
  | hold
  | release
  | flush
  | clear
  | reopen
  deriving DecidableEq

/-- Results of the calls. -/
inductive KvRes (K V : Type) where
  | unit
  | val (o : Option V)
  | bool (b : Bool)
  | num (n : Nat)
  | key (o : Option K)
  | list (l : List (K × V))
  deriving DecidableEq

variable {K V : Type} [DecidableEq K]

/-- The effect of a call on the contents. -/
def KvOp.apply (m : K → Option V) : KvOp K V → K → Option V
  | .insert k v => fun x => if x = k then some v else m x
  | .remove k => fun x => if x = k then none else m x
  | .clear => fun _ => none
  | _ => m

/-- The calls that write everything in memory to the disk, or discard it. -/
def KvOp.Settles {K V : Type} : KvOp K V → Prop
  | .len | .isEmpty | .iter | .hold | .flush | .clear | .reopen => True
  | _ => False

/-- The calls that read the contents exactly (all but `len_hint`, which is a bound, and `min` and `max`). -/
def KvOp.Reads {K V : Type} : KvOp K V → Prop
  | .get _ | .containsKey _ | .len | .isEmpty | .iter | .hold => True
  | _ => False

/-- The contents after a list of calls on a new map. -/
def contents (ops : List (KvOp K V)) : K → Option V := ops.foldl KvOp.apply fun _ => none

end Verif.Spec

namespace Verif.Spec

variable {K V : Type} [LinearOrder K]

/-- The answer that a call must give when the contents are `m`. -/
def KvOp.Answer (m : K → Option V) : KvOp K V → KvRes K V → Prop
  | .get k, r => r = .val (m k)
  | .containsKey k, r => r = .bool (m k).isSome
  | .lenHint, r => ∃ n, r = .num n ∧ ∀ ks : List K, ks.Nodup → (∀ k ∈ ks, (m k).isSome) → ks.length ≤ n
  | .len, r => ∃ l, Lists m l ∧ r = .num l.length
  | .isEmpty, r => ∃ b, r = .bool b ∧ (b = true ↔ ∀ k, m k = none)
  | .min, r => ∃ o, r = .key o ∧ IsLeastKey (fun k => (m k).isSome = true) o
  | .max, r => ∃ o, r = .key o ∧ IsGreatestKey (fun k => (m k).isSome = true) o
  | .iter, r => ∃ l, Lists m l ∧ r = .list l
  | .hold, r => ∃ l, Lists m l ∧ r = .list l
  | _, r => r = .unit

end Verif.Spec
