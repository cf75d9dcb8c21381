/- Specification of a typed allocator, independent of the model: the abstract state is the partial function
from handles to the values they hold. -/

namespace Verif.Spec

/-- API calls of `TypedArena`.  `getMut h f` is a `get_mut(h)` (or `arena[h] = ..`) whose reference, if
any, is used to replace the value `x` by `f x`; `index h` is `arena[h]`. -/
inductive HeapOp (H V : Type) where
  | allocate (v : V)
  | free (h : H)
  | get (h : H)
  | getMut (h : H) (f : V → V)
  | index (h : H)

/-- Results. -/
inductive HeapRes (H V : Type) where
  | handle (h : H)
  | val (v : V)
  | opt (o : Option V)
  deriving DecidableEq

/-- The live handles and their values. -/
abbrev Heap (H V : Type) := H → Option V

variable {H V : Type} [DecidableEq H]

/-- Point update. -/
def Heap.set (m : Heap H V) (h : H) (o : Option V) : Heap H V := fun x => if x = h then o else m x

/-- What each call must do: old heap, outcome (`none` is a panic, otherwise result and new heap).
An allocation may choose any handle that is not live. -/
def HeapOp.Spec (m : Heap H V) : HeapOp H V → Option (HeapRes H V × Heap H V) → Prop
  | .allocate v, o => ∃ h, m h = none ∧ o = some (.handle h, m.set h (some v))
  | .free h, o => o = (m h).map fun v => (.val v, m.set h none)
  | .get h, o => o = some (.opt (m h), m)
  | .getMut h f, o => o = some (.opt (m h), m.set h ((m h).map f))
  | .index h, o => o = (m h).map fun v => (.val v, m)

/-- Calls with their outcomes, as a heap can show them; a panic (`none`) ends the history. -/
inductive HeapHistory : Heap H V → List (HeapOp H V) → List (Option (HeapRes H V)) → Heap H V → Prop where
  | nil (m) : HeapHistory m [] [] m
  | cons {m m₁ m₂ op r ops rs} : op.Spec m (some (r, m₁)) → HeapHistory m₁ ops rs m₂ →
      HeapHistory m (op :: ops) (some r :: rs) m₂
  | panic {m op ops} : op.Spec m none → HeapHistory m (op :: ops) [none] m

end Verif.Spec
