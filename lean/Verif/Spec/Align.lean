/- Combining two lists of entries by pairing some of them off: what set operations may do when comparisons answer
anything. -/

namespace Verif.Spec

/-- A place of the combined list: an entry of the left map alone, of the right map alone, or one of each that a
comparison has said to be equal. -/
inductive Slot (E : Type) where
  | left (e : E)
  | right (e : E)
  | both (e e' : E)

namespace Slot

variable {E : Type}

/-- The entry of the left map. -/
def l? : Slot E → Option E
  | left e => some e
  | right _ => none
  | both e _ => some e

/-- The entry of the right map. -/
def r? : Slot E → Option E
  | left _ => none
  | right e => some e
  | both _ e => some e

end Slot

/-- The set operations. -/
inductive PairOp where
  | union
  | intersection
  | difference
  | symmetricDifference
  deriving DecidableEq

/-- What of a place is in the result: of two equal entries the one of the left map, if any. -/
def PairOp.pick {E : Type} : PairOp → Slot E → Option E
  | .union, .left e => some e
  | .union, .right e => some e
  | .union, .both e _ => some e
  | .intersection, .both e _ => some e
  | .intersection, _ => none
  | .difference, .left e => some e
  | .difference, _ => none
  | .symmetricDifference, .left e => some e
  | .symmetricDifference, .right e => some e
  | .symmetricDifference, .both _ _ => none

/-- The left map lists `l`, the right one `r` and the result `res`, all in the order of the places; `Eq` holds of the
paired entries. -/
structure Aligned {E : Type} (op : PairOp) (Eq : E → E → Prop) (l r res : List E) (T : List (Slot E)) : Prop where
  left : T.filterMap Slot.l? = l
  right : T.filterMap Slot.r? = r
  result : T.filterMap op.pick = res
  paired : ∀ e e', Slot.both e e' ∈ T → Eq e e'

end Verif.Spec
