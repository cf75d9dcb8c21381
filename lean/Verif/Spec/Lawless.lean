/- What a map may do when the comparisons of its keys obey no law: the answers may be wrong, but every entry that was
put in is there until it is handed out, once. -/

namespace Verif.Spec

/-- What the comparisons of stored keys with the argument of a call answer: `<`, `==`, `<=`.  The number says how far the
call is (for a skip list, on which level), so that the answers may change while the call runs. -/
structure Answers (K : Type) where
  lt : Nat → K → Bool
  eq : Nat → K → Bool
  le : Nat → K → Bool

/-- The answers do not change during the call. -/
def Answers.Steady {K : Type} (c : Answers K) : Prop :=
  ∀ i k, c.lt i k = c.lt 0 k ∧ c.eq i k = c.eq 0 k ∧ c.le i k = c.le 0 k

/-- Calls with the answers of their comparisons. -/
inductive LCall (K V : Type) where
  | insert (k : K) (v : V) (c : Answers K)
  | remove (c : Answers K)
  | get (c : Answers K)
  | getMut (c : Answers K) (f : V → V)
  | floor (c : Answers K)
  | ceil (c : Answers K)
  | min
  | max
  | len
  | iter
  | clear

/-- Their results. -/
inductive LRes (K V : Type) where
  | pair (o : Option (K × V))
  | val (o : Option V)
  | key (o : Option K)
  | num (n : Nat)
  | list (l : List (K × V))
  | unit
  deriving DecidableEq

variable {K V : Type}

/-- The answers in a call, if it has any, do not change while it runs. -/
def LCall.Steady : LCall K V → Prop
  | .insert _ _ c => c.Steady
  | .remove c => c.Steady
  | .get c => c.Steady
  | .getMut c _ => c.Steady
  | .floor c => c.Steady
  | .ceil c => c.Steady
  | _ => True

/-- The calls that take entries out or put them in with the help of comparisons. -/
def LCall.Edits : LCall K V → Prop
  | .insert .. => True
  | .remove _ => True
  | _ => False

/-- What a call may do to the list `l` of the entries of the map: `r` is returned and `l'` are the entries
afterwards. -/
def LCall.Spec : LCall K V → List (K × V) → LRes K V → List (K × V) → Prop
  | .insert k v c, l, r, l' => ∃ a o b, r = .pair o ∧ l = a ++ o.toList ++ b ∧ l' = a ++ (k, v) :: b ∧
      ∀ e, o = some e → c.eq 0 e.1 = true
  | .remove c, l, r, l' => ∃ a o b, r = .pair o ∧ l = a ++ o.toList ++ b ∧ l' = a ++ b ∧
      ∀ e, o = some e → c.eq 0 e.1 = true
  | .get c, l, r, l' => l' = l ∧ ∃ o, r = .val o ∧ ∀ v, o = some v → ∃ k i, (k, v) ∈ l ∧ c.eq i k = true
  | .getMut c f, l, r, l' => (r = .val none ∧ l' = l) ∨
      ∃ a k v b i, r = .val (some v) ∧ l = a ++ (k, v) :: b ∧ l' = a ++ (k, f v) :: b ∧ c.eq i k = true
  | .floor c, l, r, l' => l' = l ∧ ∃ o, r = .key o ∧ ∀ k, o = some k → ∃ v i, (k, v) ∈ l ∧ c.le i k = true
  | .ceil c, l, r, l' => l' = l ∧ ∃ o, r = .key o ∧ ∀ k, o = some k → ∃ v, (k, v) ∈ l ∧ c.lt 0 k = false
  | .min, l, r, l' => l' = l ∧ r = .key (l.head?.map (·.1))
  | .max, l, r, l' => l' = l ∧ r = .key (l.getLast?.map (·.1))
  | .len, l, r, l' => l' = l ∧ r = .num l.length
  | .iter, l, r, l' => l' = l ∧ r = .list l
  | .clear, _, r, l' => r = .unit ∧ l' = []

/-- A run of calls: entries before, calls with results, entries after. -/
inductive LHistory : List (K × V) → List (LCall K V × LRes K V) → List (K × V) → Prop where
  | nil (l) : LHistory l [] l
  | cons {l l₁ l₂ op r h} : op.Spec l r l₁ → LHistory l₁ h l₂ → LHistory l ((op, r) :: h) l₂

/-- The entries a call puts in. -/
def LCall.putIn : LCall K V → List (K × V)
  | .insert k v _ => [(k, v)]
  | _ => []

/-- The entries a call hands out for good. -/
def handedOut : LCall K V → LRes K V → List (K × V)
  | .insert .., .pair o => o.toList
  | .remove _, .pair o => o.toList
  | _, _ => []

end Verif.Spec
