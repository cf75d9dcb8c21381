/- Specification of an ordered map whose keys may compare equal without being the same (C82): keys are compared by
their rank in a linear order, and it can be seen which of several keys of one rank is stored.  Independent of the
models. -/
import Verif.Spec.LawlessTree

namespace Verif.Spec

variable {K V L : Type}

/-- Calls; a key that is looked for only is given as such. -/
inductive RankOp (K V : Type) where
  | insert (k : K) (v : V)
  | remove (k : K)
  | get (k : K)
  | getMut (k : K) (f : V → V)
  | floor (k : K)
  | ceil (k : K)
  | min
  | max
  | len
  | iter
  | clear

/-- The state of a map: for every rank at most one entry. -/
abbrev RMap (L K V : Type) := L → Option (K × V)

/-- The map with no entry. -/
def RMap.empty : RMap L K V := fun _ => none

section
variable [LinearOrder L]

/-- Point update. -/
def RMap.set (m : RMap L K V) (q : L) (o : Option (K × V)) : RMap L K V := fun x => if x = q then o else m x

/-- `l` lists exactly the entries of `m`, by ascending rank. -/
def RMap.Lists (rank : K → L) (m : RMap L K V) (l : List (K × V)) : Prop :=
  l.Pairwise (fun a b => rank a.1 < rank b.1) ∧ ∀ e, e ∈ l ↔ m (rank e.1) = some e

/-- `o` is the key of the entry with the greatest rank that satisfies `P`. -/
def RMap.Greatest (rank : K → L) (m : RMap L K V) (P : L → Prop) : Option K → Prop
  | none => ∀ q, P q → m q = none
  | some k => P (rank k) ∧ (∃ v, m (rank k) = some (k, v)) ∧ ∀ q, P q → m q ≠ none → q ≤ rank k

/-- `o` is the key of the entry with the least rank that satisfies `P`. -/
def RMap.Least (rank : K → L) (m : RMap L K V) (P : L → Prop) : Option K → Prop
  | none => ∀ q, P q → m q = none
  | some k => P (rank k) ∧ (∃ v, m (rank k) = some (k, v)) ∧ ∀ q, P q → m q ≠ none → rank k ≤ q

/-- What each call must do: old state, result, new state.  `insert` replaces both the key and the value and returns the
old ones; `remove`, `floor`, `ceil`, `min`, `max` and `iter` return the keys that are stored, not the ones asked for;
`get_mut` leaves the key. -/
def RankOp.Spec (rank : K → L) : RankOp K V → RMap L K V → LRes K V → RMap L K V → Prop
  | .insert k v, m, r, m' => r = .pair (m (rank k)) ∧ m' = m.set (rank k) (some (k, v))
  | .remove k, m, r, m' => r = .pair (m (rank k)) ∧ m' = m.set (rank k) none
  | .get k, m, r, m' => r = .val ((m (rank k)).map (·.2)) ∧ m' = m
  | .getMut k f, m, r, m' => r = .val ((m (rank k)).map (·.2)) ∧
      m' = m.set (rank k) ((m (rank k)).map fun e => (e.1, f e.2))
  | .floor k, m, r, m' => (∃ o, r = .key o ∧ m.Greatest rank (· ≤ rank k) o) ∧ m' = m
  | .ceil k, m, r, m' => (∃ o, r = .key o ∧ m.Least rank (rank k ≤ ·) o) ∧ m' = m
  | .min, m, r, m' => (∃ o, r = .key o ∧ m.Least rank (fun _ => True) o) ∧ m' = m
  | .max, m, r, m' => (∃ o, r = .key o ∧ m.Greatest rank (fun _ => True) o) ∧ m' = m
  | .len, m, r, m' => (∃ l, m.Lists rank l ∧ r = .num l.length) ∧ m' = m
  | .iter, m, r, m' => (∃ l, m.Lists rank l ∧ r = .list l) ∧ m' = m
  | .clear, _, r, m' => r = .unit ∧ m' = RMap.empty

/-- A history of calls with their results. -/
inductive RHistory (rank : K → L) : RMap L K V → List (RankOp K V × LRes K V) → RMap L K V → Prop where
  | nil (m) : RHistory rank m [] m
  | cons {m m₁ m₂ op r h} : op.Spec rank m r m₁ → RHistory rank m₁ h m₂ → RHistory rank m ((op, r) :: h) m₂

/-- The answers of the comparisons for the argument `k`. -/
def TAnswers.ranked (rank : K → L) (k : K) : TAnswers K :=
  ⟨fun _ x => if rank k < rank x then .lt else if rank x < rank k then .gt else .eq,
    fun _ x => decide (rank k < rank x), fun _ x => decide (rank k = rank x)⟩

/-- The call with the answers of its comparisons, for the search trees. -/
def RankOp.call (rank : K → L) : RankOp K V → TCall K V
  | .insert k v => .insert k v (.ranked rank k)
  | .remove k => .remove (.ranked rank k)
  | .get k => .get (.ranked rank k)
  | .getMut k f => .getMut (.ranked rank k) f
  | .floor k => .floor (.ranked rank k)
  | .ceil k => .ceil (.ranked rank k)
  | .min => .min
  | .max => .max
  | .len => .len
  | .iter => .iter
  | .clear => .clear

/-- The answers of the comparisons for the argument `k`. -/
def Answers.ranked (rank : K → L) (k : K) : Answers K :=
  ⟨fun _ x => decide (rank x < rank k), fun _ x => decide (rank x = rank k), fun _ x => decide (rank x ≤ rank k)⟩

/-- The call with the answers of its comparisons, for the skip list. -/
def RankOp.lcall (rank : K → L) : RankOp K V → LCall K V
  | .insert k v => .insert k v (.ranked rank k)
  | .remove k => .remove (.ranked rank k)
  | .get k => .get (.ranked rank k)
  | .getMut k f => .getMut (.ranked rank k) f
  | .floor k => .floor (.ranked rank k)
  | .ceil k => .ceil (.ranked rank k)
  | .min => .min
  | .max => .max
  | .len => .len
  | .iter => .iter
  | .clear => .clear

end

/-- Carrying out calls one after the other (`none` is a panic). -/
def runRanked {S D : Type} (step : S → RankOp K V → D → Option (S × LRes K V)) :
    S → List (RankOp K V × D) → Option (S × List (RankOp K V × LRes K V))
  | s, [] => some (s, [])
  | s, (op, d) :: ops =>
    match step s op d with
    | none => none
    | some (s', r) =>
      match runRanked step s' ops with
      | none => none
      | some (s'', h) => some (s'', (op, r) :: h)

/-- From this state on no call panics, and the results are those of a map with one entry per rank that holds `m`. -/
def RankRepresents {S D : Type} [LinearOrder L] (rank : K → L) (step : S → RankOp K V → D → Option (S × LRes K V))
    (s : S) (m : RMap L K V) : Prop :=
  ∀ ops : List (RankOp K V × D), ∃ s' h m', runRanked step s ops = some (s', h) ∧ h.map (·.1) = ops.map (·.1) ∧
    RHistory rank m h m'

/-- A map type is right for keys that are compared by their rank: no call panics, and the results are those of a map with
one entry per rank, which is empty at first. -/
def RankCorrect {S D : Type} [LinearOrder L] (rank : K → L) (empty : S)
    (step : S → RankOp K V → D → Option (S × LRes K V)) : Prop := RankRepresents rank step empty RMap.empty

/-- The set operations: in each the entries of the left map win, with their keys. -/
def RMap.union (l r : RMap L K V) : RMap L K V := fun q => (l q).or (r q)
def RMap.intersection (l r : RMap L K V) : RMap L K V := fun q => if (r q).isSome then l q else none
def RMap.difference (l r : RMap L K V) : RMap L K V := fun q => if (r q).isSome then none else l q
def RMap.symmetricDifference (l r : RMap L K V) : RMap L K V := fun q =>
  if (r q).isSome then (if (l q).isSome then none else r q) else l q

end Verif.Spec
