/- Specification of a sequence container, independent of every model: the abstract state is a plain list,
and `SeqOp.exec` says for every API call of `TreapList` and `SkipList` whether it panics (`none`) and
otherwise what it returns and what the list is afterwards. -/

namespace Verif.Spec

/-- API calls shared by `TreapList` and `SkipList`.  `getMut i f` is a `get_mut(i)` (or `list[i] = ..`)
whose reference is used to replace the value `x` by `f x`; `iter n` is `n` calls of `next()` on a fresh
`iter()` (or `into_iter()`); `iterMut fs` calls `next()` on a fresh `iter_mut()` once for every function
of `fs`, each time writing through the returned reference. -/
inductive SeqOp (V : Type) where
  | insert (i : Nat) (v : V)
  | remove (i : Nat)
  | pushFront (v : V)
  | pushBack (v : V)
  | popFront
  | popBack
  | get (i : Nat)
  | index (i : Nat)
  | getMut (i : Nat) (f : V → V)
  | len
  | isEmpty
  | clear
  | iter (n : Nat)
  | iterMut (fs : List (V → V))

/-- Results of API calls. -/
inductive SeqRes (V : Type) where
  | unit
  | val (v : V)
  | opt (o : Option V)
  | num (n : Nat)
  | bool (b : Bool)
  | opts (l : List (Option V))
  deriving DecidableEq

variable {V : Type}

/-- Remove position `i`. -/
def removeAt (l : List V) (i : Nat) : Option (List V × SeqRes V) :=
  match l[i]? with
  | some v => some (l.take i ++ l.drop (i + 1), .val v)
  | none => none

/-- Insert before position `i`. -/
def insertAt (l : List V) (i : Nat) (v : V) : Option (List V × SeqRes V) :=
  if i ≤ l.length then some (l.take i ++ v :: l.drop i, .unit) else none

/-- Update the `i`-th element with the `i`-th function, as far as there are functions. -/
def updateEach : List (V → V) → List V → List V
  | f :: fs, v :: l => f v :: updateEach fs l
  | _, l => l

/-- What each call must do: `none` is a panic. -/
def SeqOp.exec (l : List V) : SeqOp V → Option (List V × SeqRes V)
  | .insert i v => insertAt l i v
  | .remove i => removeAt l i
  | .pushFront v => some (v :: l, .unit)
  | .pushBack v => some (l ++ [v], .unit)
  | .popFront => removeAt l 0
  | .popBack => if l = [] then none else removeAt l (l.length - 1)
  | .get i => some (l, .opt l[i]?)
  | .index i => (l[i]?).map fun v => (l, .val v)
  | .getMut i f => some (l.modify i f, .opt l[i]?)
  | .len => some (l, .num l.length)
  | .isEmpty => some (l, .bool l.isEmpty)
  | .clear => some ([], .unit)
  | .iter n => some (l, .opts ((List.range n).map fun i => l[i]?))
  | .iterMut fs => some (updateEach fs l, .opts ((List.range fs.length).map fun i => l[i]?))

/-- The results of a sequence of calls on a plain list; a panic (`none`) ends the sequence. -/
def seqRun : List V → List (SeqOp V) → List (Option (SeqRes V))
  | _, [] => []
  | l, op :: ops =>
    match op.exec l with
    | none => [none]
    | some (l', r) => some r :: seqRun l' ops

/-- An implementation of the API (`none` is a panic); `Draw` is a random number. -/
structure SeqImpl (V : Type) where
  State : Type
  Draw : Type
  empty : State
  step : State → SeqOp V → Draw → Option (State × SeqRes V)

/-- The results of a sequence of calls on the implementation; a panic ends the sequence. -/
def SeqImpl.run (I : SeqImpl V) : I.State → List (SeqOp V × I.Draw) → List (Option (SeqRes V))
  | _, [] => []
  | s, (op, d) :: ops =>
    match I.step s op d with
    | none => [none]
    | some (s', r) => some r :: I.run s' ops

/-- From state `s` on the implementation returns (and panics) exactly as the plain list `l` would. -/
def SeqImpl.Represents (I : SeqImpl V) (s : I.State) (l : List V) : Prop :=
  ∀ ops : List (SeqOp V × I.Draw), I.run s ops = seqRun l (ops.map (·.1))

/-- A simulation by lists. -/
structure SeqSim (I : SeqImpl V) where
  rel : I.State → List V → Prop
  empty : rel I.empty []
  step : ∀ s l op d, rel s l →
    (I.step s op d).map (·.2) = (op.exec l).map (·.2) ∧
      ∀ s' r l' r', I.step s op d = some (s', r) → op.exec l = some (l', r') → rel s' l'

theorem SeqSim.represents {I : SeqImpl V} (S : SeqSim I) {s : I.State} {l : List V} (h : S.rel s l) :
    I.Represents s l := by
  intro ops
  induction ops generalizing s l with
  | nil => rfl
  | cons p ops ih =>
    obtain ⟨op, d⟩ := p
    obtain ⟨h1, h2⟩ := S.step s l op d h
    simp only [SeqImpl.run, List.map_cons, seqRun]
    cases h3 : I.step s op d with
    | none =>
      rw [h3] at h1
      cases h4 : op.exec l with
      | none => rfl
      | some q => rw [h4] at h1; simp at h1
    | some p =>
      rw [h3] at h1
      cases h4 : op.exec l with
      | none => rw [h4] at h1; simp at h1
      | some q =>
        rw [h4] at h1
        obtain ⟨s', r⟩ := p
        obtain ⟨l', r'⟩ := q
        simp only [Option.map_some, Option.some.injEq] at h1
        subst h1
        simp only
        rw [ih (h2 s' r l' r h3 h4)]

/-- The contents are determined by the behaviour. -/
theorem seqRepresents_unique {I : SeqImpl V} (d : I.Draw) {s : I.State} {l l' : List V}
    (h : I.Represents s l) (h' : I.Represents s l') : l = l' := by
  refine List.ext_getElem? fun i => ?_
  have h1 := h [(.get i, d)]
  have h2 := h' [(.get i, d)]
  rw [h1] at h2
  simpa [seqRun, SeqOp.exec] using h2

end Verif.Spec
