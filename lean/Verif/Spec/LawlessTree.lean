/- What the search-tree maps may do when the comparisons of their keys obey no law: a comparison may answer anything,
differently each time.  Separate from the models. -/
import Verif.Spec.Lawless
import Verif.Spec.OrdMap

namespace Verif.Spec

/-- The answers that the comparisons of the argument of one call get: `argument.cmp(stored)`,
`argument < stored`, `argument == stored`.  The number counts the comparisons of the call, so that even the answers
for one stored key may change during the call. -/
structure TAnswers (K : Type) where
  cmp : Nat → K → Ordering
  lt : Nat → K → Bool
  eq : Nat → K → Bool

variable {K V : Type}

/-- A comparison of the call said once that the argument equals `k`. -/
def TAnswers.SaidEqual (c : TAnswers K) (k : K) : Prop := ∃ i, c.cmp i k = .eq ∨ c.eq i k = true

/-- The three comparisons agree with each other, and their answers depend on the stored key only. -/
def TAnswers.Steady (c : TAnswers K) : Prop :=
  ∀ i k, c.cmp i k = c.cmp 0 k ∧ (c.lt i k = true ↔ c.cmp 0 k = .lt) ∧ (c.eq i k = true ↔ c.cmp 0 k = .eq)

/-- The answers go with the order in which the map lists its entries: the argument is larger than everything before an
entry that it is not smaller than. -/
def TAnswers.FitsOrder (c : TAnswers K) (l : List (K × V)) : Prop :=
  l.Pairwise fun x y => c.cmp 0 y.1 ≠ .lt → c.cmp 0 x.1 = .gt

/-- The answers of an ordered key type for the argument `k`. -/
def TAnswers.lawful [LinearOrder K] (k : K) : TAnswers K :=
  ⟨fun _ x => if k < x then .lt else if x < k then .gt else .eq, fun _ x => decide (k < x), fun _ x => decide (k = x)⟩

/-- Calls with the answers of their comparisons. -/
inductive TCall (K V : Type) where
  | insert (k : K) (v : V) (c : TAnswers K)
  | remove (c : TAnswers K)
  | get (c : TAnswers K)
  | getMut (c : TAnswers K) (f : V → V)
  | floor (c : TAnswers K)
  | ceil (c : TAnswers K)
  | min
  | max
  | len
  | iter
  | clear

/-- The call of an ordered key type. -/
def TCall.ofOp [LinearOrder K] : MapOp K V → Option (TCall K V)
  | .insert k v => some (.insert k v (.lawful k))
  | .remove k => some (.remove (.lawful k))
  | .get k => some (.get (.lawful k))
  | .getMut k f => some (.getMut (.lawful k) f)
  | .floor k => some (.floor (.lawful k))
  | .ceil k => some (.ceil (.lawful k))
  | .min => some .min
  | .max => some .max
  | .len => some .len
  | .iter => some .iter
  | .clear => some .clear
  | .containsKey _ => none
  | .isEmpty => none

/-- The result in the vocabulary of the ordered maps. -/
def LRes.toRes : LRes K V → MapRes K V
  | .pair o => .pair o
  | .val o => .val o
  | .key o => .key o
  | .num n => .num n
  | .list l => .list l
  | .unit => .unit

/-- What a call may do to the list `l` of the entries of the map, in the order of iteration: `r` is returned and `l'`
are the entries afterwards.  No entry gets lost and none appears twice. -/
def TCall.Keeps : TCall K V → List (K × V) → LRes K V → List (K × V) → Prop
  | .insert k v c, l, r, l' => ∃ a o b, r = .pair o ∧ l = a ++ o.toList ++ b ∧ l' = a ++ (k, v) :: b ∧
      ∀ e, o = some e → c.SaidEqual e.1
  | .remove c, l, r, l' => ∃ a o b, r = .pair o ∧ l = a ++ o.toList ++ b ∧ l' = a ++ b ∧
      ∀ e, o = some e → c.SaidEqual e.1
  | .get c, l, r, l' => l' = l ∧ ∃ o, r = .val o ∧ ∀ v, o = some v → ∃ k, (k, v) ∈ l ∧ c.SaidEqual k
  | .getMut c f, l, r, l' => (r = .val none ∧ l' = l) ∨
      ∃ a k v b, r = .val (some v) ∧ l = a ++ (k, v) :: b ∧ l' = a ++ (k, f v) :: b ∧ c.SaidEqual k
  | .floor c, l, r, l' => l' = l ∧ ∃ o, r = .key o ∧ ∀ k, o = some k → ∃ v i, (k, v) ∈ l ∧ c.cmp i k ≠ .lt
  | .ceil c, l, r, l' => l' = l ∧ ∃ o, r = .key o ∧ ∀ k, o = some k → ∃ v i, (k, v) ∈ l ∧ c.cmp i k ≠ .gt
  | .min, l, r, l' => l' = l ∧ r = .key (l.head?.map (·.1))
  | .max, l, r, l' => l' = l ∧ r = .key (l.getLast?.map (·.1))
  | .len, l, r, l' => l' = l ∧ r = .num l.length
  | .iter, l, r, l' => l' = l ∧ r = .list l
  | .clear, _, r, l' => r = .unit ∧ l' = []

/-- As `Keeps`, except that a `remove` that finds something may destroy entries just before it.  The number counts the
entries that have been destroyed: `len()` still counts them. -/
def TCall.Destroys : TCall K V → List (K × V) × Nat → LRes K V → List (K × V) × Nat → Prop
  | .remove c, s, r, s' => ∃ a lost o b, r = .pair o ∧ s.1 = a ++ lost ++ o.toList ++ b ∧ s'.1 = a ++ b ∧
      s'.2 = s.2 + lost.length ∧ (o = none → lost = []) ∧ ∀ e, o = some e → c.SaidEqual e.1
  | .len, s, r, s' => s' = s ∧ r = .num (s.1.length + s.2)
  | .clear, _, r, s' => r = .unit ∧ s' = ([], 0)
  | op, s, r, s' => op.Keeps s.1 r s'.1 ∧ s'.2 = s.2

/-- A run of calls: entries before, calls with results, entries after; every step satisfies `P`. -/
inductive TRuns {S : Type} (P : TCall K V → S → LRes K V → S → Prop) :
    S → List (TCall K V × LRes K V) → S → Prop where
  | nil (s) : TRuns P s [] s
  | cons {s s₁ s₂ op r h} : P op s r s₁ → TRuns P s₁ h s₂ → TRuns P s ((op, r) :: h) s₂

/-- The entries a call puts in. -/
def TCall.putIn : TCall K V → List (K × V)
  | .insert k v _ => [(k, v)]
  | _ => []

/-- The entries a call hands out for good. -/
def TCall.handsOut : TCall K V → LRes K V → List (K × V)
  | .insert .., .pair o => o.toList
  | .remove _, .pair o => o.toList
  | _, _ => []

/-- Calls that neither throw everything away nor change values in place. -/
def TCall.Moves : TCall K V → Prop
  | .clear => False
  | .getMut .. => False
  | _ => True

/-- A map type: its states and its calls (`none` is a panic).  `Draw` is the random number that a call may use. -/
structure TImpl (K V : Type) where
  State : Type
  Draw : Type
  empty : State
  step : State → TCall K V → Draw → Option (State × LRes K V)

/-- Carrying out calls one after the other. -/
def TImpl.run (m : TImpl K V) : m.State → List (TCall K V × m.Draw) →
    Option (m.State × List (TCall K V × LRes K V))
  | s, [] => some (s, [])
  | s, (op, d) :: ops =>
    match m.step s op d with
    | none => none
    | some (s', r) =>
      match TImpl.run m s' ops with
      | none => none
      | some (s'', h) => some (s'', (op, r) :: h)

/-- Entries that were put in are still there or were handed out, once each. -/
theorem TRuns.conserved {l l' : List (K × V)} {h : List (TCall K V × LRes K V)} (hr : TRuns TCall.Keeps l h l')
    (hm : ∀ p ∈ h, p.1.Moves) :
    (l ++ h.flatMap fun p => p.1.putIn).Perm (l' ++ h.flatMap fun p => p.1.handsOut p.2) := by
  induction hr with
  | nil => simp
  | @cons s s₁ s₂ op r h hop _ ih =>
    have ih := ih fun p hp => hm p (List.mem_cons_of_mem _ hp)
    have key : (s ++ op.putIn).Perm (s₁ ++ op.handsOut r) := by
      have hmv := hm (op, r) (List.mem_cons_self ..)
      cases op with
      | insert k v c =>
        obtain ⟨a, o, b, rfl, rfl, rfl, _⟩ := hop
        classical
        rw [List.perm_iff_count]; intro e
        simp only [TCall.putIn, TCall.handsOut, List.count_append, List.count_cons, List.count_nil]; omega
      | remove c =>
        obtain ⟨a, o, b, rfl, rfl, rfl, _⟩ := hop
        classical
        rw [List.perm_iff_count]; intro e
        simp only [TCall.putIn, TCall.handsOut, List.count_append, List.count_nil]; omega
      | clear => exact absurd hmv (by simp [TCall.Moves])
      | getMut c f => exact absurd hmv (by simp [TCall.Moves])
      | get c => obtain ⟨rfl, _⟩ := hop; simp [TCall.putIn, TCall.handsOut]
      | floor c => obtain ⟨rfl, _⟩ := hop; simp [TCall.putIn, TCall.handsOut]
      | ceil c => obtain ⟨rfl, _⟩ := hop; simp [TCall.putIn, TCall.handsOut]
      | min => obtain ⟨rfl, _⟩ := hop; simp [TCall.putIn, TCall.handsOut]
      | max => obtain ⟨rfl, _⟩ := hop; simp [TCall.putIn, TCall.handsOut]
      | len => obtain ⟨rfl, _⟩ := hop; simp [TCall.putIn, TCall.handsOut]
      | iter => obtain ⟨rfl, _⟩ := hop; simp [TCall.putIn, TCall.handsOut]
    classical
    rw [List.perm_iff_count] at key ih ⊢
    intro e
    have h1 := key e
    have h2 := ih e
    simp only [List.flatMap_cons, List.count_append] at h1 h2 ⊢
    omega

/-- A map type all of whose steps satisfy `P` between abstract states satisfies it in every run. -/
theorem TImpl.run_all (m : TImpl K V) {S : Type} (P : TCall K V → S → LRes K V → S → Prop)
    (Good : m.State → S → Prop)
    (hstep : ∀ s a op d, Good s a → ∃ s' r a', m.step s op d = some (s', r) ∧ P op a r a' ∧ Good s' a') :
    ∀ (ops : List (TCall K V × m.Draw)) (s : m.State) (a : S), Good s a →
      ∃ s' h a', m.run s ops = some (s', h) ∧ h.map Prod.fst = ops.map Prod.fst ∧ TRuns P a h a' ∧ Good s' a' := by
  intro ops
  induction ops with
  | nil => intro s a hg; exact ⟨s, [], a, rfl, rfl, .nil a, hg⟩
  | cons p ops ih =>
    intro s a hg
    obtain ⟨op, d⟩ := p
    obtain ⟨s₁, r, a₁, h1, h2, h3⟩ := hstep s a op d hg
    obtain ⟨s₂, h, a₂, h4, h5, h6, h7⟩ := ih s₁ a₁ h3
    exact ⟨s₂, (op, r) :: h, a₂, by simp only [TImpl.run, h1, h4], by simp [h5], .cons h2 h6, h7⟩

end Verif.Spec
