/- Specification of set operations on two lists of entries when the comparisons answer anything, or panic (C78);
independent of the models. -/

namespace Verif.Spec

/-- The set operations: union, difference, symmetric difference (`difference true`). -/
inductive MergeOp where
  | union
  | difference (sym : Bool)
  deriving DecidableEq

/-- How a set operation ends. -/
inductive Outcome (E : Type) where
  /-- It returns the entries `out` and has dropped the entries `dropped`. -/
  | returned (out dropped : List E)
  /-- A comparison panics when `out` has been collected, `dropped` has been dropped, and `left` and `right` remain. -/
  | stopped (out dropped left right : List E)
  /-- It uses a pointer that points to nothing. -/
  | crashed
  deriving DecidableEq

variable {E : Type}

/-- Before that, `o` was collected and `d` was dropped. -/
def Outcome.after (o d : List E) : Outcome E → Outcome E
  | .returned out dropped => .returned (o ++ out) (d ++ dropped)
  | .stopped out dropped l r => .stopped (o ++ out) (d ++ dropped) l r
  | .crashed => .crashed

/-- The operation on the lists of entries of the two maps.  `ans` are the answers of the comparisons of the two front
entries, in the order in which they are asked for; the comparison after the last answer panics.
A difference crashes when it comes to the end of the right list first. -/
def MergeOp.run (op : MergeOp) : List Ordering → List E → List E → Outcome E
  | _, [], r =>
    match op with
    | .difference false => .returned [] r
    | _ => .returned r []
  | _, a :: l, [] =>
    match op with
    | .union => .returned (a :: l) []
    | .difference _ => .crashed
  | [], a :: l, b :: r => .stopped [] [] (a :: l) (b :: r)
  | .eq :: ans, a :: l, b :: r =>
    match op with
    | .union => (op.run ans (a :: l) r).after [] [b]
    | .difference _ => (op.run ans l r).after [] [a, b]
  | .lt :: ans, a :: l, b :: r => (op.run ans l (b :: r)).after [a] []
  | .gt :: ans, a :: l, b :: r =>
    match op with
    | .difference false => (op.run ans (a :: l) r).after [] [b]
    | _ => (op.run ans (a :: l) r).after [b] []

/-- All the entries the outcome speaks of. -/
def Outcome.entries : Outcome E → List E
  | .returned out dropped => out ++ dropped
  | .stopped out dropped l r => out ++ dropped ++ (l ++ r)
  | .crashed => []

theorem Outcome.entries_after (o d : List E) (x : Outcome E) (h : x ≠ .crashed) :
    (x.after o d).entries.Perm (o ++ d ++ x.entries) := by
  classical
  refine List.perm_iff_count.2 fun e => ?_
  cases x with
  | returned out dropped => simp only [after, entries, List.count_append]; omega
  | stopped out dropped l r => simp only [after, entries, List.count_append]; omega
  | crashed => exact absurd rfl h

theorem Outcome.after_crashed {o d : List E} {x : Outcome E} : x.after o d = .crashed ↔ x = .crashed := by
  cases x <;> simp [after]

/-- No entry is lost and none is doubled, unless there is a crash. -/
theorem MergeOp.run_entries (op : MergeOp) (ans : List Ordering) (l r : List E) (h : op.run ans l r ≠ .crashed) :
    (op.run ans l r).entries.Perm (l ++ r) := by
  classical
  have key : ∀ (o d : List E) (x : Outcome E) (l' r' : List E), x.after o d ≠ .crashed →
      (x ≠ .crashed → x.entries.Perm (l' ++ r')) → (o ++ d ++ (l' ++ r')).Perm (l ++ r) →
      (x.after o d).entries.Perm (l ++ r) := by
    intro o d x l' r' h1 h2 h3
    have h4 : x ≠ .crashed := fun hc => h1 (Outcome.after_crashed.2 hc)
    exact (Outcome.entries_after o d x h4).trans (((h2 h4).append_left _).trans h3)
  have right : ∀ (a b : E) (l' r' : List E), ([b] ++ ((a :: l') ++ r')).Perm (a :: l' ++ b :: r') := fun a b l' r' =>
    show (b :: ((a :: l') ++ r')).Perm ((a :: l') ++ b :: r') from List.perm_middle.symm
  induction ans generalizing l r with
  | nil =>
    cases l with
    | nil =>
      cases op with
      | union => simp [run, Outcome.entries]
      | difference sym => cases sym <;> simp [run, Outcome.entries]
    | cons a l =>
      cases r with
      | nil => cases op <;> simp [run, Outcome.entries] at h ⊢
      | cons b r => simp [run, Outcome.entries]
  | cons o ans ih =>
    cases l with
    | nil =>
      cases op with
      | union => simp [run, Outcome.entries]
      | difference sym => cases sym <;> simp [run, Outcome.entries]
    | cons a l =>
      cases r with
      | nil => cases op <;> simp [run, Outcome.entries] at h ⊢
      | cons b r =>
        have ih' : ∀ (l r : List E), op.run ans l r ≠ .crashed → (op.run ans l r).entries.Perm (l ++ r) := by
          intro l r hc
          refine ih l r hc ?_
          intro o d x l' r' h1 h2 h3
          have h4 : x ≠ .crashed := fun hc => h1 (Outcome.after_crashed.2 hc)
          exact (Outcome.entries_after o d x h4).trans (((h2 h4).append_left _).trans h3)
        cases o with
        | lt => exact key [a] [] _ l (b :: r) h (ih' _ _) (by simp)
        | eq =>
          cases op with
          | union => exact key [] [b] _ (a :: l) r h (ih' _ _) (right a b l r)
          | difference sym =>
            refine key [] [a, b] _ l r h (ih' _ _) ?_
            refine List.perm_iff_count.2 fun e => ?_
            simp only [List.count_append, List.count_cons, List.count_nil]
            omega
        | gt =>
          cases op with
          | union => exact key [b] [] _ (a :: l) r h (ih' _ _) (right a b l r)
          | difference sym =>
            cases sym
            · exact key [] [b] _ (a :: l) r h (ih' _ _) (right a b l r)
            · exact key [b] [] _ (a :: l) r h (ih' _ _) (right a b l r)

/-- A union never crashes. -/
theorem union_not_crashed (ans : List Ordering) (l r : List E) : MergeOp.union.run ans l r ≠ .crashed := by
  induction ans generalizing l r with
  | nil => cases l <;> cases r <;> simp [MergeOp.run]
  | cons o ans ih =>
    cases l with
    | nil => simp [MergeOp.run]
    | cons a l =>
      cases r with
      | nil => simp [MergeOp.run]
      | cons b r => cases o <;> simp only [MergeOp.run, ne_eq, Outcome.after_crashed] <;> exact ih _ _

/-- The entries that were being compared when a comparison panicked. -/
theorem MergeOp.run_fronts (op : MergeOp) (ans : List Ordering) (l r out d le ri : List E)
    (h : op.run ans l r = .stopped out d le ri) :
    ∃ a le' b ri', le = a :: le' ∧ ri = b :: ri' ∧ a ∈ l ∧ b ∈ r := by
  have key : ∀ (o d' : List E) (x : Outcome E) (l' r' : List E), x.after o d' = .stopped out d le ri →
      (∀ out d, x = .stopped out d le ri → ∃ a le' b ri', le = a :: le' ∧ ri = b :: ri' ∧ a ∈ l' ∧ b ∈ r') →
      (∀ a ∈ l', a ∈ l) → (∀ b ∈ r', b ∈ r) → ∃ a le' b ri', le = a :: le' ∧ ri = b :: ri' ∧ a ∈ l ∧ b ∈ r := by
    intro o d' x l' r' h1 h2 h3 h4
    cases x with
    | returned _ _ => simp [Outcome.after] at h1
    | crashed => simp [Outcome.after] at h1
    | stopped out' d' le' ri' =>
      simp only [Outcome.after, Outcome.stopped.injEq] at h1
      obtain ⟨a, le', b, ri', e1, e2, e3, e4⟩ := h2 out' d' (by rw [h1.2.2.1, h1.2.2.2])
      exact ⟨a, le', b, ri', e1, e2, h3 a e3, h4 b e4⟩
  induction ans generalizing l r out d with
  | nil =>
    cases l with
    | nil =>
      cases op with
      | union => simp [run] at h
      | difference sym => cases sym <;> simp [run] at h
    | cons a l =>
      cases r with
      | nil => cases op <;> simp [run] at h
      | cons b r =>
        simp only [run, Outcome.stopped.injEq] at h
        exact ⟨a, l, b, r, h.2.2.1.symm, h.2.2.2.symm, by simp, by simp⟩
  | cons o ans ih =>
    cases l with
    | nil =>
      cases op with
      | union => simp [run] at h
      | difference sym => cases sym <;> simp [run] at h
    | cons a l =>
      cases r with
      | nil => cases op <;> simp [run] at h
      | cons b r =>
        have ih' : ∀ (l r : List E) (out d : List E), op.run ans l r = .stopped out d le ri →
            ∃ a le' b ri', le = a :: le' ∧ ri = b :: ri' ∧ a ∈ l ∧ b ∈ r := by
          intro l r out d h
          refine ih l r out d h ?_
          intro o d' x l' r' h1 h2 h3 h4
          cases x with
          | returned _ _ => simp [Outcome.after] at h1
          | crashed => simp [Outcome.after] at h1
          | stopped out' d' le' ri' =>
            simp only [Outcome.after, Outcome.stopped.injEq] at h1
            obtain ⟨a, le', b, ri', e1, e2, e3, e4⟩ := h2 out' d' (by rw [h1.2.2.1, h1.2.2.2])
            exact ⟨a, le', b, ri', e1, e2, h3 a e3, h4 b e4⟩
        have sub : ∀ {x y : E} {l : List E}, x ∈ l → x ∈ y :: l := fun h => List.mem_cons_of_mem _ h
        cases o with
        | lt => exact key [a] [] _ l (b :: r) h (ih' _ _) (fun _ => sub) (fun _ => id)
        | eq =>
          cases op with
          | union => exact key [] [b] _ (a :: l) r h (ih' _ _) (fun _ => id) (fun _ => sub)
          | difference sym => exact key [] [a, b] _ l r h (ih' _ _) (fun _ => sub) (fun _ => sub)
        | gt =>
          cases op with
          | union => exact key [b] [] _ (a :: l) r h (ih' _ _) (fun _ => id) (fun _ => sub)
          | difference sym =>
            cases sym
            · exact key [] [b] _ (a :: l) r h (ih' _ _) (fun _ => id) (fun _ => sub)
            · exact key [b] [] _ (a :: l) r h (ih' _ _) (fun _ => id) (fun _ => sub)

end Verif.Spec
