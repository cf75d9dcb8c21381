/- Specification of set operations on two lists of entries when comparisons answer anything or panic, and when the
destructors of some entries panic (C81); independent of the models. -/
import Verif.Spec.SetOps

namespace Verif.Spec

variable {E : Type}

/-- How the loop of a set operation ends. -/
inductive Halt (E : Type) where
  /-- It comes to its end: `out` is collected, `dropped` has been dropped. -/
  | finished (out dropped : List E)
  /-- A comparison panics when `out` has been collected, `dropped` has been dropped, and `left` and `right` remain. -/
  | compared (out dropped left right : List E)
  /-- A destructor panics, the one of the last entry of `dropped`. -/
  | destroyed (out dropped left right : List E)
  /-- It uses a pointer that points to nothing. -/
  | crashed
  deriving DecidableEq

/-- Before that, `o` was collected and `d` was dropped. -/
def Halt.after (o d : List E) : Halt E → Halt E
  | .finished out dropped => .finished (o ++ out) (d ++ dropped)
  | .compared out dropped l r => .compared (o ++ out) (d ++ dropped) l r
  | .destroyed out dropped l r => .destroyed (o ++ out) (d ++ dropped) l r
  | .crashed => .crashed

/-- The entry `e` is dropped, which leaves `l` and `r`; then `x` follows unless the destructor panics. -/
def dropping (boom : E → Bool) (e : E) (l r : List E) (x : Halt E) : Halt E :=
  if boom e then .destroyed [] [e] l r else x.after [] [e]

/-- A list of entries is dropped one after the other, the other list is empty. -/
def dropTail (boom : E → Bool) : List E → Halt E
  | [] => .finished [] []
  | e :: r => dropping boom e [] r (dropTail boom r)

/-- The loop of the operation on the lists of entries of the two maps; `boom e`: the destructor of `e` panics.  `ans`
are the answers of the comparisons, the comparison after the last one panics. -/
def MergeOp.runD (boom : E → Bool) (op : MergeOp) : List Ordering → List E → List E → Halt E
  | _, [], r =>
    match op with
    | .difference false => dropTail boom r
    | _ => .finished r []
  | _, a :: l, [] =>
    match op with
    | .union => .finished (a :: l) []
    | .difference _ => .crashed
  | [], a :: l, b :: r => .compared [] [] (a :: l) (b :: r)
  | .eq :: ans, a :: l, b :: r =>
    match op with
    | .union => dropping boom b (a :: l) r (op.runD boom ans (a :: l) r)
    | .difference _ => dropping boom a l (b :: r) (dropping boom b l r (op.runD boom ans l r))
  | .lt :: ans, a :: l, b :: r => (op.runD boom ans l (b :: r)).after [a] []
  | .gt :: ans, a :: l, b :: r =>
    match op with
    | .difference false => dropping boom b (a :: l) r (op.runD boom ans (a :: l) r)
    | _ => (op.runD boom ans (a :: l) r).after [b] []

/-- How the call ends. -/
inductive CallEnd (E : Type) where
  /-- It returns the entries `out`; the entries `dropped` have been dropped. -/
  | returned (out dropped : List E)
  /-- It has unwound; the destructors of `dropped` have been run. -/
  | unwound (dropped : List E)
  /-- The process is aborted: a destructor panics while another panic unwinds. -/
  | aborted
  /-- It does something undefined. -/
  | undefined
  deriving DecidableEq

/-- Unwinding drops the collected entries, then the rest of the right map, then the rest of the left map.  The two
rests are dropped as if their first node had no entry; if there is no first node, that is undefined. -/
def unwinding (boom : E → Bool) (dropped out left right : List E) : CallEnd E :=
  if out.any boom then .aborted
  else
    match right with
    | [] => .undefined
    | _ :: rt =>
      if rt.any boom then .aborted
      else
        match left with
        | [] => .undefined
        | _ :: lt => if lt.any boom then .aborted else .unwound (dropped ++ (out ++ rt ++ lt))

/-- The end of the call for the end of the loop. -/
def Halt.callEnd (boom : E → Bool) : Halt E → CallEnd E
  | .finished out dropped => .returned out dropped
  | .compared out dropped l r => unwinding boom dropped out l r
  | .destroyed out dropped l r => unwinding boom dropped out l r
  | .crashed => .undefined

/-! ### Consequences of the definitions -/

/-- All the entries of which the end of the loop speaks. -/
def Halt.entries : Halt E → List E
  | .finished out dropped => out ++ dropped
  | .compared out dropped l r => out ++ dropped ++ (l ++ r)
  | .destroyed out dropped l r => out ++ dropped ++ (l ++ r)
  | .crashed => []

theorem Halt.after_crashed {o d : List E} {x : Halt E} : x.after o d = .crashed ↔ x = .crashed := by
  cases x <;> simp [after]

theorem Halt.entries_after {o d l : List E} {x : Halt E} (h : x.after o d ≠ .crashed)
    (hx : x ≠ .crashed → x.entries.Perm l) : (x.after o d).entries.Perm (o ++ d ++ l) := by
  have h' : x ≠ .crashed := fun hc => h (after_crashed.2 hc)
  refine .trans ?_ ((hx h').append_left _)
  classical
  refine List.perm_iff_count.2 fun e => ?_
  cases x with
  | finished out dropped => simp only [after, entries, List.count_append]; omega
  | compared out dropped l r => simp only [after, entries, List.count_append]; omega
  | destroyed out dropped l r => simp only [after, entries, List.count_append]; omega
  | crashed => exact absurd rfl h'

theorem dropping_entries {boom : E → Bool} {e : E} {l r : List E} {x : Halt E} (h : dropping boom e l r x ≠ .crashed)
    (hx : x ≠ .crashed → x.entries.Perm (l ++ r)) : (dropping boom e l r x).entries.Perm (e :: (l ++ r)) := by
  unfold dropping at h ⊢
  split
  · exact .refl _
  · rename_i hb
    rw [if_neg hb] at h
    exact Halt.entries_after h hx

theorem dropTail_entries (boom : E → Bool) (r : List E) : (dropTail boom r).entries.Perm r ∧ dropTail boom r ≠ .crashed := by
  induction r with
  | nil => exact ⟨.refl _, by simp [dropTail]⟩
  | cons e r ih =>
    have h : dropTail boom (e :: r) ≠ .crashed := by
      simp only [dropTail, dropping]
      split
      · simp
      · exact fun hc => ih.2 (Halt.after_crashed.1 hc)
    exact ⟨dropping_entries (l := []) h fun _ => ih.1, h⟩

/-- No entry is lost and none is doubled, unless there is a crash. -/
theorem MergeOp.runD_entries (boom : E → Bool) (op : MergeOp) (ans : List Ordering) (l r : List E)
    (h : op.runD boom ans l r ≠ .crashed) : (op.runD boom ans l r).entries.Perm (l ++ r) := by
  induction ans generalizing l r with
  | nil =>
    cases l with
    | nil =>
      cases op with
      | union => simp [runD, Halt.entries]
      | difference sym =>
        cases sym
        · simpa [runD] using (dropTail_entries boom r).1
        · simp [runD, Halt.entries]
    | cons a l =>
      cases r with
      | nil => cases op <;> simp [runD, Halt.entries] at h ⊢
      | cons b r => simp [runD, Halt.entries]
  | cons o ans ih =>
    cases l with
    | nil =>
      cases op with
      | union => simp [runD, Halt.entries]
      | difference sym =>
        cases sym
        · simpa [runD] using (dropTail_entries boom r).1
        · simp [runD, Halt.entries]
    | cons a l =>
      cases r with
      | nil => cases op <;> simp [runD, Halt.entries] at h ⊢
      | cons b r =>
        have mid : (b :: ((a :: l) ++ r)).Perm (a :: l ++ b :: r) := List.perm_middle.symm
        cases o with
        | lt => exact Halt.entries_after h (ih _ _)
        | eq =>
          cases op with
          | union => exact (dropping_entries h (ih _ _)).trans mid
          | difference sym =>
            exact dropping_entries h fun h' => (dropping_entries h' (ih _ _)).trans List.perm_middle.symm
        | gt =>
          cases op with
          | union => exact (Halt.entries_after h (ih _ _)).trans mid
          | difference sym =>
            cases sym
            · exact (dropping_entries h (ih _ _)).trans mid
            · exact (Halt.entries_after h (ih _ _)).trans mid

/-- What `union_halt` says. -/
def Halt.Sided (boom : E → Bool) (r : List E) (x : Halt E) : Prop :=
  x ≠ .crashed ∧ (∀ out d le ri, x = .compared out d le ri → le ≠ [] ∧ ri ≠ []) ∧
    ∀ out d le ri, x = .destroyed out d le ri → le ≠ [] ∧ (ri = [] → ∃ e, r.getLast? = some e ∧ boom e = true)

theorem Halt.Sided.after {boom : E → Bool} {r r' : List E} {x : Halt E} (h : x.Sided boom r') (o d' : List E)
    (hr : ∀ e, r'.getLast? = some e → r.getLast? = some e) : (x.after o d').Sided boom r := by
  cases x with
  | crashed => exact absurd rfl h.1
  | finished a b => simp [Halt.after, Halt.Sided]
  | compared a b c d =>
    refine ⟨by simp [Halt.after], ?_, by simp [Halt.after]⟩
    intro out d'' le ri he
    simp only [Halt.after, Halt.compared.injEq] at he
    exact h.2.1 a b le ri (by rw [he.2.2.1, he.2.2.2])
  | destroyed a b c d =>
    refine ⟨by simp [Halt.after], by simp [Halt.after], ?_⟩
    intro out d'' le ri he
    simp only [Halt.after, Halt.destroyed.injEq] at he
    obtain ⟨h1, h2⟩ := h.2.2 a b le ri (by rw [he.2.2.1, he.2.2.2])
    refine ⟨h1, fun hn => ?_⟩
    obtain ⟨e, h3, h4⟩ := h2 hn
    exact ⟨e, hr e h3, h4⟩

/-- The loop of a union stops with entries on both sides, unless the destructor of the last entry of the right map has
panicked. -/
theorem union_halt (boom : E → Bool) (ans : List Ordering) (l r : List E) :
    (MergeOp.union.runD boom ans l r).Sided boom r := by
  induction ans generalizing l r with
  | nil =>
    cases l with
    | nil => simp [MergeOp.runD, Halt.Sided]
    | cons a l =>
      cases r with
      | nil => simp [MergeOp.runD, Halt.Sided]
      | cons b r =>
        refine ⟨by simp [MergeOp.runD], ?_, by simp [MergeOp.runD]⟩
        intro out d le ri h
        simp only [MergeOp.runD, Halt.compared.injEq] at h
        exact ⟨by rw [← h.2.2.1]; simp, by rw [← h.2.2.2]; simp⟩
  | cons o ans ih =>
    cases l with
    | nil => simp [MergeOp.runD, Halt.Sided]
    | cons a l =>
      cases r with
      | nil => simp [MergeOp.runD, Halt.Sided]
      | cons b r =>
        have last : ∀ e, r.getLast? = some e → (b :: r).getLast? = some e := by
          intro e he
          rw [List.getLast?_cons, he]; rfl
        cases o with
        | lt => exact (ih l (b :: r)).after _ _ fun _ => id
        | gt => exact (ih (a :: l) r).after _ _ last
        | eq =>
          simp only [MergeOp.runD, dropping]
          split
          · rename_i hb
            refine ⟨by simp, by simp, ?_⟩
            intro out d le ri h
            simp only [Halt.destroyed.injEq] at h
            refine ⟨by rw [← h.2.2.1]; simp, fun hn => ⟨b, ?_, hb⟩⟩
            rw [h.2.2.2, hn]; rfl
          · exact (ih (a :: l) r).after _ _ last

/-- If no destructor panics, the loop is the one of `MergeOp.run`. -/
theorem MergeOp.runD_calm (op : MergeOp) (ans : List Ordering) (l r : List E) :
    op.runD (fun _ => false) ans l r =
      match op.run ans l r with
      | .returned out dropped => .finished out dropped
      | .stopped out dropped left right => .compared out dropped left right
      | .crashed => .crashed := by
  have tail : ∀ r : List E, dropTail (fun _ => false) r = .finished [] r := by
    intro r
    induction r with
    | nil => rfl
    | cons e r ih => simp [dropTail, dropping, ih, Halt.after]
  have key : ∀ (o d : List E) (x : Halt E) (y : Outcome E),
      (x = match y with
        | .returned out dropped => .finished out dropped
        | .stopped out dropped left right => .compared out dropped left right
        | .crashed => .crashed) →
      x.after o d = match y.after o d with
        | .returned out dropped => .finished out dropped
        | .stopped out dropped left right => .compared out dropped left right
        | .crashed => .crashed := by
    intro o d x y h
    subst h
    cases y <;> rfl
  induction ans generalizing l r with
  | nil =>
    cases l with
    | nil => cases op with
      | union => rfl
      | difference sym => cases sym <;> simp [runD, run, tail]
    | cons a l => cases r <;> cases op <;> rfl
  | cons o ans ih =>
    cases l with
    | nil => cases op with
      | union => rfl
      | difference sym => cases sym <;> simp [runD, run, tail]
    | cons a l =>
      cases r with
      | nil => cases op <;> rfl
      | cons b r =>
        cases o with
        | lt => exact key _ _ _ _ (ih _ _)
        | gt =>
          cases op with
          | union => exact key _ _ _ _ (ih _ _)
          | difference sym =>
            cases sym
            · simpa [runD, run, dropping] using key _ _ _ _ (ih (a :: l) r)
            · exact key _ _ _ _ (ih _ _)
        | eq =>
          cases op with
          | union => simpa [runD, run, dropping] using key [] [b] _ _ (ih (a :: l) r)
          | difference sym =>
            have h2 : ∀ x : Halt E, (x.after [] [b]).after [] [a] = x.after [] [a, b] := by
              intro x; cases x <;> simp [Halt.after]
            simpa [runD, run, dropping, h2] using key [] [a, b] _ _ (ih l r)

end Verif.Spec
