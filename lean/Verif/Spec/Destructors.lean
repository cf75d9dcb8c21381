/- Specification of containers whose elements have destructors that may panic (C76), independent of the models. -/

namespace Verif.Spec

/-- The destructors of `l` are run one after the other until one of them panics: those that are started.  `boom e`
says that the destructor of `e` panics. -/
def startedOf {E : Type} (boom : E → Bool) : List E → List E
  | [] => []
  | e :: l => if boom e then [e] else e :: startedOf boom l

/-- The elements whose destructors are never started. -/
def neverStarted {E : Type} (boom : E → Bool) (l : List E) : List E := l.drop (startedOf boom l).length

theorem startedOf_append {E : Type} (boom : E → Bool) (l : List E) : startedOf boom l ++ neverStarted boom l = l := by
  unfold neverStarted
  induction l with
  | nil => rfl
  | cons e l ih =>
    simp only [startedOf]
    split
    · rfl
    · simp [ih]

theorem startedOf_all {E : Type} {boom : E → Bool} {l : List E} (h : ∀ e ∈ l, boom e = false) : startedOf boom l = l := by
  induction l with
  | nil => rfl
  | cons e l ih => simp [startedOf, h e (by simp), ih fun x hx => h x (by simp [hx])]

end Verif.Spec
