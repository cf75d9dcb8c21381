/- Simulation of an implementation under panicking comparisons.  Proof machinery only; nothing here models code. -/
import Verif.Lib.SortedList
import Verif.Spec.Panic

namespace Verif.SL

open Verif.Spec

variable {K V : Type} [LinearOrder K]

/-- Every call preserves `rel`. -/
structure PanicSim (I : PanicImpl K V) {S : Type} (σ₀ : S) (R : MapOp K V → S → MapRes K V → S → Prop)
    (D : MapOp K V → S → S → Prop) where
  rel : I.State → S → Prop
  empty : rel I.empty σ₀
  step : ∀ s σ op d b, rel s σ → ∃ s' o σ', I.step s op d b = some (s', o) ∧ rel s' σ' ∧
    match o with
    | some r => R op σ r σ'
    | none => D op σ σ'

theorem PanicSim.run {I : PanicImpl K V} {S : Type} {σ₀ : S} {R : MapOp K V → S → MapRes K V → S → Prop}
    {D : MapOp K V → S → S → Prop} (P : PanicSim I σ₀ R D) (ops : List (MapOp K V × I.Draw × Nat)) :
    ∀ s σ, P.rel s σ → ∃ s' h σ', I.run s ops = some (s', h) ∧ h.map (·.1) = ops.map (·.1) ∧
      PanicHistory R D σ h σ' ∧ P.rel s' σ' := by
  induction ops with
  | nil => intro s σ hr; exact ⟨s, [], σ, rfl, rfl, .nil _, hr⟩
  | cons p ops ih =>
    intro s σ hr
    obtain ⟨op, d, b⟩ := p
    obtain ⟨s₁, o, σ₁, h₁, hr₁, h₂⟩ := P.step s σ op d b hr
    obtain ⟨s₂, h, σ₂, h₃, h₄, h₅, h₆⟩ := ih s₁ σ₁ hr₁
    refine ⟨s₂, (op, o) :: h, σ₂, ?_, by simp [h₄], ?_, h₆⟩
    · simp only [PanicImpl.run, h₁, Option.bind_eq_bind, Option.bind_some, h₃]; rfl
    · cases o with
      | none => exact .panic h₂ h₅
      | some r => exact .ret h₂ h₅

theorem PanicSim.obeys {I : PanicImpl K V} {S : Type} {σ₀ : S} {R : MapOp K V → S → MapRes K V → S → Prop}
    {D : MapOp K V → S → S → Prop} (P : PanicSim I σ₀ R D) : I.Obeys σ₀ R D := by
  intro ops
  obtain ⟨s, h, σ, h₁, h₂, h₃, _⟩ := P.run ops I.empty σ₀ P.empty
  exact ⟨s, h, σ, h₁, h₂, h₃⟩

/-- Every call that satisfies `ok` preserves `rel`. -/
structure PanicSimIf (I : PanicImpl K V) (ok : I.State → MapOp K V → I.Draw → Nat → Prop) {S : Type} (σ₀ : S)
    (R : MapOp K V → S → MapRes K V → S → Prop) (D : MapOp K V → S → S → Prop) where
  rel : I.State → S → Prop
  empty : rel I.empty σ₀
  step : ∀ s σ op d b, rel s σ → ok s op d b → ∃ s' o σ', I.step s op d b = some (s', o) ∧ rel s' σ' ∧
    match o with
    | some r => R op σ r σ'
    | none => D op σ σ'

theorem PanicSimIf.run {I : PanicImpl K V} {ok : I.State → MapOp K V → I.Draw → Nat → Prop} {S : Type} {σ₀ : S}
    {R : MapOp K V → S → MapRes K V → S → Prop} {D : MapOp K V → S → S → Prop} (P : PanicSimIf I ok σ₀ R D)
    (ops : List (MapOp K V × I.Draw × Nat)) :
    ∀ s σ, P.rel s σ → I.Keeps ok s ops → ∃ s' h σ', I.run s ops = some (s', h) ∧ h.map (·.1) = ops.map (·.1) ∧
      PanicHistory R D σ h σ' ∧ P.rel s' σ' := by
  induction ops with
  | nil => intro s σ hr _; exact ⟨s, [], σ, rfl, rfl, .nil _, hr⟩
  | cons p ops ih =>
    intro s σ hr hk
    obtain ⟨op, d, b⟩ := p
    obtain ⟨s₁, o, σ₁, h₁, hr₁, h₂⟩ := P.step s σ op d b hr hk.1
    obtain ⟨s₂, h, σ₂, h₃, h₄, h₅, h₆⟩ := ih s₁ σ₁ hr₁ (hk.2 s₁ o h₁)
    refine ⟨s₂, (op, o) :: h, σ₂, ?_, by simp [h₄], ?_, h₆⟩
    · simp only [PanicImpl.run, h₁, Option.bind_eq_bind, Option.bind_some, h₃]; rfl
    · cases o with
      | none => exact .panic h₂ h₅
      | some r => exact .ret h₂ h₅

theorem PanicSimIf.obeys {I : PanicImpl K V} {ok : I.State → MapOp K V → I.Draw → Nat → Prop} {S : Type} {σ₀ : S}
    {R : MapOp K V → S → MapRes K V → S → Prop} {D : MapOp K V → S → S → Prop} (P : PanicSimIf I ok σ₀ R D) :
    I.ObeysIf ok σ₀ R D := by
  intro ops hk
  obtain ⟨s, h, σ, h₁, h₂, h₃, _⟩ := P.run ops I.empty σ₀ P.empty hk
  exact ⟨s, h, σ, h₁, h₂, h₃⟩

/-- The count after a call. -/
def countNext (l : List (K × V)) (n : Nat) : MapOp K V → Nat
  | .insert k _ => if (find k l).isSome then n else n + 1
  | .remove k => if (find k l).isSome then n - 1 else n
  | .clear => 0
  | _ => n

/-- The result of a call, `len` being answered from the count. -/
def countRes (l : List (K × V)) (n : Nat) : MapOp K V → MapRes K V
  | .len => .num n
  | .isEmpty => .bool (n == 0)
  | op => res l op

/-- The list machine with a count that may be too large. -/
theorem counted_ret {l : List (K × V)} (hs : Sorted l) (op : MapOp K V) {n : Nat} (hn : l.length ≤ n) :
    Counted.Ret op ⟨abs l, n⟩ (countRes l n op) ⟨abs (next l op), countNext l n op⟩ ∧ Sorted (next l op) ∧
      (next l op).length ≤ countNext l n op := by
  have hsp := step_spec hs op
  refine ⟨?_, sorted_next hs op, ?_⟩
  · cases op with
    | insert k v =>
      refine ⟨hsp, ?_⟩
      simp only [countNext, abs, Option.isSome_map]
    | remove k =>
      refine ⟨hsp, ?_⟩
      simp only [countNext, abs, Option.isSome_map]
      split
      · rename_i h
        obtain ⟨e, he⟩ := Option.isSome_iff_exists.1 h
        have := List.length_pos_of_mem (find_some_mem he)
        omega
      · rfl
    | len => exact ⟨rfl, rfl⟩
    | isEmpty => exact ⟨rfl, rfl⟩
    | clear => exact ⟨hsp, rfl⟩
    | get k => exact ⟨hsp, rfl⟩
    | containsKey k => exact ⟨hsp, rfl⟩
    | getMut k f => exact ⟨hsp, rfl⟩
    | floor k => exact ⟨hsp, rfl⟩
    | ceil k => exact ⟨hsp, rfl⟩
    | min => exact ⟨hsp, rfl⟩
    | max => exact ⟨hsp, rfl⟩
    | iter => exact ⟨hsp, rfl⟩
  · cases op with
    | insert k v => simp only [next, countNext]; rw [length_ins hs]; split <;> omega
    | remove k => simp only [next, countNext]; rw [length_del hs]; split <;> omega
    | getMut k f => simp only [next, countNext]; rw [length_upd]; exact hn
    | clear => simp [next]
    | _ => exact hn

theorem trimmed_of_append {k : K} {pre mid post : List (K × V)} (hs : Sorted (pre ++ mid ++ post))
    (h1 : ∀ e ∈ pre, e.1 < k) (h2 : ∀ e ∈ post, k < e.1) : Trimmed k (abs (pre ++ mid ++ post)) (abs mid) := by
  rw [List.append_assoc] at hs ⊢
  obtain ⟨s1, s2, s3⟩ := sorted_append.1 hs
  obtain ⟨s4, s5, s6⟩ := sorted_append.1 s2
  refine ⟨fun x => ∃ e ∈ pre, x ≤ e.1, fun x => ∃ e ∈ post, e.1 ≤ x, ?_, ?_, ?_, ?_, ?_, ?_⟩
  · rintro x y ⟨e, he, hy⟩ hx; exact ⟨e, he, le_trans hx hy⟩
  · rintro x ⟨e, he, hx⟩; exact lt_of_le_of_lt hx (h1 e he)
  · rintro x y ⟨e, he, hy⟩ hx; exact ⟨e, he, le_trans hy hx⟩
  · rintro x ⟨e, he, hx⟩; exact lt_of_lt_of_le (h2 e he) hx
  · rintro x (⟨e, he, hx⟩ | ⟨e, he, hx⟩)
    · have : find x mid = none := find_eq_none.2 fun a ha =>
        ne_of_gt (lt_of_le_of_lt hx (s3 e he a (by simp [ha])))
      simp [abs, this]
    · have : find x mid = none := find_eq_none.2 fun a ha => ne_of_lt (lt_of_lt_of_le (s6 a ha e he) hx)
      simp [abs, this]
  · intro x hx
    have e1 : find x pre = none := find_eq_none.2 fun a ha h => hx (.inl ⟨a, ha, le_of_eq h.symm⟩)
    have e2 : find x post = none := find_eq_none.2 fun a ha h => hx (.inr ⟨a, ha, le_of_eq h⟩)
    simp [abs, find_append, e1, e2]

theorem trimmed_refl (k : K) (m : AMap K V) : Trimmed k m m :=
  ⟨fun _ => False, fun _ => False, fun _ _ h _ => h, fun _ h => h.elim, fun _ _ h _ => h, fun _ h => h.elim,
    fun _ h => by simp at h, fun _ _ => rfl⟩

end Verif.SL
