/-
The limits of the levels when they wrap around (leveled.rs:357-362 in a release build): a compaction ends as long as no
limit wraps around to 0.
-/
import Verif.Lsm.LeveledLimits
import Verif.Lsm.Props
import Mathlib.Data.Nat.Prime.Basic
import Mathlib.Algebra.Ring.Parity

namespace Verif.Lsm.Leveled

open Verif Verif.Spec

variable {K V : Type} [LinearOrder K]

/-- The outer loop ends if every level may have at least one table, as `down_isSome`. -/
theorem downG_isSome {c : Cfg K V} {p : Params} {lim : Nat → Option Nat} (hp : ∀ i, ∃ l, lim i = some l ∧ 1 ≤ l) {hint : Nat} :
    ∀ (n : Nat) {index f : Nat} {ls : List (Level K V)},
    LevelsOk ls → ls.length + size (tabsL ls) ≤ n → ∃ r, downG c p lim hint n index ls f = some r
  | n, index, f, [], h, hn => by cases n <;> exact ⟨_, rfl⟩
  | 0, index, f, cur :: rest, h, hn => by simp at hn
  | n + 1, index, f, cur :: rest, h, hn => by
    obtain ⟨l, hl, hlim⟩ := hp index
    obtain ⟨c1, r1, o1, e1, a1, a2, a3, a4, a5, a6, a7⟩ := drain_spec (c := c) (p := p) (hint := hint)
      (lim := l) cur.length (f := f) h (le_refl _)
    have hc1 := (levelsOk_cons.1 a1).1
    have hs := length_le_size hc1
    have e3 : size (tabsL (c1 :: r1)) = size (tabsOf c1) + size (tabsL r1) := size_append _ _
    obtain ⟨r, e2⟩ := downG_isSome hp (c := c) (p := p) (hint := hint) n (index := index + 1) (f := f + o1.length)
      (levelsOk_cons.1 a1).2.1 (by
        simp only [List.length_cons] at hn
        rcases a7 with ⟨rfl, rfl⟩ | ⟨h1, h2⟩
        · omega
        · omega)
    unfold downG
    rw [hl]
    simp only
    rw [e1]
    simp only
    rw [e2]
    exact ⟨_, rfl⟩

theorem compactL_total {c : Cfg K V} {p : Params} {lim : Nat → Option Nat} (hp : ∀ i, ∃ l, lim i = some l ∧ 1 ≤ l)
    {S : Meta K V} (h : Inv S) (f : Nat) : ∃ r, compactL c p lim S f = some r := by
  obtain ⟨out, a1, a2, a3, a4, a5, a6⟩ := compact0_spec (c := c) (p := p) h f
  obtain ⟨f1, f2, f3⟩ := firstLevel_ok h.levels
  unfold compactL compactG
  rw [a1]
  simp only
  obtain ⟨⟨ls, new⟩, hr⟩ := downG_isSome hp (c := c) (p := p) (hint := hintOf S) (index := 0) (f := f + out.length)
    (S.levels.length + size (S.l0 ++ tabsL S.levels) + 1) a2 (by
      simp only [List.length_cons]; omega)
  rw [hr]
  exact ⟨_, rfl⟩

/-- The limit of a level wraps around to 0 only if 2⁶⁴ divides it. -/
theorem limitW_pos {p : Params} {i : Nat} : limitW p i ≠ some 0 ↔ ¬ 2 ^ 64 ∣ p.initCount * p.growth ^ i := by
  unfold limitW
  rw [Nat.mul_mod, Nat.mod_mod, ← Nat.mul_mod, Nat.dvd_iff_mod_eq_zero]
  simp

/-- `kindG` as the strategy for which `lawsR` is stated. -/
abbrev lawsG (c : Cfg K V) (p : Params) (lim : Nat → Option Nat) : Laws (kindG c p lim) true :=
  lawsR c p lim fun m => m.levels.length + size (m.l0 ++ tabsL m.levels) + 1

theorem lawsG_total (c : Cfg K V) (p : Params) {lim : Nat → Option Nat} (hp : ∀ i, ∃ l, lim i = some l ∧ 1 ≤ l) :
    (lawsG c p lim : Laws (kindG c p lim) true).Total := by
  intro S j hi hpl f
  have hj : j = S := by
    have hp' : plan p S = some j := hpl
    unfold plan at hp'
    split at hp'
    · exact (Option.some.inj hp').symm
    · simp at hp'
  subst hj
  exact compactL_total hp hi f

end Verif.Lsm.Leveled

namespace Verif.Lsm

open Verif Verif.Spec Store

variable {K V : Type} [LinearOrder K] [DecidableEq V]

/-- C45 in a release build, where the limit `max_initial_level_count * growth_factor^i` of level `i` is computed modulo
2⁶⁴: if it is no multiple of 2⁶⁴ for any `i`, every history runs to its end, so every compaction ends, although limits may
wrap around (a map that was never written cannot be opened again, see C40).  In particular this is so if
`growth_factor` is odd and `max_initial_level_count` is positive: both are `u64`. -/
theorem C45_wrap_partial (c : Cfg K V) (p : Leveled.Params) :
    ((∀ i, ¬ 2 ^ 64 ∣ p.initCount * p.growth ^ i) → ∀ ops : List (KvOp K V × Nat), Opens (ops.map (·.1)) →
      ∃ q, run c (new (Leveled.kindG c p (Leveled.limitW p))) ops = some q) ∧
    (p.growth % 2 = 1 → 1 ≤ p.initCount → p.initCount < 2 ^ 64 → ∀ i, ¬ 2 ^ 64 ∣ p.initCount * p.growth ^ i) := by
  constructor
  · intro h ops ho
    have hp : ∀ i, ∃ l, Leveled.limitW p i = some l ∧ 1 ≤ l := by
      intro i
      have h0 := Leveled.limitW_pos.2 (h i)
      refine ⟨_, rfl, ?_⟩
      by_contra hl
      exact h0 (congrArg some (Nat.lt_one_iff.1 (Nat.lt_of_not_le hl)))
    exact run_isSome (Leveled.lawsG_total c p hp) ops (inv_new _ c) hand_new (goodRun_true (fun _ => trivial) ops _) (.inr ho)
  · intro h1 h2 h3 i hd
    have hc : Nat.Coprime (2 ^ 64) (p.growth ^ i) :=
      Nat.Coprime.pow _ _ ((Nat.coprime_two_left).2 (Nat.odd_iff.2 h1))
    have := Nat.le_of_dvd h2 (hc.dvd_of_dvd_mul_right hd)
    omega

omit [LinearOrder K] [DecidableEq V] in
/-- Conversely once a limit is a multiple of 2⁶⁴, so are all limits of later levels: these wrap around to 0. -/
theorem limitW_zero_later {p : Leveled.Params} {i j : Nat} (hij : i ≤ j) (h : Leveled.limitW p i = some 0) :
    Leveled.limitW p j = some 0 := by
  by_contra hj
  rw [← ne_eq, Leveled.limitW_pos] at hj
  have hi : 2 ^ 64 ∣ p.initCount * p.growth ^ i := by
    by_contra hi
    exact Leveled.limitW_pos.2 hi h
  refine hj (hi.trans ?_)
  exact Nat.mul_dvd_mul_left _ (Nat.pow_dvd_pow _ hij)

/-- The hypotheses of `C45_wrap_partial` for limits that do wrap around. -/
example : (∀ i, ¬ 2 ^ 64 ∣ (⟨1, 60, 1, 2 ^ 63 + 1⟩ : Leveled.Params).initCount * (2 ^ 63 + 1) ^ i) ∧
    2 ^ 64 ≤ (2 ^ 63 + 1) ^ 2 :=
  ⟨(C45_wrap_partial Example.small ⟨1, 60, 1, 2 ^ 63 + 1⟩).2 (by decide) (by decide) (by decide), by decide⟩

end Verif.Lsm
