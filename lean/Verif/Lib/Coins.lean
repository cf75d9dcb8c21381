/- Averages over all draws of random words: how often towers of random heights stand out.

The height of a tower is the number of leading zeros of a random word of `W` bits.  The counts are exact, by an
exchange of the words with exactly `i` leading zeros and those with more. -/
import Mathlib.Data.Fintype.BigOperators
import Mathlib.Data.Fintype.Pi
import Mathlib.Logic.Equiv.Basic
import Mathlib.Tactic.Linarith
import Mathlib.Tactic.Ring

namespace Verif.Coins

/-- The number of leading zeros of a word of `W` bits. -/
def lz (W : Nat) (x : Fin (2 ^ W)) : Nat := if x.val = 0 then W else W - 1 - Nat.log2 x.val

variable {W : Nat}

theorem lz_le (x : Fin (2 ^ W)) : lz W x ≤ W := by
  unfold lz
  split <;> omega

theorem lt_lz {i : Nat} (hi : i < W) (x : Fin (2 ^ W)) : i < lz W x ↔ x.val < 2 ^ (W - 1 - i) := by
  unfold lz
  split
  · rename_i h
    rw [h]
    exact ⟨fun _ => Nat.two_pow_pos _, fun _ => hi⟩
  · rename_i h
    have h1 : Nat.log2 x.val < W := (Nat.log2_lt h).2 x.isLt
    rw [← Nat.log2_lt h]
    omega

theorem lz_eq {i : Nat} (hi : i < W) (x : Fin (2 ^ W)) :
    lz W x = i ↔ 2 ^ (W - 1 - i) ≤ x.val ∧ x.val < 2 ^ (W - i) := by
  have h1 := lt_lz hi x
  cases i with
  | zero =>
    have := x.isLt
    constructor
    · intro h
      exact ⟨by omega, this⟩
    · intro h
      omega
  | succ i =>
    have h2 := lt_lz (i := i) (by omega) x
    rw [show W - 1 - i = W - (i + 1) by omega] at h2
    constructor
    · intro h
      exact ⟨by omega, h2.1 (by omega)⟩
    · intro h
      have := h2.2 h.2
      omega

/-- Exchange the words with exactly `i` leading zeros and those with more, on numbers. -/
def flipNat (p x : Nat) : Nat := if x < p then x + p else if x < 2 * p then x - p else x

theorem flipNat_flip (p x : Nat) : flipNat p (flipNat p x) = x := by
  unfold flipNat
  split
  · rw [if_neg (by omega), if_pos (by omega)]
    omega
  · split
    · rw [if_pos (by omega)]
      omega
    · rfl

theorem pow_split {i : Nat} (hi : i < W) : 2 ^ (W - i) = 2 * 2 ^ (W - 1 - i) := by
  rw [show W - i = (W - 1 - i) + 1 by omega, pow_succ, Nat.mul_comm]

theorem flipNat_lt {i : Nat} (hi : i < W) {x : Nat} (hx : x < 2 ^ W) : flipNat (2 ^ (W - 1 - i)) x < 2 ^ W := by
  have h1 := pow_split hi
  have h2 : 2 ^ (W - i) ≤ 2 ^ W := Nat.pow_le_pow_right (by omega) (by omega)
  unfold flipNat
  split
  · omega
  · split <;> omega

/-- The exchange, as a permutation of the words. -/
def flip {i : Nat} (hi : i < W) : Equiv.Perm (Fin (2 ^ W)) where
  toFun x := ⟨flipNat (2 ^ (W - 1 - i)) x.val, flipNat_lt hi x.isLt⟩
  invFun x := ⟨flipNat (2 ^ (W - 1 - i)) x.val, flipNat_lt hi x.isLt⟩
  left_inv x := Fin.ext (flipNat_flip _ _)
  right_inv x := Fin.ext (flipNat_flip _ _)

theorem lz_flip {i : Nat} (hi : i < W) (x : Fin (2 ^ W)) : lz W (flip hi x) = i ↔ i < lz W x := by
  rw [lz_eq hi, lt_lz hi]
  have h1 := pow_split hi
  show 2 ^ (W - 1 - i) ≤ flipNat (2 ^ (W - 1 - i)) x.val ∧ flipNat (2 ^ (W - 1 - i)) x.val < 2 ^ (W - i) ↔ _
  unfold flipNat
  split
  · omega
  · split <;> omega

section
variable {ι : Type} [Fintype ι] [DecidableEq ι]

/-- The exchange at one place. -/
def flipAt {i : Nat} (hi : i < W) (a : ι) : Equiv.Perm (ι → Fin (2 ^ W)) where
  toFun w := Function.update w a (flip hi (w a))
  invFun w := Function.update w a ((flip hi).symm (w a))
  left_inv w := by
    funext x
    by_cases hx : x = a
    · subst hx; simp
    · simp [hx]
  right_inv w := by
    funext x
    by_cases hx : x = a
    · subst hx; simp
    · simp [hx]

theorem flipAt_eq {i : Nat} (hi : i < W) (a : ι) (w : ι → Fin (2 ^ W)) : flipAt hi a w a = flip hi (w a) := by
  simp [flipAt]

theorem flipAt_ne {i : Nat} (hi : i < W) {a b : ι} (h : b ≠ a) (w : ι → Fin (2 ^ W)) : flipAt hi a w b = w b := by
  simp [flipAt, h]

/-- As many draws have exactly `i` leading zeros at `a` as have more, whatever is said about the other places. -/
theorem sum_flip {i : Nat} (hi : i < W) (a : ι) (q : (ι → Fin (2 ^ W)) → Prop) [DecidablePred q]
    (hq : ∀ w, q (flipAt hi a w) ↔ q w) :
    ∑ w : ι → Fin (2 ^ W), (if lz W (w a) = i ∧ q w then 1 else 0) =
      ∑ w : ι → Fin (2 ^ W), if i < lz W (w a) ∧ q w then 1 else 0 := by
  rw [← Equiv.sum_comp (flipAt hi a)]
  refine Finset.sum_congr rfl fun w _ => ?_
  rw [flipAt_eq]
  simp only [lz_flip hi, hq]

/-- `2^-H` of the draws have at least `H` leading zeros at `a`. -/
theorem sum_ge (H : Nat) (hH : H ≤ W) (a : ι) :
    2 ^ H * ∑ w : ι → Fin (2 ^ W), (if H ≤ lz W (w a) then 1 else 0) = Fintype.card (ι → Fin (2 ^ W)) := by
  induction H with
  | zero => simp
  | succ H ih =>
    rw [← ih (by omega)]
    have h1 := sum_flip (W := W) (i := H) (by omega) a (fun _ => True) (fun _ => Iff.rfl)
    simp only [and_true] at h1
    have h2 : ∑ w : ι → Fin (2 ^ W), (if H ≤ lz W (w a) then 1 else 0) =
        ∑ w : ι → Fin (2 ^ W), (if lz W (w a) = H then 1 else 0) +
          ∑ w : ι → Fin (2 ^ W), (if H < lz W (w a) then 1 else 0) := by
      rw [← Finset.sum_add_distrib]
      refine Finset.sum_congr rfl fun w _ => ?_
      split <;> split <;> split <;> omega
    rw [h2, h1, pow_succ]
    simp only [Nat.succ_le_iff]
    ring

/-- How many members of `L` have height exactly `i`, and nothing higher behind them in `L`. -/
def tail (i : Nat) : List Nat → Nat
  | [] => 0
  | h :: l => tail i l + if h = i ∧ ∀ b ∈ l, b ≤ i then 1 else 0

/-- On average over all draws, at most one. -/
theorem sum_tail {i : Nat} (hi : i < W) (L : List ι) (hL : L.Nodup) :
    ∑ w : ι → Fin (2 ^ W), tail i (L.map fun a => lz W (w a)) +
      ∑ w : ι → Fin (2 ^ W), (if ∀ b ∈ L, lz W (w b) ≤ i then 1 else 0) = Fintype.card (ι → Fin (2 ^ W)) := by
  induction L with
  | nil => simp [tail]
  | cons a L ih =>
    rw [List.nodup_cons] at hL
    rw [← ih hL.2]
    simp only [List.map_cons, tail, List.mem_map, forall_exists_index, and_imp, forall_apply_eq_imp_iff₂,
      Finset.sum_add_distrib]
    have h1 := sum_flip (W := W) hi a (fun w => ∀ b ∈ L, lz W (w b) ≤ i) (fun w => by
      refine forall₂_congr fun b hb => ?_
      have hne : b ≠ a := fun e => hL.1 (e ▸ hb)
      rw [flipAt_ne hi hne])
    rw [h1, add_assoc, ← Finset.sum_add_distrib]
    congr 1
    refine Finset.sum_congr rfl fun w _ => ?_
    simp only [List.mem_cons, forall_eq_or_imp]
    by_cases h2 : ∀ b ∈ L, lz W (w b) ≤ i
    · by_cases h3 : i < lz W (w a)
      · simp [h2, h3, Nat.not_le.2 h3]
      · simp [h2, h3, Nat.not_lt.1 h3]
    · simp [h2]

theorem sum_tail_le {i : Nat} (hi : i < W) (L : List ι) (hL : L.Nodup) :
    ∑ w : ι → Fin (2 ^ W), tail i (L.map fun a => lz W (w a)) ≤ Fintype.card (ι → Fin (2 ^ W)) := by
  have := sum_tail hi L hL
  omega

/-- The members of at least height `H`. -/
def tall (H : Nat) (l : List Nat) : Nat := l.countP (fun h => decide (H ≤ h))

theorem sum_tall (H : Nat) (hH : H ≤ W) (L : List ι) :
    2 ^ H * ∑ w : ι → Fin (2 ^ W), tall H (L.map fun a => lz W (w a)) = L.length * Fintype.card (ι → Fin (2 ^ W)) := by
  induction L with
  | nil => simp [tall]
  | cons a L ih =>
    have h1 : ∀ w : ι → Fin (2 ^ W), tall H ((a :: L).map fun a => lz W (w a)) =
        tall H (L.map fun a => lz W (w a)) + if H ≤ lz W (w a) then 1 else 0 := by
      intro w
      simp [tall, List.countP_cons]
    simp only [h1, Finset.sum_add_distrib]
    rw [Nat.mul_add, ih, sum_ge H hH a, List.length_cons]
    ring

end

theorem tail_count (i : Nat) (l : List Nat) : tail i l ≤ l.countP (fun h => decide (h = i)) := by
  induction l with
  | nil => simp [tail]
  | cons h l ih =>
    rw [List.countP_cons]
    unfold tail
    by_cases hh : h = i
    · simp only [hh, decide_true, if_true]
      split <;> omega
    · simp [hh]
      exact ih

theorem count_tall (i : Nat) (l : List Nat) : l.countP (fun h => decide (h = i)) + tall (i + 1) l = tall i l := by
  unfold tall
  induction l with
  | nil => rfl
  | cons h l ih =>
    simp only [List.countP_cons, decide_eq_true_eq]
    split <;> split <;> split <;> omega

/-- Members that stand out at different levels are different. -/
theorem tail_le (H n : Nat) (l : List Nat) :
    ∑ i ∈ Finset.range n, tail (H + i) l + tall (H + n) l ≤ tall H l := by
  induction n with
  | zero => simp
  | succ n ih =>
    rw [Finset.sum_range_succ]
    have := tail_count (H + n) l
    have := count_tall (H + n) l
    rw [← Nat.add_assoc]
    omega

end Verif.Coins
