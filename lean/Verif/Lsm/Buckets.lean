/- C92: which tables a size-tiered compaction selects, and how many tables remain when it selects none. -/
import Verif.Lsm.SizeTiered
import Mathlib.Algebra.Order.Field.Rat
import Mathlib.Algebra.BigOperators.Group.List.Basic
import Mathlib.Tactic.Linarith
import Mathlib.Tactic.Ring
import Mathlib.Tactic.FieldSimp
import Mathlib.Tactic.Positivity

namespace Verif.Lsm.SizeTiered

variable {K V : Type}

/-! ### Specification -/

/-- The average of some sizes. -/
def average (l : List Nat) : ℚ := (l.sum : ℚ) / l.length

/-- size_tiered.rs:163-168, the documentation of the parameters: a bucket is the first one, which holds the tables whose
size is at most `min_sstable_size`, or the sizes of its tables are between `bucket_low` and `bucket_high` times their
average. -/
def Bucket (minSize : Nat) (low high : ℚ) (l : List Nat) : Prop :=
  (∀ x ∈ l, x ≤ minSize) ∨ ∀ x ∈ l, low * average l ≤ x ∧ x ≤ high * average l

/-- Numbers are rounded with a relative error of at most `ε`: `2 ^ -53` for `f64`, except for results that are too large
or too close to zero, and 0 without rounding. -/
structure Rounds (ε : ℚ) (fl : ℚ → ℚ) : Prop where
  nonneg : 0 ≤ ε
  small : ε < 1
  near : ∀ x, 0 ≤ x → (1 - ε) * x ≤ fl x ∧ fl x ≤ (1 + ε) * x

/-- How much the rounding in one test can change its outcome. -/
def slack (ε : ℚ) : ℚ := ((1 + ε) / (1 - ε)) ^ 3

/-! ### The model -/

/-- size_tiered.rs:66-73: the test whether a table is in the bucket.  `fl` is the rounding of `f64`: the integers, the
quotient and the products are rounded, the factors are `f64` already. -/
def inBucket (fl : ℚ → ℚ) (low high : ℚ) (startSize total count size : Nat) : Bool :=
  decide (fl (fl (fl total / fl count) * low) ≤ fl startSize) && decide (fl size ≤ fl (fl (fl total / fl count) * high))

/-- size_tiered.rs:27-31: the parameters. -/
def params (fl : ℚ → ℚ) (maxCount minSize : Nat) (low high : ℚ) : Params := ⟨maxCount, minSize, inBucket fl low high⟩

/-! ### Proofs -/

/-- The loop is at the table after `P`; the bucket began with the first table of `P`. -/
structure At (start curr startSize total : Nat) (P : List Nat) : Prop where
  count : curr = start + P.length
  total : total = P.sum
  first : ∀ x ∈ P.head?, startSize = x

variable {mc ms : Nat} {low high ε : ℚ} {fl : ℚ → ℚ}

theorem Rounds.slack_ge (h : Rounds ε fl) : 1 ≤ slack ε := by
  have h1 := h.nonneg
  have h2 := h.small
  refine one_le_pow₀ ?_
  rw [le_div_iff₀ (by linarith)]
  linarith

/-- The rounded average, times a factor. -/
theorem avg_near {a b : ℚ} (ha : 0 < a) (hb : 0 < b) (near : ∀ x, 0 ≤ x → a * x ≤ fl x ∧ fl x ≤ b * x) {T n c : ℚ}
    (hT : 0 ≤ T) (hn : 0 < n) (hc : 0 ≤ c) :
    a ^ 3 * (T / n * c) ≤ b * fl (fl (fl T / fl n) * c) ∧ a * fl (fl (fl T / fl n) * c) ≤ b ^ 3 * (T / n * c) := by
  obtain ⟨t1, t2⟩ := near T hT
  obtain ⟨n1, n2⟩ := near n hn.le
  have hn0 : 0 < fl n := lt_of_lt_of_le (mul_pos ha hn) n1
  have hT0 : 0 ≤ fl T := le_trans (mul_nonneg ha.le hT) t1
  have q1 : a * (T / n) ≤ b * (fl T / fl n) := by
    rw [← mul_div_assoc, ← mul_div_assoc, div_le_div_iff₀ hn hn0]
    calc a * T * fl n ≤ fl T * (b * n) := mul_le_mul t1 n2 hn0.le hT0
      _ = b * fl T * n := by ring
  have q2 : a * (fl T / fl n) ≤ b * (T / n) := by
    rw [← mul_div_assoc, ← mul_div_assoc, div_le_div_iff₀ hn0 hn]
    calc a * fl T * n = fl T * (a * n) := by ring
      _ ≤ (b * T) * fl n := mul_le_mul t2 n1 (mul_nonneg ha.le hn.le) (mul_nonneg hb.le hT)
  have hq0 : 0 ≤ fl T / fl n := div_nonneg hT0 hn0.le
  obtain ⟨r1, r2⟩ := near _ hq0
  have hr0 : 0 ≤ fl (fl T / fl n) * c := mul_nonneg (le_trans (mul_nonneg ha.le hq0) r1) hc
  obtain ⟨u1, u2⟩ := near _ hr0
  constructor
  · calc a ^ 3 * (T / n * c) = a ^ 2 * (a * (T / n)) * c := by ring
      _ ≤ a ^ 2 * (b * (fl T / fl n)) * c := by gcongr
      _ = b * (a * ((a * (fl T / fl n)) * c)) := by ring
      _ ≤ b * (a * (fl (fl T / fl n) * c)) := by gcongr
      _ ≤ b * fl (fl (fl T / fl n) * c) := by gcongr
  · calc a * fl (fl (fl T / fl n) * c) ≤ a * (b * (fl (fl T / fl n) * c)) := by gcongr
      _ ≤ a * (b * ((b * (fl T / fl n)) * c)) := by gcongr
      _ = b ^ 2 * (a * (fl T / fl n)) * c := by ring
      _ ≤ b ^ 2 * (b * (T / n)) * c := by gcongr
      _ = b ^ 3 * (T / n * c) := by ring

theorem slack_le {x y : ℚ} (h : Rounds ε fl) (hxy : (1 - ε) ^ 3 * x ≤ (1 + ε) ^ 3 * y) : x ≤ slack ε * y := by
  have ha : 0 < (1 - ε) ^ 3 := pow_pos (by linarith [h.small]) 3
  unfold slack
  rw [div_pow, div_mul_eq_mul_div, le_div_iff₀ ha]
  linarith

theorem slack_lt {x y : ℚ} (h : Rounds ε fl) (hxy : (1 - ε) ^ 3 * x < (1 + ε) ^ 3 * y) : x < slack ε * y := by
  have ha : 0 < (1 - ε) ^ 3 := pow_pos (by linarith [h.small]) 3
  unfold slack
  rw [div_pow, div_mul_eq_mul_div, lt_div_iff₀ ha]
  linarith

/-- The test, up to rounding. -/
theorem Rounds.test (h : Rounds ε fl) (hl : 0 ≤ low) (hh : 0 ≤ high) {f T n x : Nat} (hn : 0 < n) :
    (inBucket fl low high f T n x = true →
      (T : ℚ) / n * low ≤ slack ε * f ∧ (x : ℚ) ≤ slack ε * ((T : ℚ) / n * high)) ∧
    (inBucket fl low high f T n x ≠ true →
      (f : ℚ) < slack ε * ((T : ℚ) / n * low) ∨ (T : ℚ) / n * high < slack ε * x) := by
  have h1 := h.nonneg
  have h2 := h.small
  have hn' : (0 : ℚ) < n := by exact_mod_cast hn
  have ha : 0 < 1 - ε := by linarith
  have hb : 0 < 1 + ε := by linarith
  obtain ⟨l1, l2⟩ := avg_near ha hb h.near (T := T) (n := n) (Nat.cast_nonneg _) hn' hl
  obtain ⟨g1, g2⟩ := avg_near ha hb h.near (T := T) (n := n) (Nat.cast_nonneg _) hn' hh
  obtain ⟨f1, f2⟩ := h.near f (Nat.cast_nonneg _)
  obtain ⟨x1, x2⟩ := h.near x (Nat.cast_nonneg _)
  have hf : (0 : ℚ) ≤ f := Nat.cast_nonneg _
  have hx : (0 : ℚ) ≤ x := Nat.cast_nonneg _
  have up : ∀ y : ℚ, 0 ≤ y → (1 + ε) ^ 2 * y ≤ (1 + ε) ^ 3 * y := fun y hy =>
    mul_le_mul_of_nonneg_right (pow_le_pow_right₀ (by linarith) (by omega)) hy
  have dn : ∀ y : ℚ, 0 ≤ y → (1 - ε) ^ 3 * y ≤ (1 - ε) ^ 2 * y := fun y hy =>
    mul_le_mul_of_nonneg_right (pow_le_pow_of_le_one ha.le (by linarith) (by omega)) hy
  simp only [inBucket, Bool.and_eq_true, decide_eq_true_eq, ne_eq, not_and_or, not_le]
  generalize fl (fl (fl (T : ℚ) / fl n) * low) = L at *
  generalize fl (fl (fl (T : ℚ) / fl n) * high) = H at *
  refine ⟨fun ⟨t1, t2⟩ => ⟨slack_le h ?_, slack_le h ?_⟩, fun t => t.imp (fun t => slack_lt h ?_) (fun t => slack_lt h ?_)⟩
  · calc _ ≤ (1 + ε) * L := l1
      _ ≤ (1 + ε) * ((1 + ε) * f) := by gcongr; linarith
      _ = (1 + ε) ^ 2 * f := by ring
      _ ≤ _ := up _ hf
  · calc _ ≤ (1 - ε) ^ 2 * x := dn _ hx
      _ = (1 - ε) * ((1 - ε) * x) := by ring
      _ ≤ (1 - ε) * H := by gcongr; linarith
      _ ≤ _ := g2
  · calc _ ≤ (1 - ε) ^ 2 * (f : ℚ) := dn _ hf
      _ = (1 - ε) * ((1 - ε) * f) := by ring
      _ < (1 - ε) * L := by gcongr; linarith
      _ ≤ _ := l2
  · calc _ ≤ (1 + ε) * H := g1
      _ < (1 + ε) * ((1 + ε) * x) := by gcongr; linarith
      _ = (1 + ε) ^ 2 * x := by ring
      _ ≤ _ := up _ hx

theorem at_next {start curr ss rs : Nat} {P : List Nat} (h : At start curr ss rs P) (x : Nat) :
    At start (curr + 1) (if start = curr then x else ss) (rs + x) (P ++ [x]) := by
  obtain ⟨h1, h2, h3⟩ := h
  refine ⟨by simp; omega, by simp [h2], ?_⟩
  cases P with
  | nil => simp at h1; simp [h1]
  | cons y P =>
    have : start ≠ curr := by simp at h1; omega
    simpa [this] using h3

theorem test_at (hf : Rounds ε fl) (hl : 0 ≤ low) (hh : 0 ≤ high) {start curr ss rs : Nat} {P : List Nat}
    (h : At start curr ss rs P) (x : Nat) :
    (inBucket fl low high (if start = curr then x else ss) (rs + x) (curr - start + 1) x = true →
      average (P ++ [x]) * low ≤ slack ε * ((P ++ [x]).headD 0 : ℕ) ∧ (x : ℚ) ≤ slack ε * (average (P ++ [x]) * high)) ∧
    (inBucket fl low high (if start = curr then x else ss) (rs + x) (curr - start + 1) x ≠ true →
      ((P ++ [x]).headD 0 : ℕ) < slack ε * (average (P ++ [x]) * low) ∨ average (P ++ [x]) * high < slack ε * x) := by
  have h' := at_next h x
  have e1 : curr - start + 1 = (P ++ [x]).length := by have := h.count; simp; omega
  have e2 : (P ++ [x]).headD 0 = if start = curr then x else ss := by
    cases hP : P ++ [x] with
    | nil => simp at hP
    | cons y Q =>
      have := h'.first y (by rw [hP]; rfl)
      simp [this]
  rw [e1, h'.total, e2]
  exact hf.test hl hh (by simp)

theorem headD_le {l : List Nat} (h : l.Pairwise (· ≤ ·)) : ∀ x ∈ l, l.headD 0 ≤ x := by
  intro x hx
  cases l with
  | nil => simp at hx
  | cons y l =>
    rcases List.mem_cons.1 hx with rfl | hx
    · simp
    · exact (List.pairwise_cons.1 h).1 x hx

theorem le_last {P : List Nat} {x : Nat} (h : (P ++ [x]).Pairwise (· ≤ ·)) : ∀ y ∈ P ++ [x], y ≤ x := by
  intro y hy
  rcases List.mem_append.1 hy with hy | hy
  · exact (List.pairwise_append.1 h).2.2 y hy x (by simp)
  · simp at hy; omega

theorem loop_cons (start curr ss rs : Nat) (t : Table K V) (ts : List (Table K V)) :
    rangeLoop (params fl mc ms low high) start curr ss rs (t :: ts) =
      if t.size ≤ ms ∨ inBucket fl low high (if start = curr then t.size else ss) (rs + t.size) (curr - start + 1) t.size = true
      then rangeLoop (params fl mc ms low high) start (curr + 1) (if start = curr then t.size else ss) (rs + t.size) ts
      else if mc < curr + 1 - start then some (start, curr + 1)
      else rangeLoop (params fl mc ms low high) (curr + 1) (curr + 1) 0 0 ts := rfl

/-- The sizes of tables. -/
abbrev sizes (ts : List (Table K V)) : List Nat := ts.map (·.size)

theorem loop_some (hf : Rounds ε fl) (hl0 : 0 ≤ low) (hh0 : 0 ≤ high) {start curr ss rs a b : Nat} {P : List Nat} {ts : List (Table K V)}
    (h : At start curr ss rs P) (hs : (P ++ sizes ts).Pairwise (· ≤ ·)) (hP : Bucket ms (low / slack ε) (high * slack ε) P)
    (hr : rangeLoop (params fl mc ms low high) start curr ss rs ts = some (a, b)) :
    ∃ front, Bucket ms (low / slack ε) (high * slack ε) front ∧
      (front = ((P ++ sizes ts).drop (a - start)).take (b - a) ∨
        ∃ x, front ++ [x] = ((P ++ sizes ts).drop (a - start)).take (b - a)) ∧ start ≤ a := by
  induction ts generalizing start curr ss rs P with
  | nil =>
    unfold rangeLoop at hr
    split at hr
    · simp only [Option.some.injEq, Prod.mk.injEq] at hr
      obtain ⟨rfl, rfl⟩ := hr
      refine ⟨P, hP, .inl ?_, le_refl _⟩
      have := h.count
      simp
      omega
    · cases hr
  | cons t ts ih =>
    rw [loop_cons] at hr
    have hs' : ((P ++ [t.size]) ++ sizes ts).Pairwise (· ≤ ·) := by simpa using hs
    have hsx : (P ++ [t.size]).Pairwise (· ≤ ·) := (List.pairwise_append.1 hs').1
    have hc := h.count
    by_cases ht : t.size ≤ ms ∨
      inBucket fl low high (if start = curr then t.size else ss) (rs + t.size) (curr - start + 1) t.size = true
    · rw [if_pos ht] at hr
      have hb : Bucket ms (low / slack ε) (high * slack ε) (P ++ [t.size]) := by
        rcases ht with ht | ht
        · exact .inl fun x hx => le_trans (le_last hsx x hx) ht
        · obtain ⟨h1, h2⟩ := (test_at hf hl0 hh0 h t.size).1 ht
          have hsl : 0 < slack ε := lt_of_lt_of_le one_pos hf.slack_ge
          refine .inr fun x hx => ⟨?_, ?_⟩
          · have h3 : ((P ++ [t.size]).headD 0 : ℚ) ≤ x := by exact_mod_cast headD_le hsx x hx
            rw [div_mul_eq_mul_div, div_le_iff₀ hsl]
            have := mul_le_mul_of_nonneg_left h3 hsl.le
            linarith [mul_comm low (average (P ++ [t.size])), mul_comm (x : ℚ) (slack ε)]
          · have h3 : (x : ℚ) ≤ t.size := by exact_mod_cast le_last hsx x hx
            have : high * slack ε * average (P ++ [t.size]) = slack ε * (average (P ++ [t.size]) * high) := by ring
            linarith
      have := ih (at_next h t.size) hs' hb hr
      simpa using this
    · rw [if_neg ht] at hr
      split at hr
      · simp only [Option.some.injEq, Prod.mk.injEq] at hr
        obtain ⟨rfl, rfl⟩ := hr
        refine ⟨P, hP, .inr ⟨t.size, ?_⟩, le_refl _⟩
        have : curr + 1 - start = P.length + 1 := by omega
        rw [this]
        simp [List.take_append]
      · have hn : At (curr + 1) (curr + 1) 0 0 [] := ⟨rfl, rfl, by simp⟩
        obtain ⟨front, h1, h2, h3⟩ := ih hn (by simpa using (List.pairwise_append.1 hs').2.1) (.inr (by simp)) hr
        refine ⟨front, h1, ?_, by omega⟩
        have e : (P ++ sizes (t :: ts)).drop (a - start) = ([] ++ sizes ts).drop (a - (curr + 1)) := by
          have : a - start = P.length + 1 + (a - (curr + 1)) := by omega
          rw [this, show P ++ sizes (t :: ts) = (P ++ [t.size]) ++ sizes ts by simp, ← List.drop_drop,
            show P.length + 1 = (P ++ [t.size]).length by simp, List.drop_left]
          rfl
        rw [e]
        exact h2

theorem sum_le {l : List Nat} {x : Nat} (h : ∀ y ∈ l, y ≤ x) : l.sum ≤ l.length * x := by
  induction l with
  | nil => simp
  | cons y l ih =>
    have h1 := h y (by simp)
    have h2 := ih fun z hz => h z (List.mem_cons_of_mem _ hz)
    simp only [List.sum_cons, List.length_cons, Nat.add_mul, Nat.one_mul]
    omega

theorem le_sum {l : List Nat} {x : Nat} (h : ∀ y ∈ l, x ≤ y) : l.length * x ≤ l.sum := by
  induction l with
  | nil => simp
  | cons y l ih =>
    have h1 := h y (by simp)
    have h2 := ih fun z hz => h z (List.mem_cons_of_mem _ hz)
    simp only [List.sum_cons, List.length_cons, Nat.add_mul, Nat.one_mul]
    omega

theorem average_le {l : List Nat} (hl : l ≠ []) {x : Nat} (h : ∀ y ∈ l, y ≤ x) : average l ≤ x := by
  have h1 : (0 : ℚ) < l.length := by exact_mod_cast List.length_pos_of_ne_nil hl
  rw [average, div_le_iff₀ h1, mul_comm]
  exact_mod_cast sum_le h

theorem le_average {l : List Nat} (hl : l ≠ []) {x : Nat} (h : ∀ y ∈ l, x ≤ y) : (x : ℚ) ≤ average l := by
  have h1 : (0 : ℚ) < l.length := by exact_mod_cast List.length_pos_of_ne_nil hl
  rw [average, le_div_iff₀ h1, mul_comm]
  exact_mod_cast le_sum h

/-- A table that fails the test is more than `r` times as large as the first of the bucket. -/
theorem outside (hf : Rounds ε fl) {r : ℚ} (hr : 1 < r) (hrh : r * slack ε ≤ high) (hrl : r * low * slack ε ≤ 1)
    {P : List Nat} {x : Nat} (hs : (P ++ [x]).Pairwise (· ≤ ·))
    (h : ((P ++ [x]).headD 0 : ℕ) < slack ε * (average (P ++ [x]) * low) ∨ average (P ++ [x]) * high < slack ε * x) :
    r * ((P ++ [x]).headD 0 : ℕ) < x := by
  have hsl : 0 < slack ε := lt_of_lt_of_le one_pos hf.slack_ge
  have h1 := le_average (l := P ++ [x]) (by simp) (headD_le hs)
  have h2 := average_le (l := P ++ [x]) (by simp) (le_last hs)
  generalize average (P ++ [x]) = A at *
  generalize (P ++ [x]).headD 0 = f at *
  have h0 : (0 : ℚ) ≤ f := Nat.cast_nonneg f
  rcases h with h3 | h3
  · have h4 : r * f < r * (slack ε * (A * low)) := mul_lt_mul_of_pos_left h3 (by linarith)
    have h5 : A * (r * low * slack ε) ≤ A * 1 := mul_le_mul_of_nonneg_left hrl (by linarith)
    have h6 : r * (slack ε * (A * low)) = A * (r * low * slack ε) := by ring
    linarith
  · have h4 : A * (r * slack ε) ≤ A * high := mul_le_mul_of_nonneg_left hrh (by linarith)
    have h5 : slack ε * (A * r) < slack ε * x := by
      have : slack ε * (A * r) = A * (r * slack ε) := by ring
      linarith
    have h6 : A * r < x := lt_of_mul_lt_mul_left h5 hsl.le
    have h7 : (f : ℚ) * r ≤ A * r := mul_le_mul_of_nonneg_right h1 (by linarith)
    linarith [mul_comm r (f : ℚ)]

theorem loop_nil {start curr ss rs : Nat}
    (h : rangeLoop (params fl mc ms low high) start curr ss rs ([] : List (Table K V)) = none) : curr - start ≤ mc := by
  by_contra hc
  have h1 : mc < curr - start := by omega
  have h2 : rangeLoop (params fl mc ms low high) start curr ss rs ([] : List (Table K V)) =
    if mc < curr - start then some (start, curr) else none := rfl
  rw [h2, if_pos h1] at h
  cases h

/-- After the first bucket: all sizes exceed `B`. -/
theorem loop_none (hf : Rounds ε fl) (hl0 : 0 ≤ low) {r : ℚ} (hr : 1 < r) (hrh : r * slack ε ≤ high)
    (hrl : r * low * slack ε ≤ 1) {M : Nat} {start curr ss rs : Nat}
    {P : List Nat} {ts : List (Table K V)} (h : At start curr ss rs P) (hs : (P ++ sizes ts).Pairwise (· ≤ ·))
    {B : ℚ} {k : Nat} (hB : 0 ≤ B) (hlow : ∀ x ∈ P ++ sizes ts, B < (x : ℚ) ∧ x ≤ M) (hM : (M : ℚ) ≤ B * r ^ k)
    (hn : rangeLoop (params fl mc ms low high) start curr ss rs ts = none) : P.length + ts.length ≤ mc * k := by
  have hpos : ∀ x ∈ P ++ sizes ts, 1 ≤ k := by
    intro x hx
    by_contra hk
    obtain rfl : k = 0 := by omega
    obtain ⟨h1, h2⟩ := hlow x hx
    have : (x : ℚ) ≤ M := by exact_mod_cast h2
    simp at hM
    linarith
  have hc := h.count
  induction ts generalizing start curr ss rs P B k with
  | nil =>
    have hle := loop_nil hn
    cases P with
    | nil => simp
    | cons x P =>
      have hk := hpos x (by simp)
      have : mc * 1 ≤ mc * k := Nat.mul_le_mul_left _ hk
      simp only [List.length_nil]
      omega
  | cons t ts ih =>
    rw [loop_cons] at hn
    have hs' : ((P ++ [t.size]) ++ sizes ts).Pairwise (· ≤ ·) := by simpa using hs
    have hsx : (P ++ [t.size]).Pairwise (· ≤ ·) := (List.pairwise_append.1 hs').1
    by_cases ht : t.size ≤ ms ∨
      inBucket fl low high (if start = curr then t.size else ss) (rs + t.size) (curr - start + 1) t.size = true
    · rw [if_pos ht] at hn
      have e : P ++ sizes (t :: ts) = (P ++ [t.size]) ++ sizes ts := by simp
      have := ih (at_next h t.size) hs' hB (by rw [← e]; exact hlow) hM hn (by rw [← e]; exact hpos) (at_next h t.size).count
      simp at this ⊢
      omega
    · rw [if_neg ht] at hn
      split at hn
      · cases hn
      · obtain ⟨k, rfl⟩ : ∃ j, k = j + 1 := ⟨k - 1, by have := hpos t.size (by simp); omega⟩
        have hh0 : 0 ≤ high := le_trans (mul_nonneg (by linarith) (le_trans zero_le_one hf.slack_ge)) hrh
        have h1 := outside hf hr hrh hrl hsx ((test_at hf hl0 hh0 h t.size).2 fun h2 => ht (.inr h2))
        have hhd : B < ((P ++ [t.size]).headD 0 : ℕ) := by
          refine (hlow _ ?_).1
          cases P <;> simp
        have h2 : r * B < t.size := lt_trans (mul_lt_mul_of_pos_left hhd (by linarith)) h1
        have h3 : ∀ x : ℕ, x ∈ [] ++ sizes ts → r * B < (x : ℚ) ∧ x ≤ M := by
          intro x hx
          simp only [List.nil_append] at hx
          refine ⟨?_, (hlow x (by simp at hx ⊢; tauto)).2⟩
          have : (t.size : ℚ) ≤ x := by exact_mod_cast (List.pairwise_append.1 hs').2.2 t.size (by simp) x hx
          linarith
        have h4 : (M : ℚ) ≤ r * B * r ^ k := by
          rw [pow_succ] at hM
          have : r * B * r ^ k = B * (r ^ k * r) := by ring
          rw [this]; exact hM
        have h5 := ih (P := []) ⟨rfl, rfl, by simp⟩ (by simpa using (List.pairwise_append.1 hs').2.1)
          (B := r * B) (k := k) (mul_nonneg (by linarith) hB) h3 h4 hn (by
            intro x hx
            by_contra hk
            obtain rfl : k = 0 := by omega
            obtain ⟨h6, h7⟩ := h3 x hx
            have : (x : ℚ) ≤ M := by exact_mod_cast h7
            simp at h4
            linarith) rfl
        simp only [List.length_nil, Nat.zero_add] at h5
        simp only [List.length_cons, Nat.mul_add, Nat.mul_one]
        omega

/-- The first bucket, and all others. -/
theorem loop_none_first (hf : Rounds ε fl) (hl0 : 0 ≤ low) {r : ℚ} (hr : 1 < r) (hrh : r * slack ε ≤ high)
    (hrl : r * low * slack ε ≤ 1) {M : Nat} {start curr ss rs : Nat}
    {P : List Nat} {ts : List (Table K V)} (h : At start curr ss rs P) (hs : (P ++ sizes ts).Pairwise (· ≤ ·))
    {k : Nat} (hlow : ∀ x ∈ P ++ sizes ts, x ≤ M) (hM : (M : ℚ) ≤ ms * r ^ k)
    (hn : rangeLoop (params fl mc ms low high) start curr ss rs ts = none) : P.length + ts.length ≤ mc * (k + 1) := by
  have hc := h.count
  induction ts generalizing start curr ss rs P with
  | nil =>
    have hle := loop_nil hn
    have : mc * 1 ≤ mc * (k + 1) := Nat.mul_le_mul_left _ (by omega)
    simp only [List.length_nil]
    omega
  | cons t ts ih =>
    rw [loop_cons] at hn
    have hs' : ((P ++ [t.size]) ++ sizes ts).Pairwise (· ≤ ·) := by simpa using hs
    by_cases ht : t.size ≤ ms ∨
      inBucket fl low high (if start = curr then t.size else ss) (rs + t.size) (curr - start + 1) t.size = true
    · rw [if_pos ht] at hn
      have e : P ++ sizes (t :: ts) = (P ++ [t.size]) ++ sizes ts := by simp
      have := ih (at_next h t.size) hs' (by rw [← e]; exact hlow) hn (at_next h t.size).count
      simp at this ⊢
      omega
    · rw [if_neg ht] at hn
      split at hn
      · cases hn
      · have h1 : ms < t.size := Nat.lt_of_not_le fun h => ht (.inl h)
        have h5 := loop_none (P := []) hf hl0 hr hrh hrl (M := M) (B := ms) (k := k) ⟨rfl, rfl, by simp⟩
          (by simpa using (List.pairwise_append.1 hs').2.1) (Nat.cast_nonneg _) (by
            intro x hx
            simp only [List.nil_append] at hx
            refine ⟨?_, hlow x (by simp at hx ⊢; tauto)⟩
            have := (List.pairwise_append.1 hs').2.2 t.size (by simp) x hx
            exact_mod_cast Nat.lt_of_lt_of_le h1 this) hM hn
        simp only [List.length_nil, Nat.zero_add] at h5
        simp only [List.length_cons, Nat.mul_add, Nat.mul_one]
        omega

/-! ### The property -/

/-- C92, partial: the tables that a compaction selects, with the possible exception of the last and largest one, form a
bucket, up to the effect of rounding.  Missing: that one, which need not belong to the bucket (`C92_violated`). -/
theorem C92_bucket_partial (hf : Rounds ε fl) (hl0 : 0 ≤ low) (hh0 : 0 ≤ high) (ts sorted : List (Table K V)) (a b : Nat)
    (h : plan (params fl mc ms low high) ts = some (sorted, (a, b))) :
    ∃ front, Bucket ms (low / slack ε) (high * slack ε) front ∧
      (front = ((sizes sorted).drop a).take (b - a) ∨ ∃ x, front ++ [x] = ((sizes sorted).drop a).take (b - a)) := by
  unfold plan at h
  simp only [Option.map_eq_some_iff, Prod.mk.injEq] at h
  obtain ⟨⟨a', b'⟩, h1, rfl, rfl, rfl⟩ := h
  obtain ⟨front, h2, h3, -⟩ := loop_some (P := []) hf hl0 hh0 ⟨rfl, rfl, by simp⟩
    (by simpa [List.pairwise_map] using sortBySize_sorted ts) (.inr (by simp)) h1
  exact ⟨front, h2, by simpa using h3⟩

/-- C92, the number of tables: when no compaction is selected and no table is larger than `min_sstable_size * r ^ k`, where
`1 < r ≤ bucket_high` and `r ≤ 1 / bucket_low` (both up to the effect of rounding), there are at most
`max_sstable_count * (k + 1)` tables. -/
theorem C92_count (hf : Rounds ε fl) (hl0 : 0 ≤ low) (r : ℚ) (hr : 1 < r) (hrh : r * slack ε ≤ high)
    (hrl : r * low * slack ε ≤ 1) (ts : List (Table K V)) (k : Nat)
    (hts : ∀ t ∈ ts, (t.size : ℚ) ≤ ms * r ^ k) (h : plan (params fl mc ms low high) ts = none) :
    ts.length ≤ mc * (k + 1) := by
  unfold plan at h
  simp only [Option.map_eq_none_iff] at h
  obtain ⟨M, hM1, hM2⟩ : ∃ M : Nat, (∀ t ∈ ts, t.size ≤ M) ∧ (M : ℚ) ≤ ms * r ^ k := by
    clear h
    induction ts with
    | nil => exact ⟨0, by simp, by have : (0 : ℚ) < r := by linarith
                                   simp; positivity⟩
    | cons t ts ih =>
      obtain ⟨M, h1, h2⟩ := ih fun u hu => hts u (List.mem_cons_of_mem _ hu)
      refine ⟨max M t.size, ?_, ?_⟩
      · intro u hu
        rcases List.mem_cons.1 hu with rfl | hu
        · exact le_max_right _ _
        · exact (h1 u hu).trans (le_max_left _ _)
      · have h3 := hts t (by simp)
        rcases max_choice M t.size with h4 | h4 <;> rw [h4] <;> assumption
  have h2 := loop_none_first (P := []) hf hl0 hr hrh hrl (M := M) (k := k) ⟨rfl, rfl, by simp⟩
    (by simpa [List.pairwise_map] using sortBySize_sorted ts) (by
      intro x hx
      simp only [List.nil_append, List.mem_map] at hx
      obtain ⟨t, h3, rfl⟩ := hx
      exact hM1 t ((sortBySize_perm ts).mem_iff.1 h3)) hM2 h
  have h3 := (sortBySize_perm ts).length_eq
  simp at h2
  omega

theorem loop_all (hf : Rounds ε fl) {start curr ss rs : Nat} {P : List Nat} {ts : List (Table K V)} (h : At start curr ss rs P)
    {s S : Nat} (hs : ∀ x ∈ P ++ sizes ts, s ≤ x ∧ x ≤ S) (hl : slack ε * (S * low) ≤ s)
    (hh : slack ε * S ≤ s * high) (hl0 : 0 ≤ low) (hh0 : 0 ≤ high) (hc : mc < curr + ts.length - start) :
    rangeLoop (params fl mc ms low high) start curr ss rs ts = some (start, curr + ts.length) := by
  induction ts generalizing start curr ss rs P with
  | nil =>
    have h2 : rangeLoop (params fl mc ms low high) start curr ss rs ([] : List (Table K V)) =
      if mc < curr - start then some (start, curr) else none := rfl
    rw [h2, if_pos (by simpa using hc)]
    rfl
  | cons t ts ih =>
    have e : P ++ sizes (t :: ts) = (P ++ [t.size]) ++ sizes ts := by simp
    rw [e] at hs
    have hP : ∀ x ∈ P ++ [t.size], s ≤ x ∧ x ≤ S := fun x hx => hs x (List.mem_append_left _ hx)
    have h1 := le_average (l := P ++ [t.size]) (by simp) fun x hx => (hP x hx).1
    have h2 := average_le (l := P ++ [t.size]) (by simp) fun x hx => (hP x hx).2
    have h3 : inBucket fl low high (if start = curr then t.size else ss) (rs + t.size) (curr - start + 1) t.size = true := by
      have hs0 : 0 ≤ slack ε := zero_le_one.trans hf.slack_ge
      by_contra hn
      rcases (test_at hf hl0 hh0 h t.size).2 hn with h6 | h6
      · have h4 : average (P ++ [t.size]) * low ≤ S * low := mul_le_mul_of_nonneg_right h2 hl0
        have h5 : (s : ℚ) ≤ ((P ++ [t.size]).headD 0 : ℕ) := by exact_mod_cast (hP _ (by cases P <;> simp)).1
        have := mul_le_mul_of_nonneg_left h4 hs0
        linarith
      · have h4 : s * high ≤ average (P ++ [t.size]) * high := mul_le_mul_of_nonneg_right h1 hh0
        have h5 : (t.size : ℚ) ≤ S := by exact_mod_cast (hP t.size (by simp)).2
        have := mul_le_mul_of_nonneg_left h5 hs0
        linarith
    rw [loop_cons, if_pos (.inr h3), ih (at_next h t.size) hs (by simp only [List.length_cons] at hc; omega)]
    simp only [List.length_cons]
    congr 2
    omega

/-- C92, similar tables: more than `max_sstable_count` tables, all of similar size, are all selected.  Similar means that
the largest, `S`, and the smallest, `s`, are within the factors of each other, up to the effect of rounding. -/
theorem C92_similar (hf : Rounds ε fl) (ts : List (Table K V)) {s S : Nat} (hs : ∀ t ∈ ts, s ≤ t.size ∧ t.size ≤ S) (hl0 : 0 ≤ low)
    (hh0 : 0 ≤ high) (hl : slack ε * (S * low) ≤ s) (hh : slack ε * S ≤ s * high) (hc : mc < ts.length) :
    plan (params fl mc ms low high) ts = some (sortBySize ts, (0, ts.length)) := by
  have hlen := (sortBySize_perm ts).length_eq
  unfold plan
  rw [loop_all hf (P := []) (s := s) (S := S) (start := 0) (curr := 0) (ss := 0) (rs := 0) ⟨rfl, rfl, by simp⟩ (by
    intro x hx
    simp only [List.nil_append, List.mem_map] at hx
    obtain ⟨t, h3, rfl⟩ := hx
    exact hs t ((sortBySize_perm ts).mem_iff.1 h3)) hl hh hl0 hh0 (by omega)]
  simp [hlen]

/-- The default parameters of the documentation: at most four tables, 50000 bytes, half and one and a half of the
average; without rounding. -/
def usual : Params := params id 4 50000 (1 / 2) (3 / 2)

theorem rounds_id : Rounds 0 id := ⟨le_rfl, zero_lt_one, fun x _ => by simp⟩

/-- The hypotheses on rounding are met by a rounding that is not the identity. -/
example : Rounds (1 / 2 ^ 53) fun x => x * (1 - 1 / 2 ^ 53) :=
  ⟨by norm_num, by norm_num, fun x hx => ⟨by linarith, by nlinarith⟩⟩

/-- With `f64` the factor is less than `1 + 2 ^ -50`. -/
example : slack (1 / 2 ^ 53) < 1 + 1 / 2 ^ 50 := by norm_num [slack]

/-- C92 is violated: with the usual parameters four small tables and one of a terabyte are merged, though the small ones
do not fill their bucket and the large one does not belong to it; and five tables of equal size are left alone if there
is a smaller one. -/
theorem C92_violated :
    (∃ ts sorted : List (Table Nat Nat), plan usual ts = some (sorted, (0, 5)) ∧
      sizes sorted = [60000, 60000, 60000, 60000, 1000000000000] ∧
      ¬ Bucket 50000 (1 / 2) (3 / 2) (sizes sorted)) ∧
    (∃ ts : List (Table Nat Nat), plan usual ts = none ∧ sizes ts = [60000, 600000, 600000, 600000, 600000, 600000] ∧
      Bucket 50000 (1 / 2) (3 / 2) (sizes (ts.drop 1)) ∧ 4 < (ts.drop 1).length) := by
  refine ⟨⟨[ofSize 0 60000, ofSize 1 60000, ofSize 2 60000, ofSize 3 60000, ofSize 4 1000000000000],
    [ofSize 0 60000, ofSize 1 60000, ofSize 2 60000, ofSize 3 60000, ofSize 4 1000000000000], by decide +kernel, rfl, ?_⟩,
    ⟨[ofSize 0 60000, ofSize 1 600000, ofSize 2 600000, ofSize 3 600000, ofSize 4 600000, ofSize 5 600000], by decide +kernel,
      rfl, ?_, by decide⟩⟩
  · unfold Bucket average
    decide +kernel
  · unfold Bucket average
    decide +kernel

/-- The hypotheses of `C92_count` are met with the usual parameters, `r = 3/2` and tables of up to 112500 bytes: six
tables are left alone. -/
example : plan usual [ofSize 0 10, ofSize 1 20, ofSize 2 90000, ofSize 3 90000, ofSize 4 90000, ofSize 5 90000] = none ∧
    [ofSize 0 10, ofSize 1 20, ofSize 2 90000, ofSize 3 90000, ofSize 4 90000, ofSize 5 90000].length ≤ 4 * (2 + 1) := by
  have h : plan usual [ofSize 0 10, ofSize 1 20, ofSize 2 90000, ofSize 3 90000, ofSize 4 90000, ofSize 5 90000] = none := by
    decide +kernel
  refine ⟨h, C92_count rounds_id (by norm_num) (3 / 2) (by norm_num) (by norm_num [slack]) (by norm_num [slack]) _ 2 ?_ h⟩
  intro t ht
  have : t.size ≤ 90000 := by revert t; decide
  have h2 : (t.size : ℚ) ≤ 90000 := by exact_mod_cast this
  norm_num
  linarith

/-- The hypotheses of `C92_similar` are met: five tables of 100000 to 120000 bytes. -/
example : plan usual [ofSize 0 100000, ofSize 1 120000, ofSize 2 110000, ofSize 3 100000, ofSize 4 100000] =
    some (sortBySize [ofSize 0 100000, ofSize 1 120000, ofSize 2 110000, ofSize 3 100000, ofSize 4 100000], (0, 5)) :=
  C92_similar rounds_id (s := 100000) (S := 120000) _ (by decide) (by norm_num) (by norm_num) (by norm_num [slack])
    (by norm_num [slack]) (by decide)

end Verif.Lsm.SizeTiered
