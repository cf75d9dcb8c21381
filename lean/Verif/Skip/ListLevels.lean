/- Levels of a `SkipList` with positions, and chains of links with distances. -/
import Verif.Skip.ListModel
import Verif.Skip.Tower

namespace Verif.Skip.Lst

open Verif.Spec

variable {V : Type}

/-- The towers that reach level `i`, with their positions; the first tower of the list has position `k + 1`. -/
def lvp (i : Nat) : Nat → List (Tower V) → List (Addr × Nat)
  | _, [] => []
  | k, t :: T => if i < t.h then (t.addr, k + 1) :: lvp i (k + 1) T else lvp i (k + 1) T

@[simp] theorem lvp_nil (i k : Nat) : lvp i k ([] : List (Tower V)) = [] := rfl

theorem lvp_pos {i k : Nat} {t : Tower V} {T : List (Tower V)} (h : i < t.h) :
    lvp i k (t :: T) = (t.addr, k + 1) :: lvp i (k + 1) T := by simp [lvp, h]

theorem lvp_neg {i k : Nat} {t : Tower V} {T : List (Tower V)} (h : ¬ i < t.h) :
    lvp i k (t :: T) = lvp i (k + 1) T := by simp [lvp, h]

theorem lvp_append (i k : Nat) (A B : List (Tower V)) :
    lvp i k (A ++ B) = lvp i k A ++ lvp i (k + A.length) B := by
  induction A generalizing k with
  | nil => simp
  | cons t A ih =>
    have e : k + (t :: A).length = (k + 1) + A.length := by simp; omega
    rw [e, List.cons_append]
    by_cases h : i < t.h
    · rw [lvp_pos h, lvp_pos h, ih, List.cons_append]
    · rw [lvp_neg h, lvp_neg h, ih]

/-- Move positions up. -/
def up (k : Nat) (l : List (Addr × Nat)) : List (Addr × Nat) := l.map fun x => (x.1, x.2 + k)

@[simp] theorem up_nil (k : Nat) : up k [] = [] := rfl
@[simp] theorem up_cons (k : Nat) (a : Addr) (q : Nat) (l) : up k ((a, q) :: l) = (a, q + k) :: up k l := rfl

theorem lvp_up (i k d : Nat) (T : List (Tower V)) : lvp i (k + d) T = up d (lvp i k T) := by
  induction T generalizing k with
  | nil => rfl
  | cons t T ih =>
    have e : k + d + 1 = (k + 1) + d := by omega
    by_cases h : i < t.h
    · rw [lvp_pos h, lvp_pos h, e, ih, up_cons]
    · rw [lvp_neg h, lvp_neg h, e, ih]

theorem mem_lvp {i k : Nat} {T : List (Tower V)} {x : Addr × Nat} (h : x ∈ lvp i k T) :
    k < x.2 ∧ x.2 ≤ k + T.length ∧ ∃ t ∈ T, i < t.h ∧ t.addr = x.1 := by
  induction T generalizing k with
  | nil => simp at h
  | cons t T ih =>
    by_cases hh : i < t.h
    · rw [lvp_pos hh] at h
      rcases List.mem_cons.1 h with rfl | h
      · exact ⟨by simp, by simp, t, by simp, hh, rfl⟩
      · obtain ⟨h1, h2, t', h3, h4⟩ := ih h
        exact ⟨by omega, by simp; omega, t', by simp [h3], h4⟩
    · rw [lvp_neg hh] at h
      obtain ⟨h1, h2, t', h3, h4⟩ := ih h
      exact ⟨by omega, by simp; omega, t', by simp [h3], h4⟩

theorem lvp_length_le (i k : Nat) (T : List (Tower V)) : (lvp i k T).length ≤ T.length := by
  induction T generalizing k with
  | nil => simp
  | cons t T ih =>
    have := ih (k + 1)
    by_cases hh : i < t.h
    · rw [lvp_pos hh]; simp; exact this
    · rw [lvp_neg hh]; simp; omega

theorem lvp_sublist (i k : Nat) (T : List (Tower V)) : ((lvp i k T).map (·.1)).Sublist (T.map (·.addr)) := by
  induction T generalizing k with
  | nil => simp
  | cons t T ih =>
    by_cases hh : i < t.h
    · rw [lvp_pos hh]; exact (ih (k + 1)).cons_cons _
    · rw [lvp_neg hh]; exact (ih (k + 1)).cons _

/-- The last node of `x :: l`. -/
def lastP (x : Addr × Nat) : List (Addr × Nat) → Addr × Nat
  | [] => x
  | y :: l => lastP y l

@[simp] theorem lastP_nil (x) : lastP x [] = x := rfl
@[simp] theorem lastP_cons (x y l) : lastP x (y :: l) = lastP y l := rfl

theorem lastP_append (x) (P Q : List (Addr × Nat)) : lastP x (P ++ Q) = lastP (lastP x P) Q := by
  induction P generalizing x with
  | nil => rfl
  | cons b P ih => simpa using ih b

theorem lastP_mem (x) (P : List (Addr × Nat)) : lastP x P ∈ x :: P := by
  induction P generalizing x with
  | nil => simp
  | cons b P ih => have := ih b; simp only [lastP_cons, List.mem_cons] at this ⊢; tauto

theorem cur_downP (i k : Nat) (x : Addr × Nat) (A : List (Tower V)) :
    ∃ P1 P2, lvp i k A = P1 ++ P2 ∧ lastP x (lvp (i + 1) k A) = lastP x P1 := by
  induction A generalizing x k with
  | nil => exact ⟨[], [], rfl, rfl⟩
  | cons t A ih =>
    by_cases h1 : i + 1 < t.h
    · obtain ⟨P1, P2, h, h'⟩ := ih (k + 1) (t.addr, k + 1)
      rw [lvp_pos h1, lvp_pos (by omega : i < t.h), h]
      exact ⟨(t.addr, k + 1) :: P1, P2, rfl, h'⟩
    · rw [lvp_neg h1]
      obtain ⟨P1, P2, h, h'⟩ := ih (k + 1) x
      by_cases h2 : i < t.h
      · rw [lvp_pos h2, h]
        by_cases h3 : P1 = []
        · subst h3
          exact ⟨[], (t.addr, k + 1) :: P2, rfl, h'⟩
        · refine ⟨(t.addr, k + 1) :: P1, P2, rfl, ?_⟩
          rw [h']
          cases P1 with
          | nil => exact absurd rfl h3
          | cons b P => rfl
      · rw [lvp_neg h2]
        exact ⟨P1, P2, h, h'⟩

theorem lastP_mono (i k : Nat) (x y : Addr × Nat) (A : List (Tower V)) (h : x.2 ≤ y.2) (hx : x.2 ≤ k) :
    (lastP x (lvp (i + 1) k A)).2 ≤ (lastP y (lvp i k A)).2 := by
  induction A generalizing x y k with
  | nil => exact h
  | cons t A ih =>
    by_cases h1 : i + 1 < t.h
    · rw [lvp_pos h1, lvp_pos (by omega : i < t.h), lastP_cons, lastP_cons]
      exact ih (k + 1) _ _ (Nat.le_refl _) (Nat.le_refl _)
    · rw [lvp_neg h1]
      by_cases h2 : i < t.h
      · rw [lvp_pos h2, lastP_cons]
        exact ih (k + 1) _ _ (by simp only; omega) (by omega)
      · rw [lvp_neg h2]
        exact ih (k + 1) _ _ h (by omega)

theorem lastP_zero (k : Nat) (x : Addr × Nat) (A : List (Tower V)) (hx : x.2 = k) (h : ∀ t ∈ A, 0 < t.h) :
    (lastP x (lvp 0 k A)).2 = k + A.length := by
  induction A generalizing x k with
  | nil => exact hx
  | cons t A ih =>
    rw [lvp_pos (h t (by simp)), lastP_cons, ih (k + 1) _ rfl fun t ht => h t (by simp [ht])]
    simp; omega

theorem lastP_le (i k : Nat) (x : Addr × Nat) (A : List (Tower V)) (hx : x.2 ≤ k) :
    (lastP x (lvp i k A)).2 ≤ k + A.length := by
  rcases List.mem_cons.1 (lastP_mem x (lvp i k A)) with h | h
  · rw [h]; omega
  · exact (mem_lvp h).2.1

theorem lvp_top {i : Nat} (k : Nat) {A : List (Tower V)} (h : ∀ t ∈ A, t.h ≤ i) : lvp i k A = [] := by
  induction A generalizing k with
  | nil => rfl
  | cons t A ih =>
    rw [lvp_neg (by have := h t (by simp); omega), ih (k + 1) fun t ht => h t (by simp [ht])]

/-! ### Chains -/

/-- Following `lk` from node `a` at position `p` visits exactly `l` with exact distances, and ends in a null
link whose distance reaches at least (if `ex`, exactly) to position `n`. -/
def ChainP (lk : Addr → Option Link) (ex : Prop) (n : Nat) : Addr × Nat → List (Addr × Nat) → Prop
  | x, [] => ∃ d, lk x.1 = some ⟨none, d⟩ ∧ n ≤ x.2 + d ∧ (ex → n = x.2 + d)
  | x, y :: l => ∃ d, lk x.1 = some ⟨some y.1, d⟩ ∧ x.2 + d = y.2 ∧ ChainP lk ex n y l

/-- Following `lk` visits `l` with exact distances. -/
def SegP (lk : Addr → Option Link) : Addr × Nat → List (Addr × Nat) → Prop
  | _, [] => True
  | x, y :: l => ∃ d, lk x.1 = some ⟨some y.1, d⟩ ∧ x.2 + d = y.2 ∧ SegP lk y l

variable {lk lk' : Addr → Option Link} {ex : Prop} {n : Nat}

theorem chainP_append {x : Addr × Nat} {P Q : List (Addr × Nat)} :
    ChainP lk ex n x (P ++ Q) ↔ SegP lk x P ∧ ChainP lk ex n (lastP x P) Q := by
  induction P generalizing x with
  | nil => simp [SegP]
  | cons b P ih => simp [SegP, ChainP, ih, ← and_assoc]

/-- The first link of a chain. -/
theorem chainP_link {x : Addr × Nat} {Q : List (Addr × Nat)} (h : ChainP lk ex n x Q) :
    ∃ d, lk x.1 = some ⟨(Q.map (·.1)).head?, d⟩ := by
  cases Q with
  | nil => obtain ⟨d, h, _⟩ := h; exact ⟨d, h⟩
  | cons y Q => obtain ⟨d, h, _⟩ := h; exact ⟨d, h⟩

theorem chainP_weaken {x : Addr × Nat} {Q : List (Addr × Nat)} {ex' : Prop} (hx : ex' → ex) (h : ChainP lk ex n x Q) :
    ChainP lk ex' n x Q := by
  induction Q generalizing x with
  | nil => obtain ⟨d, h1, h2, h3⟩ := h; exact ⟨d, h1, h2, fun e => h3 (hx e)⟩
  | cons y Q ih => obtain ⟨d, h1, h2, h3⟩ := h; exact ⟨d, h1, h2, ih h3⟩

theorem chainP_frame {x : Addr × Nat} {l : List (Addr × Nat)} (h : ChainP lk ex n x l)
    (hf : ∀ y ∈ x :: l, lk' y.1 = lk y.1) : ChainP lk' ex n x l := by
  induction l generalizing x with
  | nil => obtain ⟨d, h1, h2, h3⟩ := h; exact ⟨d, by rw [hf x (by simp)]; exact h1, h2, h3⟩
  | cons y l ih =>
    obtain ⟨d, h1, h2, h3⟩ := h
    exact ⟨d, by rw [hf x (by simp)]; exact h1, h2, ih h3 fun z hz => hf z (List.mem_cons_of_mem _ hz)⟩

theorem segP_frame {x : Addr × Nat} {l : List (Addr × Nat)} (hn : ((x :: l).map (·.1)).Nodup) (h : SegP lk x l)
    (hf : ∀ y ∈ x :: l, y.1 ≠ (lastP x l).1 → lk' y.1 = lk y.1) : SegP lk' x l := by
  induction l generalizing x with
  | nil => trivial
  | cons y l ih =>
    obtain ⟨d, h1, h2, h3⟩ := h
    refine ⟨d, ?_, h2, ih (List.nodup_cons.1 hn).2 h3 fun z hz => hf z (List.mem_cons_of_mem _ hz)⟩
    rw [hf x (by simp) ?_]
    · exact h1
    · intro hc
      rw [lastP_cons] at hc
      refine (List.nodup_cons.1 hn).1 ?_
      show x.1 ∈ _
      rw [hc]
      exact List.mem_map.2 ⟨_, lastP_mem y l, rfl⟩

theorem chainP_up {x : Addr × Nat} {l : List (Addr × Nat)} (k : Nat) (h : ChainP lk ex n x l) :
    ChainP lk ex (n + k) (x.1, x.2 + k) (up k l) := by
  induction l generalizing x with
  | nil => obtain ⟨d, h1, h2, h3⟩ := h; exact ⟨d, h1, by simp only; omega, fun e => by have := h3 e; simp only; omega⟩
  | cons y l ih =>
    obtain ⟨d, h1, h2, h3⟩ := h
    exact ⟨d, h1, by simp only; omega, ih h3⟩

theorem chainP_down {x : Addr × Nat} {l : List (Addr × Nat)} (k : Nat) (h : ChainP lk ex (n + k) (x.1, x.2 + k) (up k l)) :
    ChainP lk ex n x l := by
  induction l generalizing x with
  | nil =>
    obtain ⟨d, h1, h2, h3⟩ := h
    simp only at h2 h3
    exact ⟨d, h1, by omega, fun e => by have := h3 e; omega⟩
  | cons y l ih =>
    obtain ⟨d, h1, h2, h3⟩ := h
    simp only at h2
    exact ⟨d, h1, by omega, ih h3⟩

/-- Reaching the rest of a chain from another node, with all positions moved up by `k`. -/
theorem chainP_retarget {x x' : Addr × Nat} {l : Link} {d' k : Nat} {Q : List (Addr × Nat)} (h : ChainP lk ex n x Q)
    (hl : lk x.1 = some l) (hl' : lk' x'.1 = some ⟨l.next, d'⟩) (hd : x'.2 + d' = x.2 + l.dist + k)
    (hf : ∀ y ∈ Q, lk' y.1 = lk y.1) : ChainP lk' ex (n + k) x' (up k Q) := by
  cases Q with
  | nil =>
    obtain ⟨d, h1, h2, h3⟩ := h
    rw [hl] at h1
    obtain rfl := Option.some.inj h1
    exact ⟨d', hl', by simp only at hd; omega, fun e => by have := h3 e; simp only at hd; omega⟩
  | cons y Q =>
    obtain ⟨d, h1, h2, h3⟩ := h
    rw [hl] at h1
    obtain rfl := Option.some.inj h1
    exact ⟨d', hl', by simp only at hd ⊢; omega, chainP_up k (chainP_frame h3 hf)⟩

/-- The same with all positions moved down by one; a null link may keep a larger distance. -/
theorem chainP_retarget_down {x x' : Addr × Nat} {l : Link} {d' : Nat} {Q : List (Addr × Nat)}
    (h : ChainP lk ex (n + 1) x (up 1 Q))
    (hl : lk x.1 = some l) (hl' : lk' x'.1 = some ⟨l.next, d'⟩) (hd : x.2 + l.dist ≤ x'.2 + d' + 1)
    (hd' : l.next ≠ none → x.2 + l.dist = x'.2 + d' + 1)
    (hf : ∀ y ∈ Q, lk' y.1 = lk y.1) : ChainP lk' False n x' Q := by
  cases Q with
  | nil =>
    obtain ⟨d, h1, h2, h3⟩ := h
    rw [hl] at h1
    obtain rfl := Option.some.inj h1
    exact ⟨d', hl', by simp only at hd; omega, False.elim⟩
  | cons y Q =>
    obtain ⟨d, h1, h2, h3⟩ := h
    rw [hl] at h1
    obtain rfl := Option.some.inj h1
    have := hd' (by simp)
    simp only at this h2
    exact ⟨d', hl', by omega, chainP_frame (chainP_weaken False.elim (chainP_down 1 h3)) hf⟩

end Verif.Skip.Lst
