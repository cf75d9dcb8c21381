/- Level lists of a skip list: the towers in order, the sublist visible at each level, and linked chains. -/
import Verif.Skip.Heap
import Mathlib.Data.List.Basic
import Mathlib.Data.List.Nodup
import Mathlib.Tactic.Tauto

namespace Verif.Skip

/-- A node of the abstract skip list: address, entry, number of links. -/
structure Tower (E : Type) where
  addr : Addr
  e : E
  h : Nat

variable {E L : Type}

/-- Addresses of the towers that reach level `i`. -/
def lv (i : Nat) (T : List (Tower E)) : List Addr := (T.filter (fun t => decide (i < t.h))).map (·.addr)

@[simp] theorem lv_nil (i : Nat) : lv i ([] : List (Tower E)) = [] := rfl

theorem lv_append (i : Nat) (A B : List (Tower E)) : lv i (A ++ B) = lv i A ++ lv i B := by
  simp [lv]

theorem lv_cons_pos {i : Nat} {t : Tower E} (T) (h : i < t.h) : lv i (t :: T) = t.addr :: lv i T := by
  simp [lv, h]

theorem lv_cons_neg {i : Nat} {t : Tower E} (T) (h : ¬ i < t.h) : lv i (t :: T) = lv i T := by
  simp [lv, h]

theorem mem_lv {i : Nat} {T : List (Tower E)} {a : Addr} : a ∈ lv i T ↔ ∃ t ∈ T, i < t.h ∧ t.addr = a := by
  simp [lv, and_assoc]

theorem mem_lv_addr {i : Nat} {T : List (Tower E)} {a : Addr} (h : a ∈ lv i T) : a ∈ T.map (·.addr) := by
  obtain ⟨t, ht, _, rfl⟩ := mem_lv.1 h
  exact List.mem_map.2 ⟨t, ht, rfl⟩

theorem lv_sublist (i : Nat) (T : List (Tower E)) : (lv i T).Sublist (T.map (·.addr)) :=
  List.filter_sublist.map _

theorem nodup_lv {i : Nat} {a : Addr} {T : List (Tower E)} (h : (a :: T.map (·.addr)).Nodup) :
    (a :: lv i T).Nodup := h.sublist ((lv_sublist i T).cons_cons a)

theorem lv_length_le (i : Nat) (T : List (Tower E)) : (lv i T).length ≤ T.length := by
  simpa using (lv_sublist i T).length_le

theorem lv_zero {T : List (Tower E)} (h : ∀ t ∈ T, 0 < t.h) : lv 0 T = T.map (·.addr) := by
  unfold lv
  rw [List.filter_eq_self.2]
  intro t ht; simpa using h t ht

/-- The last address of `a :: l`. -/
def lastD (a : Addr) : List Addr → Addr
  | [] => a
  | b :: l => lastD b l

@[simp] theorem lastD_nil (a : Addr) : lastD a [] = a := rfl
@[simp] theorem lastD_cons (a b : Addr) (l) : lastD a (b :: l) = lastD b l := rfl

theorem lastD_append (a : Addr) (P Q : List Addr) : lastD a (P ++ Q) = lastD (lastD a P) Q := by
  induction P generalizing a with
  | nil => rfl
  | cons b P ih => simpa using ih b

theorem lastD_mem (a : Addr) (P : List Addr) : lastD a P ∈ a :: P := by
  induction P generalizing a with
  | nil => simp
  | cons b P ih => have := ih b; simp only [lastD_cons, List.mem_cons] at this ⊢; tauto

theorem lastD_eq_head {a : Addr} {P : List Addr} (h : (a :: P).Nodup) (e : lastD a P = a) : P = [] := by
  cases P with
  | nil => rfl
  | cons b P =>
    exfalso
    have := lastD_mem b P
    simp only [lastD_cons] at e
    rw [e] at this
    exact (List.nodup_cons.1 h).1 this

/-- The cursor reached at a higher level lies on the lower level too. -/
theorem cur_down (i : Nat) (a : Addr) (A : List (Tower E)) :
    ∃ P1 P2, lv i A = P1 ++ P2 ∧ lastD a (lv (i + 1) A) = lastD a P1 := by
  induction A generalizing a with
  | nil => exact ⟨[], [], rfl, rfl⟩
  | cons t A ih =>
    by_cases h1 : i + 1 < t.h
    · obtain ⟨P1, P2, h, h'⟩ := ih t.addr
      rw [lv_cons_pos _ h1, lv_cons_pos A (by omega : i < t.h), h]
      exact ⟨t.addr :: P1, P2, rfl, h'⟩
    · rw [lv_cons_neg _ h1]
      obtain ⟨P1, P2, h, h'⟩ := ih a
      by_cases h2 : i < t.h
      · rw [lv_cons_pos _ h2, h]
        by_cases h3 : P1 = []
        · subst h3
          exact ⟨[], t.addr :: P2, rfl, h'⟩
        · refine ⟨t.addr :: P1, P2, rfl, ?_⟩
          rw [h']
          cases P1 with
          | nil => exact absurd rfl h3
          | cons b P => rfl
      · rw [lv_cons_neg _ h2]
        exact ⟨P1, P2, h, h'⟩

/-- Following `lk` from `a` visits exactly `l` and then ends in a null pointer. -/
def Chain (lk : Addr → Option (Option Addr)) : Addr → List Addr → Prop
  | a, [] => lk a = some none
  | a, b :: l => lk a = some (some b) ∧ Chain lk b l

/-- Following `lk` from `a` visits `l`. -/
def Seg (lk : Addr → Option (Option Addr)) : Addr → List Addr → Prop
  | _, [] => True
  | a, b :: l => lk a = some (some b) ∧ Seg lk b l

variable {lk lk' : Addr → Option (Option Addr)}

theorem chain_append {a : Addr} {P Q : List Addr} :
    Chain lk a (P ++ Q) ↔ Seg lk a P ∧ Chain lk (lastD a P) Q := by
  induction P generalizing a with
  | nil => simp [Seg]
  | cons b P ih => simp [Seg, Chain, ih, and_assoc]

theorem seg_append {a : Addr} {P Q : List Addr} :
    Seg lk a (P ++ Q) ↔ Seg lk a P ∧ Seg lk (lastD a P) Q := by
  induction P generalizing a with
  | nil => simp [Seg]
  | cons b P ih => simp [Seg, ih, and_assoc]

theorem chain_head {a : Addr} {Q : List Addr} (h : Chain lk a Q) : lk a = some Q.head? := by
  cases Q with
  | nil => exact h
  | cons b Q => exact h.1

theorem chain_frame {a : Addr} {l : List Addr} (h : Chain lk a l) (hf : ∀ x ∈ a :: l, lk' x = lk x) :
    Chain lk' a l := by
  induction l generalizing a with
  | nil => rw [Chain, hf a (by simp)]; exact h
  | cons b l ih =>
    exact ⟨by rw [hf a (by simp)]; exact h.1, ih h.2 fun x hx => hf x (List.mem_cons_of_mem _ hx)⟩

theorem seg_frame {a : Addr} {l : List Addr} (hn : (a :: l).Nodup) (h : Seg lk a l)
    (hf : ∀ x ∈ a :: l, x ≠ lastD a l → lk' x = lk x) : Seg lk' a l := by
  induction l generalizing a with
  | nil => trivial
  | cons b l ih =>
    refine ⟨?_, ih (List.nodup_cons.1 hn).2 h.2 fun x hx => hf x (List.mem_cons_of_mem _ hx)⟩
    rw [hf a (by simp) ?_]
    · exact h.1
    · rintro hc
      have := lastD_mem b l
      rw [lastD_cons] at hc
      rw [← hc] at this
      exact (List.nodup_cons.1 hn).1 this

/-- Links that agree before the last node of `P` and from it continue along `R`. -/
theorem chain_splice {a : Addr} {P Q R : List Addr} (hn : (a :: (P ++ Q)).Nodup) (h : Chain lk a (P ++ Q))
    (hf : ∀ x ∈ a :: P, x ≠ lastD a P → lk' x = lk x) (hR : Chain lk' (lastD a P) R) :
    Chain lk' a (P ++ R) := by
  rw [chain_append] at h ⊢
  refine ⟨seg_frame (hn.sublist ?_) h.1 hf, hR⟩
  simp

/-- The continuation of a chain at its head depends only on the links of the later nodes. -/
theorem chain_of_tail {a b : Addr} {Q : List Addr} (h : Chain lk b Q) (he : lk' a = lk b)
    (hf : ∀ x ∈ Q, lk' x = lk x) : Chain lk' a Q := by
  cases Q with
  | nil => rw [Chain, he]; exact h
  | cons c Q => exact ⟨by rw [he]; exact h.1, chain_frame h.2 hf⟩

end Verif.Skip
