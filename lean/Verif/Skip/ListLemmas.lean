/- The representation of a `SkipList` in memory and the correctness of its operations. -/
import Verif.Skip.ListLevels

namespace Verif.Skip.Lst

open Verif.Spec

variable {V : Type}

/-- The level-`i` links. -/
def lk (m : LHeap V) (i : Nat) : Addr → Option Link := fun a => getLink m a i

/-- The memory contains the head and the towers of `T`. -/
structure Sub (S : Addr → Option (Option V × Nat)) (head : Addr) (T : List (Tower V)) : Prop where
  hd : S head = some (none, maxHeight + 1)
  tow : ∀ t ∈ T, S t.addr = some (some t.e, t.h)
  pos : ∀ t ∈ T, 0 < t.h ∧ t.h ≤ maxHeight + 1
  nodup : (head :: T.map (·.addr)).Nodup

/-- The memory `m` holds the list with towers `T` behind `head`, and nothing else. -/
structure Rep (ex : Prop) (m : LHeap V) (head : Addr) (T : List (Tower V)) : Prop where
  sub : Sub (shape m) head T
  only : ∀ a, a ≠ head → a ∉ T.map (·.addr) → shape m a = none
  chain : ∀ i ≤ maxHeight, ChainP (lk m i) ex T.length (head, 0) (lvp i 0 T)

/-- A list in a good state, with its towers; `ex`: the distances of null links are exact. -/
def Good (ex : Prop) (s : SkipList V) (T : List (Tower V)) : Prop :=
  Rep ex s.mem s.head T ∧ s.len = T.length ∧ ∀ a, s.bump ≤ a → s.mem a = none

theorem Good.weaken {ex ex' : Prop} {s : SkipList V} {T : List (Tower V)} (hx : ex' → ex) (h : Good ex s T) : Good ex' s T :=
  ⟨⟨h.1.sub, h.1.only, fun i hi => chainP_weaken hx (h.1.chain i hi)⟩, h.2⟩

theorem walk_ok {m : LHeap V} {i : Nat} {ex : Prop} {n idx : Nat} {x : Addr × Nat} {P Q : List (Addr × Nat)} {fuel w : Nat}
    (hc : ChainP (lk m i) ex n x (P ++ Q)) (hx : x.2 ≤ idx) (hP : ∀ y ∈ P, y.2 ≤ idx) (hQ : ∀ y ∈ Q, idx < y.2)
    (hf : P.length < fuel) :
    ∃ l, getLink m (lastP x P).1 i = some l ∧ x.2 ≤ (lastP x P).2 ∧ (lastP x P).2 ≤ idx ∧
      walk m i fuel x.1 (idx - x.2) w =
        some ⟨(lastP x P).1, idx - (lastP x P).2, w + ((lastP x P).2 - x.2), l⟩ := by
  induction P generalizing x fuel w with
  | nil =>
    obtain ⟨f, rfl⟩ : ∃ f, fuel = f + 1 := ⟨fuel - 1, by simp at hf; omega⟩
    cases Q with
    | nil =>
      obtain ⟨d, h1, h2, h3⟩ := hc
      refine ⟨_, h1, Nat.le_refl _, hx, ?_⟩
      have h1' : getLink m x.1 i = some ⟨none, d⟩ := h1
      simp [walk, h1']
    | cons y Q =>
      obtain ⟨d, h1, h2, h3⟩ := hc
      have := hQ y (by simp)
      have h1' : getLink m x.1 i = some ⟨some y.1, d⟩ := h1
      refine ⟨_, h1, Nat.le_refl _, hx, ?_⟩
      have hnd : ¬ d ≤ idx - x.2 := by omega
      simp [walk, h1', hnd]
  | cons y P ih =>
    obtain ⟨f, rfl⟩ : ∃ f, fuel = f + 1 := ⟨fuel - 1, by simp at hf; omega⟩
    obtain ⟨d, h1, h2, h3⟩ := hc
    have hy := hP y (by simp)
    have h1' : getLink m x.1 i = some ⟨some y.1, d⟩ := h1
    obtain ⟨l, g1, g2, g3, g4⟩ := ih (x := y) (fuel := f) (w := w + d) h3 hy (fun z hz => hP z (by simp [hz]))
      (by simp at hf; omega)
    refine ⟨l, g1, ?_, g3, ?_⟩
    · rw [lastP_cons]; omega
    · have hd : d ≤ idx - x.2 := by omega
      have e : idx - x.2 - d = idx - y.2 := by omega
      simp only [walk, h1', hd, if_true, e, g4, lastP_cons]
      congr 2
      omega

/-- The last node of the prefix `A` at level `i`. -/
def lst (head : Addr) (A : List (Tower V)) (i : Nat) : Addr × Nat := lastP (head, 0) (lvp i 0 A)

theorem lst_le (head : Addr) (A : List (Tower V)) (i : Nat) : (lst head A i).2 ≤ A.length := by
  have := lastP_le i 0 (head, 0) A (Nat.le_refl _)
  simpa [lst] using this

theorem lst_mono (head : Addr) (A : List (Tower V)) (i : Nat) : (lst head A (i + 1)).2 ≤ (lst head A i).2 :=
  lastP_mono i 0 _ _ A (Nat.le_refl _) (Nat.le_refl _)

theorem lst_mem (head : Addr) (A : List (Tower V)) (i : Nat) :
    (lst head A i).1 = head ∨ ∃ t ∈ A, i < t.h ∧ t.addr = (lst head A i).1 := by
  rcases List.mem_cons.1 (lastP_mem (head, 0) (lvp i 0 A)) with h | h
  · left; rw [lst, h]
  · right; exact (mem_lvp h).2.2

/-- Walking level `i` for index `idx`, from the last node of `A` on the level above. -/
theorem walk_level {m : LHeap V} {head : Addr} {A B : List (Tower V)} {i fuel idx n w : Nat} {ex : Prop}
    (hch : ChainP (lk m i) ex n (head, 0) (lvp i 0 (A ++ B))) (hA : A.length ≤ idx) (hB : B = [] ∨ A.length = idx)
    (hf : A.length < fuel) :
    ∃ l, getLink m (lst head A i).1 i = some l ∧
      walk m i fuel (lst head A (i + 1)).1 (idx - (lst head A (i + 1)).2) w =
        some ⟨(lst head A i).1, idx - (lst head A i).2, w + ((lst head A i).2 - (lst head A (i + 1)).2), l⟩ := by
  obtain ⟨P1, P2, h1, h2⟩ := cur_downP i 0 (head, 0) A
  have hmem : ∀ y ∈ P1 ++ P2, y.2 ≤ idx := by
    intro y hy; rw [← h1] at hy; have := (mem_lvp hy).2.1; omega
  rw [lvp_append, h1, List.append_assoc, chainP_append] at hch
  have hlen := lvp_length_le i 0 A
  rw [h1, List.length_append] at hlen
  have hx : (lastP (head, 0) P1).2 ≤ idx := by
    rcases List.mem_cons.1 (lastP_mem (head, 0) P1) with h | h
    · rw [h]; omega
    · exact hmem _ (by simp [h])
  obtain ⟨l, g1, g2, g3, g4⟩ := walk_ok (w := w) (fuel := fuel) (idx := idx) hch.2 hx
    (fun y hy => hmem y (by simp [hy])) (fun y hy => by
      have h3 := (mem_lvp hy).1
      rcases hB with h4 | h4
      · subst h4; simp at hy
      · omega) (by omega)
  have e1 : lst head A i = lastP (lastP (head, 0) P1) P2 := by rw [lst, h1, lastP_append]
  have e2 : lst head A (i + 1) = lastP (head, 0) P1 := h2
  rw [e1, e2]
  exact ⟨l, g1, g4⟩

theorem Sub.lst_shape {S : Addr → Option (Option V × Nat)} {head : Addr} {A B : List (Tower V)} (h : Sub S head (A ++ B))
    {i : Nat} (hi : i ≤ maxHeight) : ∃ e n, S (lst head A i).1 = some (e, n) ∧ i < n := by
  rcases lst_mem head A i with h1 | ⟨t, h1, h2, h3⟩
  · rw [h1]; exact ⟨_, _, h.hd, by omega⟩
  · rw [← h3]; exact ⟨_, _, h.tow t (by simp [h1]), h2⟩

theorem Sub.lst_top {S : Addr → Option (Option V × Nat)} {head : Addr} {A B : List (Tower V)} (h : Sub S head (A ++ B)) :
    lst head A (maxHeight + 1) = (head, 0) := by
  rw [lst, lvp_top 0 fun t ht => (h.pos t (by simp [ht])).2]; rfl

theorem Sub.lst_ne {S : Addr → Option (Option V × Nat)} {head : Addr} {A B : List (Tower V)} (h : Sub S head (A ++ B))
    {a : Addr} (ha : a ∉ head :: A.map (·.addr)) (i : Nat) : (lst head A i).1 ≠ a := by
  rintro rfl
  apply ha
  rcases lst_mem head A i with h1 | ⟨t, h1, h2, h3⟩
  · rw [h1]; simp
  · rw [← h3]; exact List.mem_cons_of_mem _ (List.mem_map.2 ⟨t, h1, rfl⟩)

/-! ### insert -/

/-- Links after the descent of `insert`. -/
def post1 (m0 : LHeap V) (head : Addr) (A : List (Tower V)) (new : Addr) (nh : Nat) (j : Nat) (a : Addr) : Option Link :=
  if j ≤ nh then
    if a = (lst head A j).1 then some ⟨some new, 1⟩
    else if a = new then getLink m0 (lst head A j).1 j else getLink m0 a j
  else getLink m0 a j

/-- Links after `insert`. -/
def post2 (m0 : LHeap V) (head : Addr) (A : List (Tower V)) (new : Addr) (nh : Nat) (j : Nat) (a : Addr) : Option Link :=
  if j ≤ nh then
    if a = (lst head A j).1 then some ⟨some new, A.length - (lst head A j).2 + 1⟩
    else if a = new then
      (getLink m0 (lst head A j).1 j).map fun l => ⟨l.next, l.dist - (A.length - (lst head A j).2)⟩
    else getLink m0 a j
  else if a = (lst head A j).1 then (getLink m0 a j).map fun l => ⟨l.next, l.dist + 1⟩
  else getLink m0 a j

theorem linkNew_ok {m0 m : LHeap V} {head new : Addr} {A B : List (Tower V)} {nh i : Nat} {v : V} {c : Cursor}
    (hS : Sub (shape m) head (A ++ B)) (hn : shape m new = some (some v, nh + 1)) (hnew : new ∉ head :: A.map (·.addr))
    (hi : i ≤ maxHeight) (hm : ∀ a, getLink m a i = getLink m0 a i) (hcur : c.cur = (lst head A i).1)
    (hl : getLink m (lst head A i).1 i = some c.link) :
    ∃ m', linkNew new nh i c m = some m' ∧ shape m' = shape m ∧
      (∀ a, getLink m' a i = post1 m0 head A new nh i a) ∧ ∀ a j, j ≠ i → getLink m' a j = getLink m a j := by
  unfold linkNew
  by_cases h : i ≤ nh
  · rw [if_pos h]
    obtain ⟨e, n, h1, h2⟩ := hS.lst_shape hi
    obtain ⟨m1, a1, a2, a3⟩ := setLink_ok h1 h2 (⟨some new, 1⟩ : Link)
    obtain ⟨m2, b1, b2, b3⟩ := setLink_ok (m := m1) (i := i) (by rw [a2]; exact hn) (by omega) c.link
    refine ⟨m2, by simp [hcur, a1, b1], by rw [b2, a2], ?_, ?_⟩
    · intro a
      have hne := hS.lst_ne hnew i
      rw [b3, a3, post1, if_pos h]
      by_cases e1 : a = (lst head A i).1
      · have : a ≠ new := by rw [e1]; exact hne
        simp [e1, hne]
      · by_cases e2 : a = new
        · simp [e2, hne.symm, ← hm, hl]
        · simp [e1, e2, hm]
    · intro a j hj; rw [b3, a3]; simp [hj]
  · rw [if_neg h]
    refine ⟨m, rfl, rfl, fun a => ?_, fun a j _ => rfl⟩
    rw [post1, if_neg h, hm]

/-- `last_nodes` for one level. -/
def lastEntry (head : Addr) (A : List (Tower V)) (j : Nat) : Addr × Nat :=
  ((lst head A j).1, (lst head A j).2 - (lst head A (j + 1)).2)

theorem insertDown_ok {m0 : LHeap V} {head new : Addr} {A B : List (Tower V)} {nh fuel n : Nat} {v : V} {ex : Prop}
    (hS : Sub (shape m0) head (A ++ B)) (hn : shape m0 new = some (some v, nh + 1)) (hnew : new ∉ head :: A.map (·.addr))
    (hch : ∀ i ≤ maxHeight, ChainP (lk m0 i) ex n (head, 0) (lvp i 0 (A ++ B))) (hf : A.length < fuel) :
    ∀ (i : Nat) (m : LHeap V) (acc : List (Addr × Nat)), i ≤ maxHeight → shape m = shape m0 →
      (∀ a j, getLink m a j = if i < j then post1 m0 head A new nh j a else getLink m0 a j) →
      ∃ m', insertDown fuel new nh i m (lst head A (i + 1)).1 (A.length - (lst head A (i + 1)).2) acc =
          some (m', (List.range (i + 1)).map (lastEntry head A) ++ acc) ∧ shape m' = shape m0 ∧
        ∀ a j, getLink m' a j = post1 m0 head A new nh j a := by
  intro i
  induction i with
  | zero =>
    intro m acc hi hsh hm
    have hm0 : ∀ a, getLink m a 0 = getLink m0 a 0 := fun a => by rw [hm, if_neg (Nat.lt_irrefl _)]
    have hc : ChainP (lk m 0) ex n (head, 0) (lvp 0 0 (A ++ B)) := chainP_frame (hch 0 hi) fun y _ => hm0 y.1
    obtain ⟨l, g1, g2⟩ := walk_level (w := 0) (idx := A.length) hc (Nat.le_refl _) (.inr rfl) hf
    obtain ⟨m', b1, b2, b3, b4⟩ := linkNew_ok (m0 := m0) (c := ⟨(lst head A 0).1, A.length - (lst head A 0).2,
      0 + ((lst head A 0).2 - (lst head A (0 + 1)).2), l⟩) (by rw [hsh]; exact hS) (by rw [hsh]; exact hn) hnew hi hm0 rfl g1
    refine ⟨m', ?_, by rw [b2, hsh], ?_⟩
    · rw [insertDown.eq_def]
      simp only [g2, b1]
      simp [lastEntry]
    · intro a j
      cases j with
      | zero => exact b3 a
      | succ j => rw [b4 _ _ (by omega), hm, if_pos (by omega)]
  | succ i ih =>
    intro m acc hi hsh hm
    have hm0 : ∀ a, getLink m a (i + 1) = getLink m0 a (i + 1) := fun a => by rw [hm, if_neg (Nat.lt_irrefl _)]
    have hc : ChainP (lk m (i + 1)) ex n (head, 0) (lvp (i + 1) 0 (A ++ B)) := chainP_frame (hch _ hi) fun y _ => hm0 y.1
    obtain ⟨l, g1, g2⟩ := walk_level (w := 0) (idx := A.length) hc (Nat.le_refl _) (.inr rfl) hf
    obtain ⟨m', b1, b2, b3, b4⟩ := linkNew_ok (m0 := m0) (c := ⟨(lst head A (i + 1)).1, A.length - (lst head A (i + 1)).2,
      0 + ((lst head A (i + 1)).2 - (lst head A (i + 1 + 1)).2), l⟩) (by rw [hsh]; exact hS) (by rw [hsh]; exact hn) hnew
      hi hm0 rfl g1
    obtain ⟨m2, d1, d2, d3⟩ := ih m' (lastEntry head A (i + 1) :: acc) (by omega) (by rw [b2, hsh]) (by
      intro a j
      by_cases hj : j = i + 1
      · subst hj; rw [b3, if_pos (by omega)]
      · rw [b4 _ _ hj, hm]
        by_cases h2 : i + 1 < j
        · rw [if_pos h2, if_pos (by omega)]
        · rw [if_neg h2, if_neg (by omega)])
    refine ⟨m2, ?_, d2, d3⟩
    rw [insertDown.eq_def]
    simp only [g2, b1]
    have e : (List.range (i + 1 + 1)).map (lastEntry head A) ++ acc =
        (List.range (i + 1)).map (lastEntry head A) ++ lastEntry head A (i + 1) :: acc := by
      rw [List.range_succ (n := i + 1)]; simp
    rw [e, ← d1]
    simp [lastEntry]

theorem fixLevel_ok {m0 m : LHeap V} {head new : Addr} {A B : List (Tower V)} {nh i n : Nat} {v : V} {ex : Prop}
    (hS : Sub (shape m) head (A ++ B)) (hn : shape m new = some (some v, nh + 1)) (hnew : new ∉ head :: A.map (·.addr))
    (hi : i ≤ maxHeight) (hch : ChainP (lk m0 i) ex n (head, 0) (lvp i 0 (A ++ B))) (hN : A.length ≤ n)
    (hm : ∀ a, getLink m a i = post1 m0 head A new nh i a) :
    ∃ m', fixLevel new nh i (A.length - (lst head A i).2) (lst head A i).1 m = some m' ∧ shape m' = shape m ∧
      (∀ a, getLink m' a i = post2 m0 head A new nh i a) ∧ ∀ a j, j ≠ i → getLink m' a j = getLink m a j := by
  have hne := hS.lst_ne hnew i
  obtain ⟨e, k, h1, h2⟩ := hS.lst_shape hi
  rw [lvp_append, chainP_append] at hch
  have hp := lst_le head A i
  obtain ⟨l, hl, hd⟩ : ∃ l, getLink m0 (lst head A i).1 i = some l ∧ A.length ≤ (lst head A i).2 + l.dist := by
    have hc := hch.2
    cases hQ : lvp i (0 + A.length) B with
    | nil => rw [hQ] at hc; obtain ⟨d, c1, c2, _⟩ := hc; exact ⟨_, c1, Nat.le_trans hN c2⟩
    | cons y Q =>
      rw [hQ] at hc
      obtain ⟨d, c1, c2, _⟩ := hc
      refine ⟨_, c1, ?_⟩
      have h5 := (mem_lvp (i := i) (k := 0 + A.length) (T := B) (x := y) (by rw [hQ]; simp)).1
      have c2' : (lst head A i).2 + d = y.2 := c2
      simp only
      omega
  unfold fixLevel
  by_cases h : i ≤ nh
  · rw [if_pos h]
    have g1 : getLink m (lst head A i).1 i = some ⟨some new, 1⟩ := by rw [hm, post1, if_pos h, if_pos rfl]
    obtain ⟨m1, a1, a2, a3⟩ := setLink_ok h1 h2 (⟨some new, A.length - (lst head A i).2 + 1⟩ : Link)
    have g2 : getLink m1 new i = some l := by
      rw [a3, if_neg (by intro hc; exact hne hc.1.symm), hm, post1, if_pos h, if_neg (Ne.symm hne), if_pos rfl, hl]
    have g3 : sub l.dist (A.length - (lst head A i).2) = some (l.dist - (A.length - (lst head A i).2)) := by
      rw [sub, if_pos (by omega)]
    obtain ⟨m2, b1, b2, b3⟩ := setLink_ok (m := m1) (i := i) (by rw [a2]; exact hn) (by omega)
      (⟨l.next, l.dist - (A.length - (lst head A i).2)⟩ : Link)
    refine ⟨m2, by simp [g1, a1, g2, g3, b1], by rw [b2, a2], ?_, ?_⟩
    · intro a
      rw [b3, a3, post2, if_pos h]
      by_cases e1 : a = (lst head A i).1
      · simp [e1, hne]
      · by_cases e2 : a = new
        · simp [e2, hne.symm, hl]
        · simp [e1, e2, hm, post1, h]
    · intro a j hj; rw [b3, a3]; simp [hj]
  · rw [if_neg h]
    have g1 : getLink m (lst head A i).1 i = some l := by rw [hm, post1, if_neg h, hl]
    obtain ⟨m1, a1, a2, a3⟩ := setLink_ok h1 h2 (⟨l.next, l.dist + 1⟩ : Link)
    refine ⟨m1, by simp [g1, a1], a2, ?_, ?_⟩
    · intro a
      rw [a3, post2, if_neg h]
      by_cases e1 : a = (lst head A i).1
      · simp [e1, hl]
      · simp [e1, hm, post1, h]
    · intro a j hj; rw [a3]; simp [hj]

theorem fixUp_ok {m0 : LHeap V} {head new : Addr} {A B : List (Tower V)} {nh n : Nat} {v : V} {ex : Prop}
    (hS : Sub (shape m0) head (A ++ B)) (hn : shape m0 new = some (some v, nh + 1)) (hnew : new ∉ head :: A.map (·.addr))
    (hch : ∀ i ≤ maxHeight, ChainP (lk m0 i) ex n (head, 0) (lvp i 0 (A ++ B))) (hN : A.length ≤ n) :
    ∀ (k i : Nat) (m : LHeap V), i + k = maxHeight + 1 → shape m = shape m0 →
      (∀ a j, getLink m a j = if j < i then post2 m0 head A new nh j a else post1 m0 head A new nh j a) →
      ∃ m', fixUp new nh i (A.length - (lst head A i).2) ((List.range' i k).map (lastEntry head A)) m = some m' ∧
        shape m' = shape m0 ∧ ∀ a j, j ≤ maxHeight → getLink m' a j = post2 m0 head A new nh j a := by
  intro k
  induction k with
  | zero =>
    intro i m hk hsh hm
    exact ⟨m, rfl, hsh, fun a j hj => by rw [hm, if_pos (by omega)]⟩
  | succ k ih =>
    intro i m hk hsh hm
    obtain ⟨m1, a1, a2, a3, a4⟩ := fixLevel_ok (m0 := m0) (m := m) (by rw [hsh]; exact hS) (by rw [hsh]; exact hn) hnew
      (by omega) (hch i (by omega)) hN (fun a => by rw [hm, if_neg (Nat.lt_irrefl _)])
    obtain ⟨m2, b1, b2, b3⟩ := ih (i + 1) m1 (by omega) (by rw [a2, hsh]) (by
      intro a j
      by_cases hj : j = i
      · subst hj; rw [a3, if_pos (by omega)]
      · rw [a4 _ _ hj, hm]
        by_cases h2 : j < i
        · rw [if_pos h2, if_pos (by omega)]
        · rw [if_neg h2, if_neg (by omega)])
    refine ⟨m2, ?_, b2, b3⟩
    rw [List.range'_succ, List.map_cons]
    have hw : lastEntry head A i = ((lst head A i).1, (lst head A i).2 - (lst head A (i + 1)).2) := rfl
    rw [hw]
    simp only [fixUp, a1]
    have e : (lst head A i).2 - (lst head A (i + 1)).2 + (A.length - (lst head A i).2) =
        A.length - (lst head A (i + 1)).2 := by
      have := lst_mono head A i
      have := lst_le head A i
      omega
    rw [e]
    exact b1

/-- The level lists after an insertion. -/
theorem chain_insert {m0 : LHeap V} {head : Addr} {A B : List (Tower V)} {nt : Tower V} {n i : Nat} {ex : Prop} {nh : Nat}
    {lk' : Addr → Option Link} (hnh : nt.h = nh + 1)
    (hnd : (head :: (A ++ B).map (·.addr)).Nodup) (hnew : nt.addr ∉ head :: (A ++ B).map (·.addr))
    (hch : ChainP (lk m0 i) ex n (head, 0) (lvp i 0 (A ++ B)))
    (hlk : ∀ a, lk' a = post2 m0 head A nt.addr nh i a) (hN : A.length ≤ n) :
    ChainP lk' ex (n + 1) (head, 0) (lvp i 0 (A ++ nt :: B)) := by
  rw [lvp_append, chainP_append] at hch ⊢
  simp only [Nat.zero_add] at hch ⊢
  obtain ⟨hseg, hc⟩ := hch
  have hlev : (((head, 0) :: (lvp i 0 A ++ lvp i A.length B)).map (·.1)).Nodup := by
    have e : lvp i 0 A ++ lvp i A.length B = lvp i 0 (A ++ B) := by rw [lvp_append]; simp
    rw [e, List.map_cons]
    exact hnd.sublist ((lvp_sublist i 0 (A ++ B)).cons_cons _)
  have hnew' : ∀ x ∈ (head, 0) :: (lvp i 0 A ++ lvp i A.length B), x.1 ≠ nt.addr := by
    intro x hx hc
    apply hnew
    have e : lvp i 0 A ++ lvp i A.length B = lvp i 0 (A ++ B) := by rw [lvp_append]; simp
    rw [e] at hx
    rcases List.mem_cons.1 hx with rfl | hx
    · rw [← hc]; simp
    · rw [← hc]; exact List.mem_cons_of_mem _ ((lvp_sublist i 0 (A ++ B)).mem (List.mem_map.2 ⟨x, hx, rfl⟩))
  have hlast : (lst head A i) ∈ (head, 0) :: lvp i 0 A := lastP_mem _ _
  have hother : ∀ x ∈ (head, 0) :: (lvp i 0 A ++ lvp i A.length B), x.1 ≠ (lst head A i).1 → lk' x.1 = lk m0 i x.1 := by
    intro x hx hne
    rw [hlk, post2]
    simp only [if_neg hne, if_neg (hnew' x hx), ite_self]
    rfl
  have hQ : ∀ y ∈ lvp i A.length B, lk' y.1 = lk m0 i y.1 := by
    intro y hy
    refine hother y (by simp [hy]) ?_
    intro hc
    rw [← List.cons_append, List.map_append, List.nodup_append] at hlev
    exact hlev.2.2 _ (List.mem_map.2 ⟨_, hlast, rfl⟩) _ (List.mem_map.2 ⟨y, hy, rfl⟩) hc.symm
  have hcl : lst head A i = lastP (head, 0) (lvp i 0 A) := rfl
  obtain ⟨l, hl⟩ : ∃ l, lk m0 i (lst head A i).1 = some l := by
    obtain ⟨d, hd⟩ := chainP_link hc; exact ⟨_, hd⟩
  have hl' : getLink m0 (lst head A i).1 i = some l := hl
  have hp := lst_le head A i
  have hlast' : (lst head A i) ∈ (head, 0) :: (lvp i 0 A ++ lvp i A.length B) := by
    rw [← List.cons_append]; exact List.mem_append_left _ hlast
  refine ⟨segP_frame (hlev.sublist (by rw [List.map_cons, List.map_cons, List.map_append]; simp)) hseg
    (fun y hy hne => hother y (by rw [← List.cons_append]; exact List.mem_append_left _ hy) hne), ?_⟩
  rw [← hcl] at hc ⊢
  by_cases hi : i < nt.h
  · rw [lvp_pos hi, lvp_up]
    have hi' : i ≤ nh := by omega
    refine ⟨A.length - (lst head A i).2 + 1, ?_, by simp only; omega, ?_⟩
    · rw [hlk, post2, if_pos hi', if_pos rfl]
    · refine chainP_retarget (d' := l.dist - (A.length - (lst head A i).2)) hc hl ?_ ?_ hQ
      · simp only
        rw [hlk, post2, if_pos hi', if_neg (hnew' _ hlast').symm, if_pos rfl, hl']
        rfl
      · have hd : A.length ≤ (lst head A i).2 + l.dist := by
          cases hB : lvp i A.length B with
          | nil =>
            rw [hB] at hc
            obtain ⟨d, c1, c2, _⟩ := hc
            rw [hl] at c1
            obtain rfl := Option.some.inj c1
            exact Nat.le_trans hN c2
          | cons y Q =>
            have h5 := (mem_lvp (i := i) (k := A.length) (T := B) (x := y) (by rw [hB]; simp)).1
            rw [hB] at hc
            obtain ⟨d, c1, c2, _⟩ := hc
            rw [hl] at c1
            obtain rfl := Option.some.inj c1
            simp only
            omega
        simp only
        omega
  · rw [lvp_neg hi, lvp_up]
    refine chainP_retarget (d' := l.dist + 1) hc hl ?_ (by omega) hQ
    rw [hlk, post2, if_neg (by omega), if_pos rfl, hl']
    rfl

theorem insert_ok {ex : Prop} {s : SkipList V} {A B : List (Tower V)} (h : Good ex s (A ++ B)) (v : V) (nh off : Nat)
    (hnh : nh ≤ maxHeight) :
    ∃ s', s.insert A.length v nh off = some s' ∧ Good ex s' (A ++ ⟨s.bump + off, v, nh + 1⟩ :: B) := by
  obtain ⟨hr, hlen, hb⟩ := h
  obtain ⟨new, hnewdef⟩ : ∃ n, n = s.bump + off := ⟨_, rfl⟩
  have hfree : s.mem new = none := hb _ (by rw [hnewdef]; exact Nat.le_add_right _ _)
  have hfresh : new ∉ s.head :: (A ++ B).map (·.addr) := by
    intro hc
    rcases List.mem_cons.1 hc with hc | hc
    · have := hr.sub.hd
      rw [← hc] at this
      simp [shape, hfree] at this
    · obtain ⟨t, ht, he⟩ := List.mem_map.1 hc
      have := hr.sub.tow t ht
      rw [he] at this
      simp [shape, hfree] at this
  have hfreshA : new ∉ s.head :: A.map (·.addr) := by
    intro hc; apply hfresh
    simp only [List.map_append, List.mem_cons, List.mem_append] at hc ⊢
    tauto
  obtain ⟨mem0, hmem0⟩ : ∃ m, m = s.mem.put new ⟨some v, List.replicate (nh + 1) .zero⟩ := ⟨_, rfl⟩
  have hsh : ∀ a, shape mem0 a = if a = new then some (some v, nh + 1) else shape s.mem a := by
    intro a; rw [hmem0]; simp only [shape_put, List.length_replicate]
  have hgl : ∀ a j, a ≠ new → getLink mem0 a j = getLink s.mem a j := by
    intro a j ha; rw [hmem0]; simp only [getLink_put, if_neg ha]
  have hold : ∀ a ∈ s.head :: (A ++ B).map (·.addr), a ≠ new := fun a ha hc => hfresh (hc ▸ ha)
  have hS : Sub (shape mem0) s.head (A ++ B) := by
    refine ⟨by rw [hsh, if_neg (hold _ (by simp))]; exact hr.sub.hd, fun t ht => ?_, hr.sub.pos, hr.sub.nodup⟩
    rw [hsh, if_neg (hold _ (List.mem_cons_of_mem _ (List.mem_map.2 ⟨t, ht, rfl⟩)))]
    exact hr.sub.tow t ht
  have hnS : shape mem0 new = some (some v, nh + 1) := by rw [hsh, if_pos rfl]
  have hch : ∀ i ≤ maxHeight, ChainP (lk mem0 i) ex (A ++ B).length (s.head, 0) (lvp i 0 (A ++ B)) := by
    intro i hi
    refine chainP_frame (hr.chain i hi) fun y hy => ?_
    refine hgl _ _ (hold _ ?_)
    rcases List.mem_cons.1 hy with rfl | hy
    · simp
    · exact List.mem_cons_of_mem _ ((lvp_sublist i 0 _).mem (List.mem_map.2 ⟨y, hy, rfl⟩))
  have htop := hS.lst_top
  obtain ⟨m1, a1, a2, a3⟩ := insertDown_ok (fuel := s.len + 1) hS hnS hfreshA hch (by rw [hlen]; simp; omega) maxHeight mem0 []
    (Nat.le_refl _) rfl (by
      intro a j
      split
      · rename_i hj
        rw [post1, if_neg (by omega)]
      · rfl)
  have hz : (lst s.head A 0).2 = A.length := by
    have := lastP_zero 0 (s.head, 0) A rfl fun t ht => (hS.pos t (by simp [ht])).1
    simpa [lst] using this
  obtain ⟨m2, b1, b2, b3⟩ := fixUp_ok (m0 := mem0) hS hnS hfreshA hch (by simp) maxHeight 1 m1 (by omega) a2 (by
    intro a j
    rw [a3]
    split
    · rename_i hj
      have : j = 0 := by omega
      subst this
      rw [post1, post2, if_pos (Nat.zero_le _), if_pos (Nat.zero_le _), hz]
      simp only [Nat.sub_self, Nat.zero_add, Nat.sub_zero]
      split
      · rfl
      · split
        · cases getLink mem0 (lst s.head A 0).1 0 <;> rfl
        · rfl
    · rfl)
  refine ⟨⟨m2, s.head, s.len + 1, new + 1⟩, ?_, ⟨⟨?_, ?_, ?_, ?_⟩, ?_, ?_⟩, ?_, ?_⟩
  · unfold SkipList.insert
    rw [if_pos (by rw [hlen]; simp)]
    rw [htop] at a1
    simp only [Nat.sub_zero] at a1
    simp only [← hnewdef, ← hmem0, a1, Option.bind_eq_bind, Option.bind_some, List.append_nil]
    have e : (List.range (maxHeight + 1)).map (lastEntry s.head A) =
        lastEntry s.head A 0 :: (List.range' 1 maxHeight).map (lastEntry s.head A) := by
      rw [List.range_eq_range', List.range'_succ, List.map_cons]
    rw [e]
    have e2 : (lastEntry s.head A 0).2 = A.length - (lst s.head A 1).2 := by
      simp [lastEntry, hz]
    simp only [e2, b1]
    rfl
  · simp only; rw [b2]; exact hS.hd
  · intro t ht
    simp only
    rw [b2]
    simp only [List.mem_append, List.mem_cons] at ht
    rcases ht with ht | rfl | ht
    · exact hS.tow t (by simp [ht])
    · rw [← hnewdef]; exact hnS
    · exact hS.tow t (by simp [ht])
  · intro t ht
    simp only [List.mem_append, List.mem_cons] at ht
    rcases ht with ht | rfl | ht
    · exact hS.pos t (by simp [ht])
    · exact ⟨Nat.succ_pos _, Nat.succ_le_succ hnh⟩
    · exact hS.pos t (by simp [ht])
  · have p : (s.head :: (A ++ (⟨s.bump + off, v, nh + 1⟩ : Tower V) :: B).map (·.addr)).Perm
        (new :: s.head :: (A ++ B).map (·.addr)) := by
      simp only [List.map_append, List.map_cons]
      rw [← List.cons_append, ← List.cons_append, hnewdef]
      exact List.perm_middle
    simp only
    rw [p.nodup_iff, List.nodup_cons]
    exact ⟨hfresh, hS.nodup⟩
  · intro a h1 h2
    simp only
    rw [b2, hsh]
    simp only [List.map_append, List.map_cons, List.mem_append, List.mem_cons, not_or] at h2
    rw [if_neg (by rw [hnewdef]; exact h2.2.1)]
    refine hr.only a h1 ?_
    simp only [List.map_append, List.mem_append, not_or]
    exact ⟨h2.1, h2.2.2⟩
  · intro i hi
    have e : (A ++ (⟨s.bump + off, v, nh + 1⟩ : Tower V) :: B).length = (A ++ B).length + 1 := by simp; omega
    rw [e]
    exact chain_insert (nt := ⟨s.bump + off, v, nh + 1⟩) (nh := nh) rfl hS.nodup (by rw [← hnewdef]; exact hfresh) (hch i hi)
      (fun a => by rw [← hnewdef]; exact b3 a i hi) (by simp)
  · simp only [hlen, List.length_append, List.length_cons]; omega
  · intro a ha
    simp only at ha ⊢
    have h1 : shape m2 a = none := by
      rw [b2, hsh, if_neg (Nat.ne_of_gt ha)]
      have h2 := hb a (by rw [hnewdef] at ha; exact Nat.le_trans (Nat.le_add_right _ _) (Nat.le_of_lt ha))
      simp [shape, h2]
    simpa [shape] using h1

end Verif.Skip.Lst
