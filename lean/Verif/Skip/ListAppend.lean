/- Concatenation of two `SkipList`s (`Add`). -/
import Verif.Skip.ListSim

namespace Verif.Skip.Lst

open Verif.Spec

variable {V : Type}

theorem lvp_cons_split {h k : Nat} {B : List (Tower V)} {y : Addr × Nat} {Q : List (Addr × Nat)} (e : lvp h k B = y :: Q) :
    ∃ B1 t B2, B = B1 ++ t :: B2 ∧ lvp h k B1 = [] ∧ h < t.h ∧ y.1 = t.addr := by
  induction B generalizing k with
  | nil => simp [lvp] at e
  | cons t B ih =>
    by_cases ht : h < t.h
    · rw [lvp_pos ht] at e
      obtain ⟨rfl, _⟩ := List.cons.inj e
      exact ⟨[], t, B, rfl, rfl, ht, rfl⟩
    · rw [lvp_neg ht] at e
      obtain ⟨B1, t', B2, rfl, h1, h2, h3⟩ := ih e
      exact ⟨t :: B1, t', B2, rfl, by rw [lvp_neg ht, h1], h2, h3⟩

theorem lst_snoc (head : Addr) (A : List (Tower V)) (t : Tower V) {h : Nat} (ht : h < t.h) :
    lst head (A ++ [t]) h = (t.addr, A.length + 1) := by
  rw [lst, lvp_append, lvp_pos ht, lastP_append]
  simp [lvp]

/-- `lasts` finds the last node of every level. -/
theorem lasts_ok {m : LHeap V} {head : Addr} {T : List (Tower V)} {n : Nat} {ex : Prop}
    (hch : ∀ i ≤ maxHeight, ChainP (lk m i) ex n (head, 0) (lvp i 0 T)) :
    ∀ (f h : Nat) (A B : List (Tower V)) (acc : List Addr), T = A ++ B → h ≤ maxHeight →
      (A = [] ∨ ∃ A' t, A = A' ++ [t] ∧ h < t.h) → B.length + h + 1 ≤ f →
      lasts m f h (lst head A h).1 acc = some ((List.range (h + 1)).map (fun j => (lst head T j).1) ++ acc) := by
  intro f
  induction f with
  | zero => intro h A B acc _ _ _ hf; omega
  | succ f ih =>
    intro h A B acc hT hh hA hf
    have hc := hch h hh
    rw [hT, lvp_append, chainP_append] at hc
    have hc := hc.2
    simp only [Nat.zero_add] at hc
    cases hB : lvp h A.length B with
    | nil =>
      rw [hB] at hc
      obtain ⟨d, c1, _⟩ := hc
      have c1' : getLink m (lst head A h).1 h = some ⟨none, d⟩ := c1
      have hl : lst head T h = lst head A h := by
        rw [hT, lst, lvp_append, Nat.zero_add, hB, List.append_nil]; rfl
      cases h with
      | zero =>
        simp only [lasts, c1', hl]
        rw [show List.range (0 + 1) = [0] from rfl]
        simp [hl]
      | succ h =>
        have e : lst head A (h + 1) = lst head A h := by
          rcases hA with rfl | ⟨A', t, rfl, ht⟩
          · rfl
          · rw [lst_snoc head A' t ht, lst_snoc head A' t (by omega : h < t.h)]
        have := ih h A B ((lst head A (h + 1)).1 :: acc) hT (by omega) (by
          rcases hA with h1 | ⟨A', t, h1, ht⟩
          · exact .inl h1
          · exact .inr ⟨A', t, h1, by omega⟩) (by omega)
        simp only [lasts, c1']
        rw [← e] at this
        rw [this, List.range_succ (n := h + 1)]
        simp [hl]
    | cons y Q =>
      obtain ⟨B1, t, B2, rfl, h1, h2, h3⟩ := lvp_cons_split hB
      rw [hB] at hc
      obtain ⟨d, c1, _⟩ := hc
      have c1' : getLink m (lst head A h).1 h = some ⟨some y.1, d⟩ := c1
      have := ih h (A ++ B1 ++ [t]) B2 acc (by rw [hT]; simp) hh (.inr ⟨A ++ B1, t, rfl, h2⟩) (by simp at hf; omega)
      rw [lst_snoc head _ t h2] at this
      simp only [lasts, c1', h3]
      exact this

/-- Links after the level swaps of `Add`. -/
def post4 (m0 : LHeap V) (ohead : Addr) (c : Nat → Addr) (j : Nat) (a : Addr) : Option Link :=
  if a = c j then (getLink m0 ohead j).bind fun l' => (getLink m0 a j).map fun l => ⟨l'.next, l'.dist + l.dist⟩
  else if a = ohead then getLink m0 (c j) j else getLink m0 a j

theorem join_ok {m0 : LHeap V} {ohead : Addr} {c : Nat → Addr} (hc : ∀ j ≤ maxHeight, ∃ e n, shape m0 (c j) = some (e, n) ∧ j < n)
    (ho : shape m0 ohead = some (none, maxHeight + 1)) (hne : ∀ j, c j ≠ ohead) :
    ∀ (k i : Nat) (m : LHeap V), i + k = maxHeight + 1 → shape m = shape m0 →
      (∀ a j, getLink m a j = if j < i then post4 m0 ohead c j a else getLink m0 a j) →
      ∃ m', join ohead i ((List.range' i k).map c) m = some m' ∧ shape m' = shape m0 ∧
        ∀ a j, j ≤ maxHeight → getLink m' a j = post4 m0 ohead c j a := by
  intro k
  induction k with
  | zero =>
    intro i m hk hsh hm
    exact ⟨m, rfl, hsh, fun a j hj => by rw [hm, if_pos (by omega)]⟩
  | succ k ih =>
    intro i m hk hsh hm
    have hm0 : ∀ a, getLink m a i = getLink m0 a i := fun a => by rw [hm, if_neg (Nat.lt_irrefl _)]
    obtain ⟨e, n, s1, s2⟩ := hc i (by omega)
    obtain ⟨l, hl⟩ := getLink_isSome s1 s2
    obtain ⟨l', hl'⟩ := getLink_isSome ho (show i < maxHeight + 1 by omega)
    obtain ⟨m1, a1, a2, a3⟩ := setLink_ok (m := m) (a := c i) (i := i) (by rw [hsh]; exact s1) s2 (⟨l'.next, l'.dist + l.dist⟩ : Link)
    obtain ⟨m2, b1, b2, b3⟩ := setLink_ok (m := m1) (a := ohead) (i := i) (by rw [a2, hsh]; exact ho) (by omega) l
    obtain ⟨m3, d1, d2, d3⟩ := ih (i + 1) m2 (by omega) (by rw [b2, a2, hsh]) (by
      intro a j
      rw [b3, a3]
      by_cases hj : j = i
      · subst hj
        rw [if_pos (Nat.lt_succ_self j), post4]
        by_cases h1 : a = c j
        · have h2 : a ≠ ohead := by rw [h1]; exact hne j
          simp [h1, hne j, hl, hl']
        · by_cases h2 : a = ohead
          · simp [h2, (hne j).symm, hl]
          · simp [h1, h2, hm0]
      · rw [if_neg (by rintro ⟨_, h⟩; exact hj h), if_neg (by rintro ⟨_, h⟩; exact hj h), hm]
        by_cases h2 : j < i
        · rw [if_pos h2, if_pos (by omega)]
        · rw [if_neg h2, if_neg (by omega)])
    refine ⟨m3, ?_, d2, d3⟩
    rw [List.range'_succ, List.map_cons]
    simp only [join, hm0, hl, hl', a1, b1, Option.bind_eq_bind, Option.bind_some]
    exact d1

/-- No node belongs to both lists. -/
def Disjoint (s o : SkipList V) : Prop := ∀ a, s.mem a = none ∨ o.mem a = none

theorem append_ok {ex : Prop} {s o : SkipList V} {T U : List (Tower V)} (hs : Good True s T) (ho : Good ex o U)
    (hd : Disjoint s o) : ∃ c, s.append o = some c ∧ Good ex c (T ++ U) := by
  obtain ⟨hr, hlen, hb⟩ := hs
  obtain ⟨hr', hlen', hb'⟩ := ho
  obtain ⟨mem, hmem⟩ : ∃ m : LHeap V, m = fun a => (s.mem a).or (o.mem a) := ⟨_, rfl⟩
  have hl : ∀ a, (shape s.mem a).isSome → mem a = s.mem a := by
    intro a ha
    rw [hmem]
    simp only
    cases h : s.mem a with
    | none => simp [shape, h] at ha
    | some x => rfl
  have hrr : ∀ a, (shape o.mem a).isSome → mem a = o.mem a := by
    intro a ha
    rw [hmem]
    simp only
    rcases hd a with h | h
    · rw [h]; rfl
    · simp [shape, h] at ha
  have hshl : ∀ a p, shape s.mem a = some p → shape mem a = some p := fun a p h => by
    rw [← h]; simp only [shape]; rw [hl a (by rw [h]; rfl)]
  have hshr : ∀ a p, shape o.mem a = some p → shape mem a = some p := fun a p h => by
    rw [← h]; simp only [shape]; rw [hrr a (by rw [h]; rfl)]
  have hinl : ∀ a ∈ s.head :: addrs T, ∃ p, shape s.mem a = some p := by
    intro a ha
    rcases List.mem_cons.1 ha with rfl | ha
    · exact ⟨_, hr.sub.hd⟩
    · obtain ⟨t, ht, rfl⟩ := List.mem_map.1 ha
      exact ⟨_, hr.sub.tow t ht⟩
  have hinr : ∀ a ∈ o.head :: addrs U, ∃ p, shape o.mem a = some p := by
    intro a ha
    rcases List.mem_cons.1 ha with rfl | ha
    · exact ⟨_, hr'.sub.hd⟩
    · obtain ⟨t, ht, rfl⟩ := List.mem_map.1 ha
      exact ⟨_, hr'.sub.tow t ht⟩
  have hdis : ∀ a ∈ s.head :: addrs T, ∀ b ∈ o.head :: addrs U, a ≠ b := by
    rintro a ha b hb rfl
    obtain ⟨p, h1⟩ := hinl a ha
    obtain ⟨q, h2⟩ := hinr a hb
    rcases hd a with h | h
    · simp [shape, h] at h1
    · simp [shape, h] at h2
  have hchl : ∀ i ≤ maxHeight, ChainP (lk mem i) True T.length (s.head, 0) (lvp i 0 T) := by
    intro i hi
    refine chainP_frame (hr.chain i hi) fun y hy => ?_
    have : y.1 ∈ s.head :: addrs T := by
      rcases List.mem_cons.1 hy with rfl | hy
      · simp
      · exact List.mem_cons_of_mem _ ((lvp_sublist i 0 T).mem (List.mem_map.2 ⟨y, hy, rfl⟩))
    obtain ⟨p, hp⟩ := hinl _ this
    simp only [lk, getLink]
    rw [hl _ (by rw [hp]; rfl)]
  have hchr : ∀ i ≤ maxHeight, ChainP (lk mem i) ex U.length (o.head, 0) (lvp i 0 U) := by
    intro i hi
    refine chainP_frame (hr'.chain i hi) fun y hy => ?_
    have : y.1 ∈ o.head :: addrs U := by
      rcases List.mem_cons.1 hy with rfl | hy
      · simp
      · exact List.mem_cons_of_mem _ ((lvp_sublist i 0 U).mem (List.mem_map.2 ⟨y, hy, rfl⟩))
    obtain ⟨p, hp⟩ := hinr _ this
    simp only [lk, getLink]
    rw [hrr _ (by rw [hp]; rfl)]
  have hS : Sub (shape mem) s.head (T ++ []) := by
    rw [List.append_nil]
    exact ⟨hshl _ _ hr.sub.hd, fun t ht => hshl _ _ (hr.sub.tow t ht), hr.sub.pos, hr.sub.nodup⟩
  have hlm : ∀ j, (lst s.head T j).1 ∈ s.head :: addrs T := by
    intro j
    rcases lst_mem s.head T j with h | ⟨t, h1, _, h2⟩
    · rw [h]; simp
    · rw [← h2]; exact List.mem_cons_of_mem _ (List.mem_map.2 ⟨t, h1, rfl⟩)
  have hlasts := lasts_ok hchl (s.len + maxHeight + 1) maxHeight [] T [] rfl (Nat.le_refl _) (.inl rfl) (by omega)
  obtain ⟨m1, a1, a2, a3⟩ := join_ok (m0 := mem) (ohead := o.head) (c := fun j => (lst s.head T j).1)
    (fun j hj => hS.lst_shape hj) (hshr _ _ hr'.sub.hd) (fun j => hdis _ (hlm j) _ (by simp)) (maxHeight + 1) 0 mem (by omega) rfl
    (fun a j => by rw [if_neg (Nat.not_lt_zero _)])
  have hlast : ∀ j ≤ maxHeight, getLink mem (lst s.head T j).1 j = some ⟨none, T.length - (lst s.head T j).2⟩ ∧
      SegP (lk mem j) (s.head, 0) (lvp j 0 T) := by
    intro j hj
    have hc := hchl j hj
    rw [← List.append_nil (lvp j 0 T), chainP_append] at hc
    obtain ⟨d, c1, c2, c3⟩ := hc.2
    have c3 := c3 trivial
    have c1' : getLink mem (lst s.head T j).1 j = some ⟨none, d⟩ := c1
    have c3' : T.length = (lst s.head T j).2 + d := c3
    refine ⟨?_, hc.1⟩
    rw [c1']
    congr 2
    omega
  have hoh : getLink m1 o.head 0 = some ⟨none, T.length - (lst s.head T 0).2⟩ := by
    rw [a3 _ _ (Nat.zero_le _), post4, if_neg (fun h => hdis _ (hlm 0) o.head (by simp) h.symm), if_pos rfl, (hlast 0 (Nat.zero_le _)).1]
  obtain ⟨m2, f1, f2, f3⟩ := free_ok (m := m1) (a := o.head) (by rw [a2]; exact hshr _ _ hr'.sub.hd)
  refine ⟨⟨m2, s.head, s.len + o.len, Nat.max s.bump o.bump⟩, ?_, ⟨⟨?_, ?_, ?_, ?_⟩, ?_, ?_⟩, ?_, ?_⟩
  · unfold SkipList.append
    simp only [← hmem]
    have e : lasts mem (s.len + maxHeight + 1) maxHeight s.head [] =
        some ((List.range (maxHeight + 1)).map (fun j => (lst s.head T j).1)) := by
      rw [show s.head = (lst s.head ([] : List (Tower V)) maxHeight).1 from rfl, hlasts, List.append_nil]
      rfl
    rw [e]
    rw [← List.range_eq_range'] at a1
    simp only [Option.bind_eq_bind, Option.bind_some, a1, hoh, f1, freeAll]
    rfl
  · simp only; rw [f2, if_neg (hdis _ (by simp) _ (by simp)), a2]; exact hS.hd
  · intro t ht
    simp only
    rcases List.mem_append.1 ht with ht | ht
    · rw [f2, if_neg (hdis _ (List.mem_cons_of_mem _ (List.mem_map.2 ⟨t, ht, rfl⟩)) _ (by simp)), a2]
      exact hshl _ _ (hr.sub.tow t ht)
    · rw [f2, if_neg (by
        intro hc
        exact (List.nodup_cons.1 hr'.sub.nodup).1 (by rw [← hc]; exact List.mem_map.2 ⟨t, ht, rfl⟩)), a2]
      exact hshr _ _ (hr'.sub.tow t ht)
  · intro t ht
    rcases List.mem_append.1 ht with ht | ht
    · exact hr.sub.pos t ht
    · exact hr'.sub.pos t ht
  · simp only [List.map_append]
    rw [← List.cons_append, List.nodup_append]
    exact ⟨hr.sub.nodup, (List.nodup_cons.1 hr'.sub.nodup).2, fun a ha b hb => hdis a ha b (List.mem_cons_of_mem _ hb)⟩
  · intro a h1 h2
    simp only
    rw [f2]
    split
    · rfl
    · rename_i h3
      simp only [List.map_append, List.mem_append, not_or] at h2
      rw [a2]
      have e1 := hr.only a h1 h2.1
      have e2 := hr'.only a h3 h2.2
      simp only [shape, Option.map_eq_none_iff] at e1 e2 ⊢
      rw [hmem]; simp [e1, e2]
  · intro i hi
    simp only
    obtain ⟨g1, g2⟩ := hlast i hi
    have hnl : (((s.head, 0) :: lvp i 0 T).map (·.1)).Nodup := by
      rw [List.map_cons]
      exact hr.sub.nodup.sublist ((lvp_sublist i 0 T).cons_cons _)
    have hmemT : ∀ y ∈ (s.head, 0) :: lvp i 0 T, y.1 ∈ s.head :: addrs T := by
      intro y hy
      rcases List.mem_cons.1 hy with rfl | hy
      · simp
      · exact List.mem_cons_of_mem _ ((lvp_sublist i 0 T).mem (List.mem_map.2 ⟨y, hy, rfl⟩))
    have hmemU : ∀ y ∈ lvp i 0 U, y.1 ∈ addrs U := fun y hy =>
      (lvp_sublist i 0 U).mem (List.mem_map.2 ⟨y, hy, rfl⟩)
    have hlk : ∀ a, a ≠ o.head → lk m2 i a = post4 mem o.head (fun j => (lst s.head T j).1) i a := by
      intro a ha
      show getLink m2 a i = _
      rw [f3, if_neg ha, a3 _ _ hi]
    rw [lvp_append, chainP_append]
    constructor
    · refine segP_frame hnl g2 fun y hy hne => ?_
      have h1 := hdis _ (hmemT y hy) o.head (by simp)
      rw [hlk _ h1, post4, if_neg (show ¬ y.1 = (lst s.head T i).1 from hne), if_neg h1]; rfl
    · obtain ⟨l', hl'⟩ := chainP_link (hchr i hi)
      have hl2 : getLink mem o.head i = some ⟨((lvp i 0 U).map (·.1)).head?, l'⟩ := hl'
      have hch0 := lst_le s.head T i
      have e1 : lastP (s.head, 0) (lvp i 0 T) = lst s.head T i := rfl
      rw [lvp_up, List.length_append, Nat.add_comm T.length U.length, e1]
      refine chainP_retarget (d' := l' + (T.length - (lst s.head T i).2)) (hchr i hi) hl' ?_ ?_ ?_
      · rw [hlk _ (hdis _ (hlm i) _ (by simp)), post4, if_pos rfl, hl2, g1]; rfl
      · simp only; omega
      · intro y hy
        have h1 : y.1 ≠ o.head := by
          intro hc; exact (List.nodup_cons.1 hr'.sub.nodup).1 (by rw [← hc]; exact hmemU y hy)
        rw [hlk _ h1, post4, if_neg (fun h => hdis _ (hlm i) _ (List.mem_cons_of_mem _ (hmemU y hy)) h.symm), if_neg h1]; rfl
  · simp only [hlen, hlen', List.length_append]
  · intro a ha
    simp only at ha ⊢
    have h1 := hb a (Nat.le_trans (Nat.le_max_left _ _) ha)
    have h2 := hb' a (Nat.le_trans (Nat.le_max_right _ _) ha)
    have h3 : shape m2 a = none := by
      rw [f2]
      split
      · rfl
      · rw [a2, hmem]; simp [shape, h1, h2]
    simpa [shape] using h3

end Verif.Skip.Lst
