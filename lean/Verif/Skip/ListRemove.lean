/- `SkipList::remove` and the lookups. -/
import Verif.Skip.ListLemmas

namespace Verif.Skip.Lst

open Verif.Spec

variable {V : Type}

/-- Links after `remove` of the node `t` behind `A` (those of `t` itself are swapped out). -/
def post3 (m0 : LHeap V) (head : Addr) (A : List (Tower V)) (t : Tower V) (j : Nat) (a : Addr) : Option Link :=
  if j < t.h then
    if a = (lst head A j).1 then
      (getLink m0 t.addr j).map fun l => ⟨l.next, l.dist + (A.length - (lst head A j).2)⟩
    else if a = t.addr then getLink m0 (lst head A j).1 j else getLink m0 a j
  else if a = (lst head A j).1 then
    (getLink m0 a j).map fun l => if l.next = none then l else ⟨l.next, l.dist - 1⟩
  else getLink m0 a j

theorem unlink_ok {m0 m : LHeap V} {head : Addr} {A B : List (Tower V)} {t : Tower V} {i n : Nat} {c : Cursor} {ex : Prop}
    (hS : Sub (shape m) head (A ++ t :: B)) (hch : ChainP (lk m0 i) ex n (head, 0) (lvp i 0 (A ++ t :: B)))
    (hi : i ≤ maxHeight) (hm : ∀ a, getLink m a i = getLink m0 a i) (hcur : c.cur = (lst head A i).1)
    (hix : c.index = A.length - (lst head A i).2) (hl : getLink m (lst head A i).1 i = some c.link) :
    ∃ m' o, unlink i c m = some (m', o) ∧ shape m' = shape m ∧ (i = 0 → o = some t.addr) ∧
      (∀ a, getLink m' a i = post3 m0 head A t i a) ∧ ∀ a j, j ≠ i → getLink m' a j = getLink m a j := by
  have htA : t.addr ∉ head :: A.map (·.addr) := by
    have := hS.nodup
    rw [List.map_append, List.map_cons, ← List.cons_append, List.nodup_append] at this
    intro hc
    exact this.2.2 _ hc t.addr (by simp) rfl
  have hne := hS.lst_ne htA i
  have hp := lst_le head A i
  obtain ⟨e, k, s1, s2⟩ := hS.lst_shape hi
  rw [lvp_append, chainP_append] at hch
  simp only [Nat.zero_add] at hch
  have hc := hch.2
  have hl0 : getLink m0 (lst head A i).1 i = some c.link := by rw [← hm]; exact hl
  by_cases ht : i < t.h
  · rw [lvp_pos ht] at hc
    obtain ⟨d, c1, c2, c3⟩ := hc
    have c2' : (lst head A i).2 + d = A.length + 1 := c2
    have hlink : c.link = ⟨some t.addr, d⟩ := by
      have c1' : getLink m0 (lst head A i).1 i = some ⟨some t.addr, d⟩ := c1
      rw [c1'] at hl0; exact (Option.some.inj hl0).symm
    obtain ⟨lt, hlt⟩ : ∃ lt, getLink m t.addr i = some lt := by
      obtain ⟨d', h'⟩ := chainP_link c3
      exact ⟨_, by rw [hm]; exact h'⟩
    obtain ⟨m1, a1, a2, a3⟩ := setLink_ok (hS.tow t (by simp)) ht c.link
    obtain ⟨m2, b1, b2, b3⟩ := setLink_ok (m := m1) (i := i) (a := (lst head A i).1) (by rw [a2]; exact s1) s2
      (⟨lt.next, lt.dist + (d - 1)⟩ : Link)
    refine ⟨m2, some t.addr, ?_, by rw [b2, a2], fun _ => rfl, ?_, ?_⟩
    · unfold unlink
      rw [hlink] at a1 ⊢
      have e1 : d = c.index + 1 := by omega
      have e2 : sub d 1 = some (d - 1) := by rw [sub, if_pos (by omega)]
      simp only [Option.bind_eq_bind]
      rw [if_pos e1, hlt]
      simp only [Option.bind_some, a1, e2, hcur, b1]
      rfl
    · intro a
      rw [b3, a3, post3, if_pos ht]
      by_cases e1 : a = (lst head A i).1
      · have e2 : A.length - (lst head A i).2 = d - 1 := by omega
        rw [if_pos ⟨e1, rfl⟩, if_pos e1, ← hm, hlt, e2]; rfl
      · rw [if_neg (by intro hc; exact e1 hc.1), if_neg e1]
        by_cases e2 : a = t.addr
        · rw [if_pos ⟨e2, rfl⟩, if_pos e2, hl0]
        · rw [if_neg (by intro hc; exact e2 hc.1), if_neg e2, hm]
    · intro a j hj; rw [b3, a3]; simp [hj]
  · have h0 : i ≠ 0 := by
      rintro rfl; exact ht (hS.pos t (by simp)).1
    rw [lvp_neg ht] at hc
    cases hB : lvp i (A.length + 1) B with
    | nil =>
      rw [hB] at hc
      obtain ⟨d, c1, c2, c3⟩ := hc
      have c1' : getLink m0 (lst head A i).1 i = some ⟨none, d⟩ := c1
      have hlink : c.link = ⟨none, d⟩ := by rw [c1'] at hl0; exact (Option.some.inj hl0).symm
      refine ⟨m, none, by simp [unlink, hlink], rfl, fun h => absurd h h0, ?_, fun a j _ => rfl⟩
      intro a
      rw [post3, if_neg ht]
      by_cases e1 : a = (lst head A i).1
      · rw [if_pos e1, e1, hm, c1']; rfl
      · rw [if_neg e1, hm]
    | cons y Q =>
      have h5 := (mem_lvp (i := i) (k := A.length + 1) (T := B) (x := y) (by rw [hB]; simp)).1
      rw [hB] at hc
      obtain ⟨d, c1, c2, c3⟩ := hc
      have c2' : (lst head A i).2 + d = y.2 := c2
      have c1' : getLink m0 (lst head A i).1 i = some ⟨some y.1, d⟩ := c1
      have hlink : c.link = ⟨some y.1, d⟩ := by rw [c1'] at hl0; exact (Option.some.inj hl0).symm
      obtain ⟨m1, a1, a2, a3⟩ := setLink_ok s1 s2 (⟨some y.1, d - 1⟩ : Link)
      refine ⟨m1, none, ?_, a2, fun h => absurd h h0, ?_, ?_⟩
      · unfold unlink
        rw [hlink]
        have e1 : ¬ d = c.index + 1 := by omega
        have e2 : sub d 1 = some (d - 1) := by rw [sub, if_pos (by omega)]
        simp only [Option.bind_eq_bind]
        rw [if_neg e1, e2]
        simp only [Option.bind_some, hcur, a1]
        rfl
      · intro a
        rw [a3, post3, if_neg ht]
        by_cases e1 : a = (lst head A i).1
        · rw [if_pos ⟨e1, rfl⟩, if_pos e1, e1, c1']; simp
        · rw [if_neg (by intro hc; exact e1 hc.1), if_neg e1, hm]
      · intro a j hj; rw [a3]; simp [hj]

theorem removeDown_ok {m0 : LHeap V} {head : Addr} {A B : List (Tower V)} {t : Tower V} {n fuel : Nat} {ex : Prop}
    (hS : Sub (shape m0) head (A ++ t :: B)) (hch : ∀ i ≤ maxHeight, ChainP (lk m0 i) ex n (head, 0) (lvp i 0 (A ++ t :: B)))
    (hf : A.length < fuel) :
    ∀ (i : Nat) (m : LHeap V), i ≤ maxHeight → shape m = shape m0 →
      (∀ a j, j ≤ maxHeight → getLink m a j = if i < j then post3 m0 head A t j a else getLink m0 a j) →
      ∃ m', removeDown fuel i m (lst head A (i + 1)).1 (A.length - (lst head A (i + 1)).2) = some (m', t.e) ∧
        (∀ a, shape m' a = if a = t.addr then none else shape m0 a) ∧
        ∀ a j, j ≤ maxHeight → a ≠ t.addr → getLink m' a j = post3 m0 head A t j a := by
  intro i
  induction i with
  | zero =>
    intro m hi hsh hm
    have hm0 : ∀ a, getLink m a 0 = getLink m0 a 0 := fun a => by rw [hm _ _ hi, if_neg (Nat.lt_irrefl _)]
    have hc : ChainP (lk m 0) ex n (head, 0) (lvp 0 0 (A ++ t :: B)) := chainP_frame (hch 0 hi) fun y _ => hm0 y.1
    obtain ⟨l, g1, g2⟩ := walk_level (w := 0) (idx := A.length) hc (Nat.le_refl _) (.inr rfl) hf
    obtain ⟨m', o, b1, b2, b3, b4, b5⟩ := unlink_ok (m0 := m0) (m := m) (c := ⟨(lst head A 0).1, A.length - (lst head A 0).2,
      0 + ((lst head A 0).2 - (lst head A (0 + 1)).2), l⟩) (by rw [hsh]; exact hS) (hch 0 hi) hi hm0 rfl rfl g1
    obtain rfl := b3 rfl
    have hsm : shape m' t.addr = some (some t.e, t.h) := by rw [b2, hsh]; exact hS.tow t (by simp)
    obtain ⟨m2, c1, c2, c3⟩ := free_ok hsm
    refine ⟨m2, ?_, ?_, ?_⟩
    · rw [removeDown.eq_def]
      simp only [g2, b1, entryAt_of_shape hsm, Option.bind_eq_bind, Option.bind_some, c1]
      rfl
    · intro a; rw [c2, b2, hsh]
    · intro a j hj ha
      rw [c3, if_neg ha]
      cases j with
      | zero => exact b4 a
      | succ j => rw [b5 _ _ (by omega), hm _ _ hj, if_pos (by omega)]
  | succ i ih =>
    intro m hi hsh hm
    have hm0 : ∀ a, getLink m a (i + 1) = getLink m0 a (i + 1) := fun a => by rw [hm _ _ hi, if_neg (Nat.lt_irrefl _)]
    have hc : ChainP (lk m (i + 1)) ex n (head, 0) (lvp (i + 1) 0 (A ++ t :: B)) := chainP_frame (hch _ hi) fun y _ => hm0 y.1
    obtain ⟨l, g1, g2⟩ := walk_level (w := 0) (idx := A.length) hc (Nat.le_refl _) (.inr rfl) hf
    obtain ⟨m', o, b1, b2, b3, b4, b5⟩ := unlink_ok (m0 := m0) (m := m) (c := ⟨(lst head A (i + 1)).1,
      A.length - (lst head A (i + 1)).2, 0 + ((lst head A (i + 1)).2 - (lst head A (i + 1 + 1)).2), l⟩)
      (by rw [hsh]; exact hS) (hch _ hi) hi hm0 rfl rfl g1
    obtain ⟨m2, d1, d2, d3⟩ := ih m' (by omega) (by rw [b2, hsh]) (by
      intro a j hj'
      by_cases hj : j = i + 1
      · subst hj; rw [b4, if_pos (by omega)]
      · rw [b5 _ _ hj, hm _ _ hj']
        by_cases h2 : i + 1 < j
        · rw [if_pos h2, if_pos (by omega)]
        · rw [if_neg h2, if_neg (by omega)])
    refine ⟨m2, ?_, d2, d3⟩
    rw [removeDown.eq_def]
    simp only [g2, b1]
    exact d1

theorem chain_remove {m0 : LHeap V} {head : Addr} {A B : List (Tower V)} {t : Tower V} {n i : Nat} {ex : Prop}
    {lk' : Addr → Option Link} (hnd : (head :: (A ++ t :: B).map (·.addr)).Nodup)
    (hch : ChainP (lk m0 i) ex (n + 1) (head, 0) (lvp i 0 (A ++ t :: B)))
    (hlk : ∀ a, a ≠ t.addr → lk' a = post3 m0 head A t i a) :
    ChainP lk' False n (head, 0) (lvp i 0 (A ++ B)) := by
  rw [lvp_append, chainP_append] at hch ⊢
  simp only [Nat.zero_add] at hch ⊢
  obtain ⟨hseg, hc⟩ := hch
  have hcl : lst head A i = lastP (head, 0) (lvp i 0 A) := rfl
  have hnd2 : (head :: (A ++ B).map (·.addr)).Nodup := by
    refine hnd.sublist ?_
    simp only [List.map_append, List.map_cons]
    exact ((List.Sublist.refl _).append (List.sublist_cons_self _ _)).cons_cons _
  have ht : t.addr ∉ head :: (A ++ B).map (·.addr) := by
    have p : (head :: (A ++ t :: B).map (·.addr)).Perm (t.addr :: head :: (A ++ B).map (·.addr)) := by
      simp only [List.map_append, List.map_cons]
      rw [← List.cons_append, ← List.cons_append]
      exact List.perm_middle
    exact (List.nodup_cons.1 (p.nodup_iff.1 hnd)).1
  have hsub : ∀ x ∈ (head, 0) :: (lvp i 0 A ++ lvp i A.length B), x.1 ∈ head :: (A ++ B).map (·.addr) := by
    intro x hx
    have e : lvp i 0 A ++ lvp i A.length B = lvp i 0 (A ++ B) := by rw [lvp_append]; simp
    rw [e] at hx
    rcases List.mem_cons.1 hx with rfl | hx
    · simp
    · exact List.mem_cons_of_mem _ ((lvp_sublist i 0 (A ++ B)).mem (List.mem_map.2 ⟨x, hx, rfl⟩))
  have hlev : (((head, 0) :: (lvp i 0 A ++ lvp i A.length B)).map (·.1)).Nodup := by
    have e : lvp i 0 A ++ lvp i A.length B = lvp i 0 (A ++ B) := by rw [lvp_append]; simp
    rw [e, List.map_cons]
    exact hnd2.sublist ((lvp_sublist i 0 (A ++ B)).cons_cons _)
  have hnt : ∀ x ∈ (head, 0) :: (lvp i 0 A ++ lvp i A.length B), x.1 ≠ t.addr := fun x hx hc => ht (hc ▸ hsub x hx)
  have hlast : (lst head A i) ∈ (head, 0) :: lvp i 0 A := lastP_mem _ _
  have hlast' : (lst head A i) ∈ (head, 0) :: (lvp i 0 A ++ lvp i A.length B) := by
    rw [← List.cons_append]; exact List.mem_append_left _ hlast
  have hother : ∀ x ∈ (head, 0) :: (lvp i 0 A ++ lvp i A.length B), x.1 ≠ (lst head A i).1 → lk' x.1 = lk m0 i x.1 := by
    intro x hx hne
    rw [hlk _ (hnt x hx), post3]
    simp only [if_neg hne, if_neg (hnt x hx), ite_self]
    rfl
  have hQ : ∀ y ∈ lvp i A.length B, lk' y.1 = lk m0 i y.1 := by
    intro y hy
    refine hother y (by simp [hy]) ?_
    intro hc
    rw [← List.cons_append, List.map_append, List.nodup_append] at hlev
    exact hlev.2.2 _ (List.mem_map.2 ⟨_, hlast, rfl⟩) _ (List.mem_map.2 ⟨y, hy, rfl⟩) hc.symm
  refine ⟨segP_frame (hlev.sublist (by rw [List.map_cons, List.map_cons, List.map_append]; simp)) hseg
    (fun y hy hne => hother y (by rw [← List.cons_append]; exact List.mem_append_left _ hy) hne), ?_⟩
  rw [← hcl] at hc ⊢
  have hp := lst_le head A i
  by_cases hi : i < t.h
  · rw [lvp_pos hi, lvp_up] at hc
    obtain ⟨d, c1, c2, c3⟩ := hc
    simp only at c2
    obtain ⟨d', hd'⟩ := chainP_link c3
    have hd2 : getLink m0 t.addr i = some ⟨((up 1 (lvp i A.length B)).map (·.1)).head?, d'⟩ := hd'
    refine chainP_retarget_down (d' := d' + (A.length - (lst head A i).2)) c3 hd' ?_ ?_ ?_ hQ
    · rw [hlk _ (hnt _ hlast'), post3, if_pos hi, if_pos rfl, hd2]; rfl
    · simp only; omega
    · intro _; simp only; omega
  · rw [lvp_neg hi, lvp_up] at hc
    obtain ⟨l, hl⟩ : ∃ l, lk m0 i (lst head A i).1 = some l := by
      obtain ⟨d, hd⟩ := chainP_link hc; exact ⟨_, hd⟩
    have hl' : getLink m0 (lst head A i).1 i = some l := hl
    have hpost : lk' (lst head A i).1 = some (if l.next = none then l else ⟨l.next, l.dist - 1⟩) := by
      rw [hlk _ (hnt _ hlast'), post3, if_neg hi, if_pos rfl, hl']; rfl
    by_cases hn : l.next = none
    · rw [if_pos hn] at hpost
      exact chainP_retarget_down (d' := l.dist) hc hl hpost (by omega) (fun h => absurd hn h) hQ
    · rw [if_neg hn] at hpost
      have hpos : 1 ≤ l.dist := by
        cases hB : lvp i A.length B with
        | nil =>
          rw [hB] at hc; obtain ⟨d, c1, _⟩ := hc
          rw [hl] at c1
          obtain rfl := Option.some.inj c1
          exact absurd rfl hn
        | cons y Q =>
          have h5 := (mem_lvp (i := i) (k := A.length) (T := B) (x := y) (by rw [hB]; simp)).1
          rw [hB] at hc
          obtain ⟨d, c1, c2, _⟩ := hc
          rw [hl] at c1
          obtain rfl := Option.some.inj c1
          simp only at c2 ⊢
          omega
      exact chainP_retarget_down (d' := l.dist - 1) hc hl hpost (by omega) (fun _ => by omega) hQ

theorem remove_ok {ex : Prop} {s : SkipList V} {A B : List (Tower V)} {t : Tower V} (h : Good ex s (A ++ t :: B)) :
    ∃ s', s.remove A.length = some (s', t.e) ∧ Good False s' (A ++ B) := by
  obtain ⟨hr, hlen, hb⟩ := h
  have hS := hr.sub
  have htop := hS.lst_top
  have hl2 : s.len = (A ++ B).length + 1 := by rw [hlen]; simp; omega
  obtain ⟨m', a1, a2, a3⟩ := removeDown_ok (m0 := s.mem) (fuel := s.len + 1) hS hr.chain (by rw [hlen]; simp; omega) maxHeight s.mem
    (Nat.le_refl _) rfl (fun a j hj => by rw [if_neg (by omega)])
  rw [htop] at a1
  simp only [Nat.sub_zero] at a1
  have hp : (s.head :: (A ++ t :: B).map (·.addr)).Perm (t.addr :: s.head :: (A ++ B).map (·.addr)) := by
    simp only [List.map_append, List.map_cons]
    rw [← List.cons_append, ← List.cons_append]
    exact List.perm_middle
  have hnd := hp.nodup_iff.1 hS.nodup
  obtain ⟨hfresh, hnd⟩ := List.nodup_cons.1 hnd
  refine ⟨⟨m', s.head, s.len - 1, s.bump⟩, ?_, ⟨⟨?_, ?_, ?_, hnd⟩, ?_, ?_⟩, ?_, ?_⟩
  · unfold SkipList.remove
    rw [if_pos (by rw [hlen]; simp), a1]
    have e : sub s.len 1 = some (s.len - 1) := by rw [sub, if_pos (by omega)]
    simp [e]
  · simp only; rw [a2, if_neg (by intro hc; exact hfresh (by rw [← hc]; simp))]; exact hS.hd
  · intro x hx
    simp only
    rw [a2, if_neg (by
      intro hc; exact hfresh (by rw [← hc]; exact List.mem_cons_of_mem _ (List.mem_map.2 ⟨x, hx, rfl⟩)))]
    simp only [List.mem_append] at hx
    exact hS.tow x (by simp only [List.mem_append, List.mem_cons]; tauto)
  · intro x hx
    simp only [List.mem_append] at hx
    exact hS.pos x (by simp only [List.mem_append, List.mem_cons]; tauto)
  · intro a h1 h2
    simp only
    rw [a2]
    split
    · rfl
    · rename_i h3
      refine hr.only a h1 ?_
      simp only [List.map_append, List.map_cons, List.mem_append, List.mem_cons, not_or] at h2 ⊢
      exact ⟨h2.1, h3, h2.2⟩
  · intro i hi
    refine chain_remove (ex := ex) hS.nodup ?_ (fun a ha => a3 a i hi ha)
    have := hr.chain i hi
    rw [← hlen, hl2] at this
    exact this
  · simp only; omega
  · intro a ha
    simp only at ha ⊢
    have h1 : shape m' a = none := by
      rw [a2]
      split
      · rfl
      · simp [shape, hb a ha]
    simpa [shape] using h1

/-! ### Lookups -/

theorem lookup_ok {m : LHeap V} {head : Addr} {A B : List (Tower V)} {n fuel idx : Nat} {ex : Prop}
    (hS : Sub (shape m) head (A ++ B)) (hch : ∀ i ≤ maxHeight, ChainP (lk m i) ex n (head, 0) (lvp i 0 (A ++ B)))
    (hA : A.length ≤ idx) (hB : B = [] ∨ A.length = idx) (hf : A.length < fuel) :
    ∀ i : Nat, i ≤ maxHeight →
      lookup m fuel i (lst head A (i + 1)).1 (idx - (lst head A (i + 1)).2) = some (B.head?.map (·.addr)) := by
  intro i
  induction i with
  | zero =>
    intro hi
    obtain ⟨l, g1, g2⟩ := walk_level (w := 0) (idx := idx) (hch 0 hi) hA hB hf
    have hc := hch 0 hi
    rw [lvp_append, chainP_append] at hc
    have hc := hc.2
    have hp := lst_le head A 0
    rw [lookup.eq_def]
    simp only [g2]
    cases B with
    | nil =>
      obtain ⟨d, c1, _⟩ := hc
      have c1' : getLink m (lst head A 0).1 0 = some ⟨none, d⟩ := c1
      rw [g1] at c1'
      obtain rfl := Option.some.inj c1'
      rfl
    | cons t B =>
      rw [lvp_pos (hS.pos t (by simp)).1] at hc
      obtain ⟨d, c1, c2, _⟩ := hc
      have c1' : getLink m (lst head A 0).1 0 = some ⟨some t.addr, d⟩ := c1
      have c2' : (lst head A 0).2 + d = 0 + A.length + 1 := c2
      rw [g1] at c1'
      obtain rfl := Option.some.inj c1'
      have e : A.length = idx := by simpa using hB
      have e1 : d = idx - (lst head A 0).2 + 1 := by omega
      simp [e1]
  | succ i ih =>
    intro hi
    obtain ⟨l, g1, g2⟩ := walk_level (w := 0) (idx := idx) (hch _ hi) hA hB hf
    have hc := hch _ hi
    rw [lvp_append, chainP_append] at hc
    have hc := hc.2
    have hp := lst_le head A (i + 1)
    have ih := ih (by omega)
    rw [lookup.eq_def]
    simp only [g2]
    have key : ∀ b, l.next = some b → l.dist = idx - (lst head A (i + 1)).2 + 1 → some b = B.head?.map (·.addr) := by
      intro b hb hd
      cases hQ : lvp (i + 1) (0 + A.length) B with
      | nil =>
        rw [hQ] at hc
        obtain ⟨d, c1, _⟩ := hc
        have c1' : getLink m (lst head A (i + 1)).1 (i + 1) = some ⟨none, d⟩ := c1
        rw [g1] at c1'
        obtain rfl := Option.some.inj c1'
        simp at hb
      | cons y Q =>
        rw [hQ] at hc
        obtain ⟨d, c1, c2, _⟩ := hc
        have c1' : getLink m (lst head A (i + 1)).1 (i + 1) = some ⟨some y.1, d⟩ := c1
        have c2' : (lst head A (i + 1)).2 + d = y.2 := c2
        rw [g1] at c1'
        obtain rfl := Option.some.inj c1'
        simp only at hb hd
        obtain rfl := Option.some.inj hb
        cases B with
        | nil => simp [lvp] at hQ
        | cons t B =>
          have e : A.length = idx := by simpa using hB
          by_cases ht : i + 1 < t.h
          · rw [lvp_pos ht] at hQ
            obtain ⟨rfl, _⟩ := List.cons.inj hQ
            rfl
          · rw [lvp_neg ht] at hQ
            have := (mem_lvp (i := i + 1) (k := 0 + A.length + 1) (T := B) (x := y) (by rw [hQ]; simp)).1
            omega
    obtain ⟨nx, d⟩ := l
    cases nx with
    | none => simpa using ih
    | some b =>
      by_cases hd : d = idx - (lst head A (i + 1)).2 + 1
      · simp only [hd, decide_true]
        rw [key b rfl hd]
      · simp only [hd, decide_false]
        exact ih

theorem lookup_good {ex : Prop} {s : SkipList V} {T : List (Tower V)} (h : Good ex s T) (idx : Nat) :
    lookup s.mem (s.len + 1) maxHeight s.head idx = some (T[idx]?.map (·.addr)) := by
  obtain ⟨hr, hlen, hb⟩ := h
  have e : T = T.take idx ++ T.drop idx := (List.take_append_drop _ _).symm
  have hS := hr.sub
  have hch := hr.chain
  rw [e] at hS
  have h1 := lookup_ok (idx := idx) (fuel := s.len + 1) hS (fun i hi => by rw [← e]; exact hch i hi) (by simp; omega)
    (by
      by_cases h : idx ≤ T.length
      · right; simp; omega
      · left; exact List.drop_of_length_le (by omega)) (by rw [hlen]; simp; omega) maxHeight (Nat.le_refl _)
  rw [hS.lst_top] at h1
  simp only [Nat.sub_zero] at h1
  rw [h1, List.head?_drop]

theorem get_ok {ex : Prop} {s : SkipList V} {T : List (Tower V)} (h : Good ex s T) (idx : Nat) :
    s.get idx = some (T[idx]?.map (·.e)) := by
  unfold SkipList.get
  rw [lookup_good h]
  cases ht : T[idx]? with
  | none => rfl
  | some t =>
    have := entryAt_of_shape (h.1.sub.tow t (List.mem_of_getElem? ht))
    simp [this]

end Verif.Skip.Lst
