/- The set operations of a skip map: the relinking loop against merging of tower lists. -/
import Verif.Skip.MapSim

namespace Verif.Skip.Map

open Verif.Spec Verif.SL

variable {K V : Type}

/-- Level-0 links of consecutive nodes. -/
def Run (m : MHeap K V) (l : List Addr) : Prop :=
  ∀ a Q, (∃ P, l = P ++ a :: Q) → getLink m a 0 = some Q.head?

/-- Addresses of towers. -/
abbrev addrs (T : List (Tower (K × V))) : List Addr := T.map (·.addr)

/-- State of the loop: `O` has been output, `L` and `R` remain, `X` is in hand. -/
structure MInv (s : Merge K V) (head lh rh : Addr) (O L R X : List (Tower (K × V))) : Prop where
  hd : ∀ a ∈ [head, lh, rh], Skip.shape s.mem a = some (none, maxHeight + 1)
  tow : ∀ t ∈ O ++ L ++ R ++ X, Skip.shape s.mem t.addr = some (some t.e, t.h)
  pos : ∀ t ∈ O ++ L ++ R ++ X, 0 < t.h ∧ t.h ≤ maxHeight + 1
  only : ∀ a, a ∉ [head, lh, rh] → a ∉ addrs (O ++ L ++ R ++ X) → Skip.shape s.mem a = none
  nodup : ([head, lh, rh] ++ addrs (O ++ L ++ R ++ X)).Nodup
  chain : ∀ i ≤ maxHeight, Chain (lk s.mem i) head (lv i O)
  curr : s.curr.length = maxHeight + 1 ∧ ∀ i ≤ maxHeight, s.curr[i]? = some (lastD head (lv i O))
  left : s.left = (addrs L).head? ∧ Run s.mem (addrs L)
  right : s.right = (addrs R).head? ∧ Run s.mem (addrs R)
  len : s.len = O.length

theorem run_tail {m : MHeap K V} {a : Addr} {l : List Addr} (h : Run m (a :: l)) : Run m l := by
  rintro b Q ⟨P, rfl⟩
  exact h b Q ⟨a :: P, rfl⟩

theorem run_frame {m m' : MHeap K V} {l : List Addr} (h : Run m l)
    (hf : ∀ a ∈ l, getLink m' a 0 = getLink m a 0) : Run m' l := by
  intro a Q hP
  rw [hf a (by obtain ⟨P, rfl⟩ := hP; simp)]
  exact h a Q hP

variable {s : Merge K V} {head lh rh : Addr} {O L R X : List (Tower (K × V))} {t : Tower (K × V)}

/-- Moving towers between the parts. -/
theorem MInv.perm {s' : Merge K V} {L' R' X' : List (Tower (K × V))} (h : MInv s head lh rh O L R X)
    (hm : s'.mem = s.mem) (hc : s'.curr = s.curr) (hl : s'.len = s.len)
    (hp : (O ++ L' ++ R' ++ X').Perm (O ++ L ++ R ++ X))
    (h1 : s'.left = (addrs L').head? ∧ Run s'.mem (addrs L'))
    (h2 : s'.right = (addrs R').head? ∧ Run s'.mem (addrs R')) : MInv s' head lh rh O L' R' X' where
  hd := by rw [hm]; exact h.hd
  tow := fun t ht => by rw [hm]; exact h.tow t (hp.mem_iff.1 ht)
  pos := fun t ht => h.pos t (hp.mem_iff.1 ht)
  only := fun a h1 h2 => by
    rw [hm]
    exact h.only a h1 fun h3 => h2 ((hp.map _).mem_iff.2 h3)
  nodup := (((hp.map _).append_left _).nodup_iff).2 h.nodup
  chain := by rw [hm]; exact h.chain
  curr := by rw [hc]; exact h.curr
  left := h1
  right := h2
  len := by rw [hl]; exact h.len

theorem popL_ok (h : MInv s head lh rh O (t :: L) R X) :
    ∃ s', popL s = some (t.addr, s') ∧ MInv s' head lh rh O L R (t :: X) ∧ s'.mem = s.mem ∧ s'.right = s.right := by
  have h1 := h.left.1
  have h2 : getLink s.mem t.addr 0 = some (addrs L).head? := h.left.2 t.addr (addrs L) ⟨[], rfl⟩
  refine ⟨{ s with left := (addrs L).head? }, ?_, ?_, rfl, rfl⟩
  · simp only [List.map_cons, List.head?_cons] at h1
    simp [popL, h1, h2]
  · refine h.perm rfl rfl rfl ?_ ⟨rfl, run_tail h.left.2⟩ h.right
    have : (O ++ L ++ R ++ t :: X).Perm (t :: (O ++ L ++ R ++ X)) := List.perm_middle
    refine this.trans ?_
    have : (O ++ t :: L ++ R ++ X).Perm (t :: (O ++ L ++ R ++ X)) := by
      simp only [List.append_assoc]
      exact List.perm_middle
    exact this.symm

theorem popR_ok (h : MInv s head lh rh O L (t :: R) X) :
    ∃ s', popR s = some (t.addr, s') ∧ MInv s' head lh rh O L R (t :: X) ∧ s'.mem = s.mem ∧ s'.left = s.left := by
  have h1 := h.right.1
  have h2 : getLink s.mem t.addr 0 = some (addrs R).head? := h.right.2 t.addr (addrs R) ⟨[], rfl⟩
  refine ⟨{ s with right := (addrs R).head? }, ?_, ?_, rfl, rfl⟩
  · simp only [List.map_cons, List.head?_cons] at h1
    simp [popR, h1, h2]
  · refine h.perm rfl rfl rfl ?_ h.left ⟨rfl, run_tail h.right.2⟩
    have : (O ++ L ++ R ++ t :: X).Perm (t :: (O ++ L ++ R ++ X)) := List.perm_middle
    refine this.trans ?_
    have : (O ++ L ++ t :: R ++ X).Perm (t :: (O ++ L ++ R ++ X)) := by
      rw [List.append_assoc (O ++ L)]
      rw [List.append_assoc (O ++ L)]
      exact List.perm_middle
    exact this.symm

theorem mem_lists {a : Addr} : a ∈ addrs (O ++ L ++ R ++ X) ↔ a ∈ addrs O ∨ a ∈ addrs L ∨ a ∈ addrs R ∨ a ∈ addrs X := by
  simp only [addrs, List.map_append, List.mem_append, or_assoc]

/-- The tower in hand is none of the others. -/
theorem MInv.fresh (h : MInv s head lh rh O L R (t :: X)) :
    t.addr ∉ [head, lh, rh] ∧ t.addr ∉ addrs O ∧ t.addr ∉ addrs L ∧ t.addr ∉ addrs R ∧ t.addr ∉ addrs X := by
  have hn := h.nodup
  have p : ([head, lh, rh] ++ addrs (O ++ L ++ R ++ t :: X)).Perm
      (t.addr :: ([head, lh, rh] ++ addrs (O ++ L ++ R ++ X))) := by
    have : (addrs (O ++ L ++ R ++ t :: X)).Perm (t.addr :: addrs (O ++ L ++ R ++ X)) :=
      (List.perm_middle (l₁ := O ++ L ++ R) (l₂ := X) (a := t)).map (·.addr)
    exact (this.append_left _).trans List.perm_middle
  rw [p.nodup_iff, List.nodup_cons, List.mem_append, mem_lists] at hn
  have := hn.1
  tauto

theorem MInv.nodup_rest (h : MInv s head lh rh O L R (t :: X)) :
    ([head, lh, rh] ++ addrs (O ++ L ++ R ++ X)).Nodup := by
  refine h.nodup.sublist ?_
  refine List.Sublist.append_left ?_ _
  refine List.Sublist.map _ ?_
  exact List.Sublist.append_left (List.sublist_cons_self _ _) _

theorem free_hand (h : MInv s head lh rh O L R (t :: X)) :
    ∃ s', freeNode s t.addr = some s' ∧ MInv s' head lh rh O L R X ∧ s'.left = s.left ∧ s'.right = s.right := by
  obtain ⟨m', h1, h2, h3⟩ := free_ok (h.tow t (by simp))
  obtain ⟨f1, f2, f3, f4, f5⟩ := h.fresh
  have hsub : ∀ x ∈ O ++ L ++ R ++ X, x ∈ O ++ L ++ R ++ t :: X := by
    intro x hx; simp only [List.mem_append, List.mem_cons] at hx ⊢; tauto
  have hne : ∀ x ∈ O ++ L ++ R ++ X, x.addr ≠ t.addr := by
    rintro x hx hc
    have : t.addr ∈ addrs (O ++ L ++ R ++ X) := hc ▸ List.mem_map.2 ⟨x, hx, rfl⟩
    rw [mem_lists] at this
    tauto
  refine ⟨{ s with mem := m' }, by simp [freeNode, h1], ?_, rfl, rfl⟩
  refine ⟨?_, ?_, fun x hx => h.pos x (hsub x hx), ?_, h.nodup_rest, ?_, h.curr, ⟨h.left.1, ?_⟩, ⟨h.right.1, ?_⟩, h.len⟩
  · intro a ha
    rw [h2, if_neg (by rintro rfl; exact f1 ha)]
    exact h.hd a ha
  · intro x hx
    rw [h2, if_neg (hne x hx)]
    exact h.tow x (hsub x hx)
  · intro a h4 h5
    rw [h2]
    split
    · rfl
    · rename_i h6
      refine h.only a h4 fun h7 => ?_
      rw [mem_lists] at h5 h7
      simp only [List.map_cons, List.mem_cons] at h7
      tauto
  · intro i hi
    refine chain_frame (h.chain i hi) fun y hy => ?_
    simp only [lk]
    rw [h3, if_neg]
    rintro rfl
    rcases List.mem_cons.1 hy with hy | hy
    · exact f1 (by rw [hy]; simp)
    · exact f2 (mem_lv_addr hy)
  · refine run_frame h.left.2 fun a ha => ?_
    rw [h3, if_neg (by rintro rfl; exact f3 ha)]
  · refine run_frame h.right.2 fun a ha => ?_
    rw [h3, if_neg (by rintro rfl; exact f4 ha)]

theorem relink_ok {next : Addr} {c : Nat → Addr} (n i : Nat) (m : MHeap K V) (curr : List Addr)
    (hl : curr.length = maxHeight + 1) (hin : i + n ≤ maxHeight + 1)
    (hc : ∀ j, i ≤ j → j < i + n → curr[j]? = some (c j))
    (hs : ∀ j, i ≤ j → j < i + n → ∃ e k, shape m (c j) = some (e, k) ∧ j < k) :
    ∃ m' curr', relink next i n (m, curr) = some (m', curr') ∧ shape m' = shape m ∧
      (∀ b j, getLink m' b j = if (i ≤ j ∧ j < i + n) ∧ b = c j then some (some next) else getLink m b j) ∧
      curr'.length = maxHeight + 1 ∧
      ∀ j, j ≤ maxHeight → curr'[j]? = if i ≤ j ∧ j < i + n then some next else curr[j]? := by
  induction n generalizing i m curr with
  | zero =>
    refine ⟨m, curr, rfl, rfl, ?_, hl, ?_⟩
    · intro b j; rw [if_neg]; omega
    · intro j _; rw [if_neg]; omega
  | succ n ih =>
    have h1 := hc i (Nat.le_refl _) (by omega)
    obtain ⟨e, k, h2, h3⟩ := hs i (Nat.le_refl _) (by omega)
    obtain ⟨m1, g1, g2, g3⟩ := setLink_ok h2 h3 (some next)
    obtain ⟨m', curr', e1, e2, e3, e4, e5⟩ := ih (i + 1) m1 (curr.set i next) (by simpa using hl) (by omega)
      (fun j h4 h5 => by
        rw [List.getElem?_set_ne (by omega)]
        exact hc j (by omega) (by omega))
      (fun j h4 h5 => by rw [g2]; exact hs j (by omega) (by omega))
    refine ⟨m', curr', ?_, by rw [e2, g2], ?_, e4, ?_⟩
    · simp only [relink, h1, g1]
      exact e1
    · intro b j
      rw [e3, g3]
      by_cases hj : j = i
      · subst hj
        by_cases hb : b = c j
        · rw [if_neg (by omega), if_pos ⟨hb, rfl⟩, if_pos ⟨by omega, hb⟩]
        · rw [if_neg (by omega), if_neg (by simp [hb]), if_neg (by simp [hb])]
      · by_cases hb : (i + 1 ≤ j ∧ j < i + 1 + n) ∧ b = c j
        · rw [if_pos hb, if_pos ⟨by omega, hb.2⟩]
        · rw [if_neg hb, if_neg (by simp [hj]), if_neg]
          rintro ⟨h6, h7⟩
          exact hb ⟨by omega, h7⟩
    · intro j hj
      rw [e5 j hj]
      by_cases hji : j = i
      · subst hji
        rw [if_neg (by omega), if_pos (by omega), List.getElem?_set_self (by omega)]
      · rw [List.getElem?_set_ne (by omega)]
        by_cases hb : i + 1 ≤ j ∧ j < i + 1 + n
        · rw [if_pos hb, if_pos (by omega)]
        · rw [if_neg hb, if_neg (by omega)]

theorem append_ok (h : MInv s head lh rh O L R [t]) :
    ∃ s', append 0 t.addr s = some s' ∧ MInv s' head lh rh (O ++ [t]) L R [] ∧ s'.left = s.left ∧ s'.right = s.right := by
  obtain ⟨f1, f2, f3, f4, f5⟩ := h.fresh
  have ht := h.tow t (by simp)
  have hpos := h.pos t (by simp)
  obtain ⟨m1, a1, a2, a3⟩ := zeroLinks_ok ht none
  have ht1 : shape m1 t.addr = some (some t.e, t.h) := by rw [a2]; exact ht
  obtain ⟨ls, b1, b2⟩ := shape_eq ht1
  have hlast : ∀ i ≤ maxHeight, lastD head (lv i O) ∈ head :: lv i O := fun i _ => lastD_mem _ _
  have hheadO : ∀ i, ∀ y ∈ head :: lv i O, y ≠ t.addr := by
    rintro i y hy rfl
    rcases List.mem_cons.1 hy with hy | hy
    · exact f1 (by rw [hy]; simp)
    · exact f2 (mem_lv_addr hy)
  obtain ⟨m2, curr', c1, c2, c3, c4, c5⟩ := relink_ok (next := t.addr) (c := fun j => lastD head (lv j O)) t.h 0 m1 s.curr
    h.curr.1 (by omega) (fun j _ hj => h.curr.2 j (by omega))
    (fun j _ hj => by
      rw [a2]
      rcases List.mem_cons.1 (hlast j (by omega)) with hy | hy
      · rw [hy]; exact ⟨_, _, h.hd head (by simp), by omega⟩
      · obtain ⟨x, hx, hxj, he⟩ := mem_lv.1 hy
        rw [← he]
        exact ⟨_, _, h.tow x (by simp [hx]), hxj⟩)
  simp only [Nat.zero_le, true_and, Nat.zero_add] at c3 c5
  have hfar : ∀ b j, b ≠ t.addr → (∀ i ≤ maxHeight, b ∉ head :: lv i O) → j ≤ maxHeight → getLink m2 b j = getLink s.mem b j := by
    intro b j hb hbO hj
    rw [c3, if_neg, a3, if_neg hb]
    rintro ⟨_, rfl⟩
    exact hbO j hj (hlast j hj)
  have hO3 : ∀ y, y ∈ addrs L ∨ y ∈ addrs R → y ≠ t.addr ∧ ∀ i ≤ maxHeight, y ∉ head :: lv i O := by
    intro y hy
    refine ⟨by rintro rfl; tauto, fun i _ hc => ?_⟩
    have hn := h.nodup
    rw [List.nodup_append] at hn
    rcases List.mem_cons.1 hc with rfl | hc
    · exact hn.2.2 y (by simp) y (mem_lists.2 (by tauto)) rfl
    · have h4 : y ∈ addrs O := mem_lv_addr hc
      have h5 := hn.2.1
      simp only [addrs, List.map_append] at h5
      rw [List.append_assoc, List.append_assoc, List.nodup_append] at h5
      refine h5.2.2 y h4 y ?_ rfl
      simp only [List.mem_append]
      tauto
  refine ⟨{ s with mem := m2, curr := curr', len := s.len + 1 }, ?_, ?_, rfl, rfl⟩
  · unfold append
    rw [a1]
    simp only [b1, b2, Nat.add_zero, c1]
    rfl
  · have hperm : (O ++ [t] ++ L ++ R ++ []).Perm (O ++ L ++ R ++ [t]) := by
      simp only [List.append_nil, List.append_assoc, List.singleton_append]
      rw [← List.append_assoc L]
      exact ((List.perm_append_singleton t (L ++ R)).symm.append_left O).trans (by simp)
    refine ⟨?_, ?_, ?_, ?_, ?_, ?_, ⟨c4, ?_⟩, ⟨h.left.1, ?_⟩, ⟨h.right.1, ?_⟩, ?_⟩
    · intro a ha; simp only [c2, a2]; exact h.hd a ha
    · intro x hx; simp only [c2, a2]; exact h.tow x (hperm.mem_iff.1 hx)
    · intro x hx; exact h.pos x (hperm.mem_iff.1 hx)
    · intro a h4 h5; simp only [c2, a2]
      exact h.only a h4 fun h6 => h5 ((hperm.map _).mem_iff.2 h6)
    · exact (((hperm.map _).append_left _).nodup_iff).2 h.nodup
    · intro i hi
      have hn : (head :: (lv i O ++ [])).Nodup := by
        have hn := h.nodup
        rw [List.append_nil]
        refine hn.sublist ?_
        simp only [List.cons_append, List.nil_append]
        refine List.Sublist.cons_cons _ (List.Sublist.cons _ (List.Sublist.cons _ ?_))
        refine (lv_sublist i O).trans ?_
        refine List.Sublist.map _ ?_
        simp
      have hc := h.chain i hi
      by_cases hit : i < t.h
      · rw [lv_append, lv_cons_pos _ hit, lv_nil]
        refine chain_splice (lk := lk s.mem i) (Q := []) hn (by simpa using hc) ?_ ⟨?_, ?_⟩
        · intro y hy hne
          simp only [lk]
          rw [c3, if_neg (by simp [hne]), a3, if_neg (hheadO i y hy)]
        · simp only [lk]
          rw [c3, if_pos ⟨hit, rfl⟩]
        · show getLink m2 t.addr i = some none
          rw [c3, if_neg, a3, if_pos rfl, if_pos hit]
          rintro ⟨_, h7⟩
          exact hheadO i _ (hlast i hi) h7.symm
      · rw [lv_append, lv_cons_neg _ hit, lv_nil, List.append_nil]
        refine chain_frame hc fun y hy => ?_
        simp only [lk]
        rw [c3, if_neg (by simp [hit]), a3, if_neg (hheadO i y hy)]
    · intro i hi
      rw [c5 i hi, lv_append, lastD_append]
      by_cases hit : i < t.h
      · rw [if_pos hit, lv_cons_pos _ hit]; rfl
      · rw [if_neg hit, lv_cons_neg _ hit]
        exact h.curr.2 i hi
    · refine run_frame h.left.2 fun a ha => ?_
      exact hfar a 0 (hO3 a (.inl ha)).1 (hO3 a (.inl ha)).2 (Nat.zero_le _)
    · refine run_frame h.right.2 fun a ha => ?_
      exact hfar a 0 (hO3 a (.inr ha)).1 (hO3 a (.inr ha)).2 (Nat.zero_le _)
    · simp [h.len]

/-- `relink` stops where `curr` ends. -/
theorem relink_more {next : Addr} (e n i : Nat) (m : MHeap K V) (curr : List Addr) (h : curr.length ≤ i + n) :
    relink next i (n + e) (m, curr) = relink next i n (m, curr) := by
  induction n generalizing i m curr with
  | zero =>
    cases e with
    | zero => rfl
    | succ e => simp only [relink, List.getElem?_eq_none (show curr.length ≤ i by omega)]
  | succ n ih =>
    rw [Nat.add_right_comm]
    simp only [relink]
    cases curr[i]? with
    | none => rfl
    | some c =>
      simp only
      cases setLink m c i (some next) with
      | none => rfl
      | some m => exact ih (i + 1) m (curr.set i next) (by simp; omega)

/-- A tower of full height is appended properly by `intersection`, too. -/
theorem append_full {extra : Nat} (h : MInv s head lh rh O L R [t]) (ht : t.h = maxHeight + 1) :
    append extra t.addr s = append 0 t.addr s := by
  unfold append
  obtain ⟨m1, a1, a2, -⟩ := zeroLinks_ok (h.tow t (by simp)) none
  obtain ⟨ls, b1, b2⟩ := shape_eq (show shape m1 t.addr = some (some t.e, t.h) by rw [a2]; exact h.tow t (by simp))
  rw [a1]
  simp only [b1, b2, Nat.add_zero]
  rw [relink_more extra t.h 0 m1 s.curr (by rw [h.curr.1, ht]; omega)]

/-! ### The loop on tower lists -/

/-- What an iteration does with the remaining lists: the new remainders and the tower to output. -/
abbrev Pick (K V : Type) := List (Tower (K × V)) → List (Tower (K × V)) →
  Option (List (Tower (K × V)) × List (Tower (K × V)) × Option (Tower (K × V)))

/-- The loop on lists; `none` if the code dereferences a null pointer. -/
def listMerge (pick : Pick K V) : Nat → List (Tower (K × V)) → List (Tower (K × V)) → Option (List (Tower (K × V)))
  | _, [], [] => some []
  | 0, _, _ => none
  | f + 1, L, R =>
    match pick L R with
    | none => none
    | some (L', R', none) => listMerge pick f L' R'
    | some (L', R', some t) => (listMerge pick f L' R').map (t :: ·)

/-- The code of an iteration does what the list function says. -/
def Implements (pick : Merge K V → Option (Merge K V × Option Addr)) (P : Pick K V) : Prop :=
  ∀ (s : Merge K V) (head lh rh : Addr) (O L R : List (Tower (K × V))), MInv s head lh rh O L R [] → (L ≠ [] ∨ R ≠ []) →
    match P L R with
    | none => pick s = none
    | some (L', R', ot) => ∃ s', pick s = some (s', ot.map (·.addr)) ∧ MInv s' head lh rh O L' R' ot.toList

theorem mergeLoop_step {pick : Merge K V → Option (Merge K V × Option Addr)} {extra f : Nat}
    (h : s.left ≠ none ∨ s.right ≠ none) : mergeLoop pick extra (f + 1) s = (match pick s with
          | none => none
          | some (s, none) => mergeLoop pick extra f s
          | some (s, some next) =>
            match append extra next s with
            | none => none
            | some s => mergeLoop pick extra f s) := by
  rw [mergeLoop.eq_def]
  simp only
  split
  · rename_i h1 h2; rw [h1, h2] at h; simp at h
  · rfl

theorem mergeLoop_zero {pick : Merge K V → Option (Merge K V × Option Addr)} {extra : Nat}
    (h : s.left ≠ none ∨ s.right ≠ none) : mergeLoop pick extra 0 s = none := by
  rw [mergeLoop.eq_def]
  simp only
  split
  · rename_i h1 h2; rw [h1, h2] at h; simp at h
  · rfl

theorem MInv.nonempty (h : MInv s head lh rh O L R X) (hne : L ≠ [] ∨ R ≠ []) : s.left ≠ none ∨ s.right ≠ none := by
  rw [h.left.1, h.right.1]
  rcases hne with h | h
  · left; cases L <;> simp_all
  · right; cases R <;> simp_all

theorem mergeLoop_ok {pick : Merge K V → Option (Merge K V × Option Addr)} {P : Pick K V} (hp : Implements pick P)
    {extra f : Nat} (h : MInv s head lh rh O L R []) :
    (∀ Z, listMerge P f L R = some Z → (extra = 0 ∨ ∀ t ∈ Z, t.h = maxHeight + 1) →
      ∃ s', mergeLoop pick extra f s = some s' ∧ MInv s' head lh rh (O ++ Z) [] [] []) ∧
    (listMerge P f L R = none → extra = 0 → mergeLoop pick extra f s = none) := by
  induction f generalizing s O L R with
  | zero =>
    by_cases hLR : L = [] ∧ R = []
    · obtain ⟨rfl, rfl⟩ := hLR
      have h1 : s.left = none := h.left.1
      have h2 : s.right = none := h.right.1
      constructor
      · intro Z hZ _
        simp only [listMerge, Option.some.injEq] at hZ
        subst hZ
        exact ⟨s, by rw [mergeLoop.eq_def]; simp only [h1, h2], by simpa using h⟩
      · intro hZ; simp [listMerge] at hZ
    · have e1 : listMerge P 0 L R = none := by
        cases L <;> cases R <;> simp_all [listMerge]
      have e2 : mergeLoop pick extra 0 s = none := mergeLoop_zero (h.nonempty (by tauto))
      rw [e1, e2]
      simp
  | succ f ih =>
    by_cases hLR : L = [] ∧ R = []
    · obtain ⟨rfl, rfl⟩ := hLR
      have h1 : s.left = none := h.left.1
      have h2 : s.right = none := h.right.1
      constructor
      · intro Z hZ _
        simp only [listMerge, Option.some.injEq] at hZ
        subst hZ
        exact ⟨s, by rw [mergeLoop.eq_def]; simp only [h1, h2], by simpa using h⟩
      · intro hZ; simp [listMerge] at hZ
    · have hne : L ≠ [] ∨ R ≠ [] := by tauto
      have hp1 := hp s head lh rh O L R h hne
      have e1 : listMerge P (f + 1) L R = (match P L R with
          | none => none
          | some (L', R', none) => listMerge P f L' R'
          | some (L', R', some t) => (listMerge P f L' R').map (t :: ·)) := by
        cases L <;> cases R <;> simp_all [listMerge]
      rw [e1, mergeLoop_step (h.nonempty hne)]
      cases hP : P L R with
      | none =>
        rw [hP] at hp1
        simp only at hp1
        simp [hp1]
      | some q =>
        obtain ⟨L', R', ot⟩ := q
        rw [hP] at hp1
        obtain ⟨s1, h1, h2⟩ := hp1
        simp only [h1]
        cases ot with
        | none => exact ih h2
        | some t =>
          simp only [Option.map_some, Option.toList_some] at h2 ⊢
          constructor
          · intro Z hZ hext
            simp only [Option.map_eq_some_iff] at hZ
            obtain ⟨Z', hZ', rfl⟩ := hZ
            obtain ⟨s2, g1, g2, _, _⟩ := append_ok h2
            have g1 : append extra t.addr s1 = some s2 := by
              rcases hext with rfl | hext
              · exact g1
              · rw [append_full h2 (hext t (by simp))]; exact g1
            obtain ⟨s3, g3, g4⟩ := (ih g2).1 Z' hZ' (hext.imp id fun h t ht => h t (by simp [ht]))
            refine ⟨s3, by simp [g1, g3], by simpa using g4⟩
          · intro hZ hext
            subst hext
            obtain ⟨s2, g1, g2, _, _⟩ := append_ok h2
            simp only [g1]
            exact (ih g2).2 (by simpa using hZ) rfl

end Verif.Skip.Map
