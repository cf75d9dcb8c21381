/- The loops of `insert` and `remove` of a skip map whose comparisons obey no law: each level loses at most the node
that was found there, gains the new node, and the levels stay sublists of each other. -/
import Verif.Skip.MapLawless
import Verif.Skip.MapLemmas

namespace Verif.Skip.Map

open Verif.Spec

variable {K V : Type}

/-! ### Lists -/

/-- A level cut where a walk has ended: `A` has been passed, `X` is the node that was found, if any, `B` the rest. -/
structure Cut (L E : Addr → Bool) (X B : List Addr) : Prop where
  stop : ∀ y, (X ++ B).head? = some y → L y = false
  found : (X = [] ∧ ∀ y, B.head? = some y → E y = false) ∨ ∃ x, X = [x] ∧ E x = true

theorem Cut.nil (L E : Addr → Bool) : Cut L E [] [] := ⟨by simp, .inl ⟨rfl, by simp⟩⟩

theorem sub_split {A Y C : List Addr} (h : (A ++ Y).Sublist C) (a : Addr) :
    ∃ C1 C2, C = C1 ++ C2 ∧ A.Sublist C1 ∧ Y.Sublist C2 ∧ lastD a C1 = lastD a A := by
  obtain ⟨r1, r2, rfl, h1, h2⟩ := List.append_sublist_iff.1 h
  rcases List.eq_nil_or_concat A with rfl | ⟨A', x, rfl⟩
  · exact ⟨[], r1 ++ r2, rfl, .refl _, h2.trans (List.sublist_append_right _ _), rfl⟩
  · rw [List.concat_eq_append] at h1 ⊢
    obtain ⟨s1, s2, rfl, h3, h4⟩ := List.append_sublist_iff.1 h1
    obtain ⟨t1, t2, rfl⟩ := List.append_of_mem (List.singleton_sublist.1 h4)
    refine ⟨s1 ++ (t1 ++ [x]), t2 ++ r2, by simp, h3.append (List.sublist_append_right _ _),
      h2.trans (List.sublist_append_right _ _), ?_⟩
    simp [lastD_append]

theorem sub_dropWhile {L : Addr → Bool} {Y C : List Addr} (h : Y.Sublist C)
    (hy : ∀ y, Y.head? = some y → L y = false) : Y.Sublist (C.dropWhile L) := by
  induction C with
  | nil => simpa using h
  | cons c C ih =>
    rw [List.dropWhile_cons]
    split
    · rename_i hc
      cases h with
      | cons _ h => exact ih h
      | cons_cons _ h => rw [hy c rfl] at hc; simp at hc
    · exact h

/-- The cut of the next level down. -/
theorem Cut.next {L E : Addr → Bool} {A X B C : List Addr} (h : Cut L E X B) (hs : (A ++ (X ++ B)).Sublist C)
    (a : Addr) : ∃ C1 W X' B', C = C1 ++ W ++ (X' ++ B') ∧ lastD a C1 = lastD a A ∧ (∀ w ∈ W, L w = true) ∧
      Cut L E X' B' ∧ A.Sublist (C1 ++ W) ∧ B.Sublist B' := by
  obtain ⟨C1, C2, rfl, h1, h2, h3⟩ := sub_split hs a
  have h4 := sub_dropWhile h2 h.stop
  have hW : ∀ w ∈ C2.takeWhile L, L w = true := fun w hw => (List.all_eq_true.1 (List.all_takeWhile (l := C2) (p := L))) w hw
  have e : C1 ++ C2 = C1 ++ C2.takeWhile L ++ C2.dropWhile L := by
    rw [List.append_assoc, List.takeWhile_append_dropWhile]
  have hA : A.Sublist (C1 ++ C2.takeWhile L) := h1.trans (List.sublist_append_left _ _)
  have hst : ∀ y, (C2.dropWhile L).head? = some y → L y = false := by
    intro y hy
    have := List.head?_dropWhile_not L C2
    rw [hy] at this
    simpa using this
  cases hz : C2.dropWhile L with
  | nil =>
    rw [hz] at h4 e
    have := List.sublist_nil.1 h4
    refine ⟨C1, C2.takeWhile L, [], [], by simpa using e, h3, hW, .nil _ _, hA, ?_⟩
    rw [(List.append_eq_nil_iff.1 this).2]
  | cons z Z =>
    rw [hz] at h4 e hst
    by_cases hE : E z = true
    · refine ⟨C1, C2.takeWhile L, [z], Z, by simpa using e, h3, hW, ⟨by simpa using hst, .inr ⟨z, rfl, hE⟩⟩, hA, ?_⟩
      rcases h.found with ⟨rfl, hb⟩ | ⟨x, rfl, _⟩
      · rw [List.nil_append] at h4
        cases h4 with
        | cons _ h => exact h
        | cons_cons _ h => rw [hb z rfl] at hE; simp at hE
      · simpa using h4.tail
    · refine ⟨C1, C2.takeWhile L, [], z :: Z, by simpa using e, h3, hW, ⟨by simpa using hst, .inl ⟨rfl, ?_⟩⟩, hA,
        (List.sublist_append_right _ _).trans h4⟩
      simpa using hE

/-! ### One level -/

/-- Does the key of the node satisfy `p`? -/
def keyP (S : Addr → Option (Option (K × V) × Nat)) (p : K → Bool) (a : Addr) : Bool :=
  match S a with
  | some (some e, _) => p e.1
  | _ => false

/-- `a` is a node with an entry that reaches level `i`. -/
def Has (S : Addr → Option (Option (K × V) × Nat)) (i : Nat) (a : Addr) : Prop :=
  ∃ e n, S a = some (some e, n) ∧ i < n ∧ n ≤ maxHeight + 1

theorem keyP_of {S : Addr → Option (Option (K × V) × Nat)} {p : K → Bool} {a : Addr} {e : K × V} {n : Nat}
    (h : S a = some (some e, n)) : keyP S p a = p e.1 := by simp [keyP, h]

/-- The entry of the node that was found. -/
def retOf (S : Addr → Option (Option (K × V) × Nat)) (X : List Addr) : Option (K × V) :=
  X.head?.bind fun x => (S x).bind (·.1)

theorem removeLevelL_ok {S : Addr → Option (Option (K × V) × Nat)} {head : Addr} {C1 W X B : List Addr}
    {fuel : Nat} {c : Answers K} {i : Nat} {w : Work K V} (hS : shape w.mem = S) (hf : W.length < fuel)
    (hn : (head :: (C1 ++ W ++ (X ++ B))).Nodup) (hC : ∀ a ∈ C1 ++ W ++ (X ++ B), Has S i a)
    (hhd : ∃ e n, S head = some (e, n) ∧ i < n)
    (hch : Chain (lk w.mem i) head (C1 ++ W ++ (X ++ B)))
    (hW : ∀ a ∈ W, keyP S (c.lt i) a = true) (hcut : Cut (keyP S (c.lt i)) (keyP S (c.eq i)) X B)
    (hcur : w.cur = lastD head C1) (hlen : X.length ≤ w.len) (hret : w.ret = none) :
    ∃ w1, removeLevelL fuel c i w = some w1 ∧ w1.cur = lastD head (C1 ++ W) ∧
      (∀ a, shape w1.mem a = if i = 0 ∧ a ∈ X then none else S a) ∧
      (∀ b j, b ∉ X ∨ i ≠ 0 → j ≠ i → getLink w1.mem b j = getLink w.mem b j) ∧
      Chain (lk w1.mem i) head (C1 ++ W ++ B) ∧
      (i ≠ 0 → w1.ret = w.ret ∧ w1.len = w.len) ∧
      (i = 0 → w1.len + X.length = w.len ∧
        w1.ret = retOf S X) := by
  subst hS
  have hch2 : Chain (lk w.mem i) (lastD head C1) (W ++ (X ++ B)) := by
    rw [List.append_assoc] at hch; exact (chain_append.1 hch).2
  have hw : walk w.mem (fun e => c.lt i e.1) i fuel w.cur = some (lastD head (C1 ++ W), (X ++ B).head?) := by
    rw [hcur, lastD_append]
    refine walk_ok hch2 ?_ ?_ hf
    · intro b hb
      obtain ⟨e, n, h1, h2⟩ := hC b (by simp [hb])
      have := hW b hb
      rw [keyP_of h1] at this
      exact ⟨e, entryAt_of_shape h1, this⟩
    · intro b hb
      obtain ⟨e, n, h1, h2⟩ := hC b (List.mem_append_right _ (List.mem_of_mem_head? hb))
      have := hcut.stop b hb
      rw [keyP_of h1] at this
      exact ⟨e, entryAt_of_shape h1, this⟩
  unfold removeLevelL
  rw [hw]
  simp only [Option.bind_eq_bind, Option.bind_some]
  rcases hcut.found with ⟨rfl, hB⟩ | ⟨x, rfl, hx⟩
  · refine ⟨{ w with cur := lastD head (C1 ++ W) }, ?_, rfl, by simp, fun _ _ _ _ => rfl, by simpa using hch,
      by simp, by simp [retOf, hret]⟩
    cases hq : B.head? with
    | none => rw [List.nil_append, hq]; rfl
    | some b =>
      obtain ⟨e, n, h1, h2⟩ := hC b (by simp [List.mem_of_mem_head? hq])
      have := hB b hq
      rw [keyP_of h1] at this
      rw [List.nil_append, hq]
      simp only [unlinkL, entryAt_of_shape h1, this, Bool.false_eq_true, if_false]
  · obtain ⟨e, n, h1, h2⟩ := hC x (by simp)
    rw [keyP_of h1] at hx
    have hch3 := (chain_append.1 hch).2
    have hl : getLink w.mem x i = some B.head? := chain_link hch3.2
    have hlast : ∃ e n, shape w.mem (lastD head (C1 ++ W)) = some (e, n) ∧ i < n := by
      rcases List.mem_cons.1 (lastD_mem head (C1 ++ W)) with h | h
      · rw [h]; exact hhd
      · obtain ⟨e, n, h3, h4⟩ := hC _ (List.mem_append_left _ h)
        exact ⟨_, n, h3, h4.1⟩
    obtain ⟨e', n', h3, h4⟩ := hlast
    obtain ⟨m', g1, g2, g3⟩ := setLink_ok h3 h4 B.head?
    have hch' : Chain (lk m' i) head (C1 ++ W ++ B) := by
      refine chain_splice (Q := x :: B) (by simpa using hn) (by simpa using hch) ?_ ?_
      · intro y _ hne
        simp only [lk]
        rw [g3, if_neg (by simp [hne])]
      · refine chain_of_tail hch3.2 ?_ ?_
        · simp only [lk]
          rw [g3, if_pos ⟨rfl, rfl⟩]; exact hl.symm
        · intro y hy
          simp only [lk]
          rw [g3, if_neg]
          rintro ⟨rfl, _⟩
          rw [← List.cons_append, List.nodup_append] at hn
          exact hn.2.2 _ (lastD_mem head (C1 ++ W)) _ (by simp [hy]) rfl
    have hu : unlinkL (c.eq i) i { w with cur := lastD head (C1 ++ W) } ([x] ++ B).head? =
        release i x e ⟨m', lastD head (C1 ++ W), w.ret, w.len⟩ := by
      simp only [List.singleton_append, List.head?_cons, unlinkL, entryAt_of_shape h1, hx, if_true, hl,
        Option.bind_eq_bind, Option.bind_some, g1]
    rw [hu]
    cases i with
    | succ i =>
      refine ⟨_, rfl, rfl, ?_, ?_, hch', by simp, by simp⟩
      · intro a; simp [g2]
      · intro b j _ hj; rw [g3, if_neg (by simp [hj])]
    | zero =>
      have hx' : shape m' x = some (some e, n) := by rw [g2]; exact h1
      obtain ⟨m2, e1, e2, e3⟩ := free_ok hx'
      obtain ⟨k, hk⟩ : ∃ k, w.len = k + 1 := ⟨w.len - 1, by simp at hlen; omega⟩
      refine ⟨⟨m2, lastD head (C1 ++ W), some e, k⟩, ?_, rfl, ?_, ?_, ?_, by simp, ?_⟩
      · simp [release, e1, hk, dec]
      · intro a; simp [e2, g2]
      · intro b j hb hj
        simp only [List.mem_singleton, ne_eq, not_true_eq_false, or_false] at hb
        rw [e3, if_neg hb, g3, if_neg (by simp [hj])]
      · refine chain_frame hch' fun y hy => ?_
        simp only [lk]
        rw [e3, if_neg]
        rintro rfl
        rw [List.singleton_append, ← List.cons_append, List.perm_middle.nodup_iff, List.nodup_cons] at hn
        apply hn.1
        simpa using hy
      · intro _; simp [hk, h1, retOf]

theorem insertLevelL_eq (fuel : Nat) (new : Addr) (nh : Nat) (c : Answers K) (i : Nat) (w : Work K V) :
    insertLevelL fuel new nh c i w = (removeLevelL fuel c i w).bind (linkNew new nh i) := by
  unfold insertLevelL removeLevelL
  cases walk w.mem (fun e => c.lt i e.1) i fuel w.cur <;> rfl

/-- `linkNew` on address lists. -/
theorem linkNew_list {head new : Addr} {A B : List Addr} {i nh : Nat} {w : Work K V} {e : Option (K × V)}
    (hnew : shape w.mem new = some (e, nh + 1))
    (hlen : ∃ e n, shape w.mem (lastD head A) = some (e, n) ∧ i < n)
    (hn : (head :: (A ++ B)).Nodup) (hni : new ∉ head :: (A ++ B))
    (hch : Chain (lk w.mem i) head (A ++ B)) (hcur : w.cur = lastD head A) :
    ∃ m', linkNew new nh i w = some { w with mem := m' } ∧ shape m' = shape w.mem ∧
      (∀ b j, j ≠ i → getLink m' b j = getLink w.mem b j) ∧
      Chain (lk m' i) head (A ++ (if i ≤ nh then [new] else []) ++ B) := by
  unfold linkNew
  by_cases hi : i ≤ nh
  · rw [if_pos hi, if_pos hi]
    have hch2 := (chain_append.1 hch).2
    have hl : getLink w.mem w.cur i = some B.head? := by rw [hcur]; exact chain_link hch2
    obtain ⟨e, n, hs, hin⟩ := hlen
    obtain ⟨m1, h1, h2, h3⟩ := setLink_ok hs hin (some new)
    rw [← h2] at hnew
    obtain ⟨m2, g1, g2, g3⟩ := setLink_ok hnew (by omega : i < nh + 1) B.head?
    have hlm := lastD_mem head A
    have hne : lastD head A ≠ new := by
      rintro h
      rw [h] at hlm
      apply hni
      simp only [List.mem_cons, List.mem_append] at hlm ⊢
      tauto
    refine ⟨m2, by rw [hcur] at hl; simp [hl, hcur, h1, g1], by rw [g2, h2], ?_, ?_⟩
    · intro b j hj
      rw [g3, if_neg (by simp [hj]), h3, if_neg (by simp [hj])]
    · rw [List.append_assoc]
      refine chain_splice (Q := B) hn hch ?_ ⟨?_, ?_⟩
      · intro y hy hne'
        simp only [lk]
        rw [g3, if_neg, h3, if_neg (by simp [hne'])]
        rintro ⟨rfl, _⟩
        apply hni
        simp only [List.mem_cons, List.mem_append] at hy ⊢
        tauto
      · simp only [lk]
        rw [g3, if_neg (by simp [hne]), h3, if_pos ⟨rfl, rfl⟩]
      · refine chain_of_tail (Q := B) hch2 ?_ ?_
        · simp only [lk]
          rw [g3, if_pos ⟨rfl, rfl⟩]
          exact (chain_link hch2).symm
        · intro y hy
          simp only [lk]
          rw [g3, if_neg, h3, if_neg]
          · rintro ⟨rfl, _⟩
            rw [← List.cons_append, List.nodup_append] at hn
            exact hn.2.2 _ hlm _ hy rfl
          · rintro ⟨rfl, _⟩
            apply hni
            simp [hy]
  · rw [if_neg hi, if_neg hi]
    exact ⟨w.mem, rfl, rfl, fun _ _ _ => rfl, by simpa using hch⟩

/-! ### All levels -/

/-- The level lists `C` of a skip list whose nodes may have dropped out of upper levels. -/
structure Levels (S : Addr → Option (Option (K × V) × Nat)) (head : Addr) (C : Nat → List Addr) : Prop where
  hd : S head = some (none, maxHeight + 1)
  has : ∀ i ≤ maxHeight, ∀ a ∈ C i, Has S i a
  sub : ∀ i < maxHeight, (C (i + 1)).Sublist (C i)
  nodup : (head :: C 0).Nodup

theorem Levels.sub0 {S : Addr → Option (Option (K × V) × Nat)} {head : Addr} {C : Nat → List Addr}
    (h : Levels S head C) {i : Nat} (hi : i ≤ maxHeight) : (C i).Sublist (C 0) := by
  induction i with
  | zero => exact .refl _
  | succ i ih => exact (h.sub i (by omega)).trans (ih (by omega))

/-- Before level `i`: the levels above have been cut and hold `D`, the others are as they were. -/
structure MidL (S : Addr → Option (Option (K × V) × Nat)) (head : Addr) (C : Nat → List Addr)
    (N : Nat → List Addr) (c : Answers K) (len : Nat) (i : Nat) (w : Work K V) (D : Nat → List Addr)
    (A X B : List Addr) : Prop where
  shp : shape w.mem = S
  todo : ∀ j ≤ i, Chain (lk w.mem j) head (C j)
  done : ∀ j ≤ maxHeight, i < j → Chain (lk w.mem j) head (D j)
  dsub : ∀ j < maxHeight, i < j → (D (j + 1)).Sublist (D j)
  dmem : ∀ j ≤ maxHeight, i < j → ∀ a ∈ D j, a ∈ C j ∨ a ∈ N j
  cut : Cut (keyP S (c.lt 0)) (keyP S (c.eq 0)) X B
  last : i < maxHeight → D (i + 1) = A ++ N (i + 1) ++ B
  here : (A ++ (X ++ B)).Sublist (C i)
  cur : w.cur = lastD head A
  ret : w.ret = none
  len_eq : w.len = len
  le : i ≤ maxHeight

/-- At the end. -/
structure EndL (S : Addr → Option (Option (K × V) × Nat)) (head : Addr) (C : Nat → List Addr)
    (N : Nat → List Addr) (c : Answers K) (len : Nat) (w : Work K V) (D : Nat → List Addr)
    (A X B : List Addr) : Prop where
  shp : ∀ a, shape w.mem a = if a ∈ X then none else S a
  chain : ∀ j ≤ maxHeight, Chain (lk w.mem j) head (D j)
  dsub : ∀ j < maxHeight, (D (j + 1)).Sublist (D j)
  dmem : ∀ j ≤ maxHeight, ∀ a ∈ D j, a ∈ C j ∨ a ∈ N j
  cut : Cut (keyP S (c.lt 0)) (keyP S (c.eq 0)) X B
  old : C 0 = A ++ X ++ B
  new : D 0 = A ++ N 0 ++ B
  ret : w.ret = retOf S X
  len_eq : w.len + X.length = len

variable {S : Addr → Option (Option (K × V) × Nat)} {head : Addr} {C N : Nat → List Addr} {c : Answers K}
  {len fuel : Nat} {body g : Nat → Work K V → Option (Work K V)}

theorem levelL (hL : Levels S head C) (hc : c.Steady) (hlen : (C 0).length ≤ len) (hf : (C 0).length < fuel)
    (hbody : ∀ i w, body i w = (removeLevelL fuel c i w).bind (g i))
    (hg : ∀ i ≤ maxHeight, ∀ (w : Work K V) A B, (∀ a ∉ C 0, shape w.mem a = S a) →
      (head :: (A ++ B)).Nodup → (∀ a ∈ A ++ B, a ∈ C 0) →
      (∃ e n, shape w.mem (lastD head A) = some (e, n) ∧ i < n) →
      Chain (lk w.mem i) head (A ++ B) → w.cur = lastD head A →
      ∃ m', g i w = some { w with mem := m' } ∧ shape m' = shape w.mem ∧
        (∀ b j, j ≠ i → getLink m' b j = getLink w.mem b j) ∧ Chain (lk m' i) head (A ++ N i ++ B))
    {i : Nat} {w : Work K V} {D : Nat → List Addr} {A X B : List Addr} (h : MidL S head C N c len i w D A X B) :
    ∃ w' A' X' B', body i w = some w' ∧ C i = A' ++ X' ++ B' ∧
      Cut (keyP S (c.lt 0)) (keyP S (c.eq 0)) X' B' ∧ A.Sublist A' ∧ B.Sublist B' ∧
      w'.cur = lastD head A' ∧ (∀ a, shape w'.mem a = if i = 0 ∧ a ∈ X' then none else S a) ∧
      (∀ b j, b ∉ X' ∨ i ≠ 0 → j ≠ i → getLink w'.mem b j = getLink w.mem b j) ∧
      Chain (lk w'.mem i) head (A' ++ N i ++ B') ∧
      (i ≠ 0 → w'.ret = none ∧ w'.len = len) ∧
      (i = 0 → w'.len + X'.length = len ∧
        w'.ret = retOf S X') := by
  have hlt : c.lt i = c.lt 0 := funext fun k => (hc i k).1
  have heq : c.eq i = c.eq 0 := funext fun k => (hc i k).2.1
  obtain ⟨C1, W, X', B', e1, e2, hW, hcut, hA, hB⟩ := h.cut.next h.here head
  have hsub := hL.sub0 h.le
  have hl1 := hsub.length_le
  have hn : (head :: C i).Nodup := hL.nodup.sublist (hsub.cons_cons _)
  have hhd : ∃ e n, S head = some (e, n) ∧ i < n := ⟨_, _, hL.hd, Nat.lt_succ_of_le h.le⟩
  have hlen1 : (C i).length = C1.length + W.length + (X'.length + B'.length) := by rw [e1]; simp; omega
  obtain ⟨w1, h1, h2, h3, h4, h5, h6, h7⟩ := removeLevelL_ok (fuel := fuel) (c := c) (i := i) (w := w) h.shp
    (by omega) (e1 ▸ hn) (e1 ▸ hL.has i h.le) hhd (e1 ▸ h.todo i (Nat.le_refl _)) (hlt ▸ hW)
    (hlt ▸ heq ▸ hcut) (by rw [h.cur, e2]) (by rw [h.len_eq]; omega) h.ret
  have hABC : (C1 ++ W ++ B').Sublist (C i) := by
    rw [e1]; exact (List.Sublist.refl _).append (List.sublist_append_right _ _)
  have hX0 : ∀ a ∈ X', a ∈ C 0 := fun a ha => hsub.mem (by rw [e1]; simp [ha])
  have hlast : ∃ e n, shape w1.mem (lastD head (C1 ++ W)) = some (e, n) ∧ i < n := by
    have hnx : lastD head (C1 ++ W) ∉ X' := by
      intro hx
      rw [e1, ← List.cons_append, List.nodup_append] at hn
      exact hn.2.2 _ (lastD_mem head (C1 ++ W)) _ (by simp [hx]) rfl
    rw [h3, if_neg (by simp [hnx])]
    rcases List.mem_cons.1 (lastD_mem head (C1 ++ W)) with h | h'
    · rw [h]; exact hhd
    · obtain ⟨e, n, h3, h4⟩ := hL.has i h.le _ (by rw [e1]; exact List.mem_append_left _ h')
      exact ⟨_, n, h3, h4.1⟩
  obtain ⟨m', g1, g2, g3, g4⟩ := hg i h.le w1 (C1 ++ W) B'
    (fun a ha => by rw [h3, if_neg]; rintro ⟨_, hx⟩; exact ha (hX0 a hx))
    (hn.sublist (hABC.cons_cons _)) (fun a ha => hsub.mem (hABC.mem ha)) hlast h5 h2
  refine ⟨{ w1 with mem := m' }, C1 ++ W, X', B', by rw [hbody, h1]; simpa using g1, by rw [e1]; simp, hcut, hA, hB,
    h2, ?_, ?_, g4, ?_, ?_⟩
  · intro a; simp only [g2, h3]
  · intro b j hb hj; rw [g3 b j hj, h4 b j hb hj]
  · intro hi; have := h6 hi; rw [h.ret, h.len_eq] at this; exact this
  · intro hi; have := h7 hi; rw [h.len_eq] at this; exact this

theorem levelsL_ok (hL : Levels S head C) (hc : c.Steady) (hlen : (C 0).length ≤ len) (hf : (C 0).length < fuel)
    (hN : ∀ j < maxHeight, (N (j + 1)).Sublist (N j)) (hNC : ∀ a ∈ N 0, a ∉ head :: C 0)
    (hbody : ∀ i w, body i w = (removeLevelL fuel c i w).bind (g i))
    (hg : ∀ i ≤ maxHeight, ∀ (w : Work K V) A B, (∀ a ∉ C 0, shape w.mem a = S a) →
      (head :: (A ++ B)).Nodup → (∀ a ∈ A ++ B, a ∈ C 0) →
      (∃ e n, shape w.mem (lastD head A) = some (e, n) ∧ i < n) →
      Chain (lk w.mem i) head (A ++ B) → w.cur = lastD head A →
      ∃ m', g i w = some { w with mem := m' } ∧ shape m' = shape w.mem ∧
        (∀ b j, j ≠ i → getLink m' b j = getLink w.mem b j) ∧ Chain (lk m' i) head (A ++ N i ++ B))
    {w : Work K V} (hS : shape w.mem = S) (hch : ∀ j ≤ maxHeight, Chain (lk w.mem j) head (C j))
    (hcur : w.cur = head) (hret : w.ret = none) (hl : w.len = len) :
    ∃ w' D A X B, downFrom body maxHeight w = some w' ∧ EndL S head C N c len w' D A X B := by
  have key := downFrom_ind (body := body) (fun i w => ∃ D A X B, MidL S head C N c len i w D A X B)
    (fun w => ∃ D A X B, EndL S head C N c len w D A X B) ?_ ?_ maxHeight w ?_
  · obtain ⟨w', h1, D, A, X, B, h2⟩ := key
    exact ⟨w', D, A, X, B, h1, h2⟩
  · rintro i w ⟨D, A, X, B, h⟩
    obtain ⟨w', A', X', B', h1, h2, h3, h4, h5, h6, h7, h8, h9, h10, _⟩ := levelL hL hc hlen hf hbody hg h
    have hile := h.le
    let D' : Nat → List Addr := fun j => if j = i + 1 then A' ++ N (i + 1) ++ B' else D j
    have hD1 : D' (i + 1) = A' ++ N (i + 1) ++ B' := if_pos rfl
    have hD2 : ∀ j, j ≠ i + 1 → D' j = D j := fun j hj => if_neg hj
    refine ⟨w', h1, D', A', X', B', ⟨?_, ?_, ?_, ?_, ?_, h3, fun _ => hD1, ?_, h6, (h10 (by omega)).1,
      (h10 (by omega)).2, by omega⟩⟩
    · funext a; simp [h7]
    · intro j hj
      refine chain_frame (h.todo j (by omega)) fun y _ => ?_
      exact h8 y j (.inr (by omega)) (by omega)
    · intro j hj hij
      by_cases hji : j = i + 1
      · subst hji; rw [hD1]; exact h9
      · rw [hD2 j hji]
        refine chain_frame (h.done j hj (by omega)) fun y _ => ?_
        exact h8 y j (.inr (by omega)) hji
    · intro j hj hij
      by_cases hji : j = i + 1
      · subst hji
        rw [hD1, hD2 _ (by omega), h.last hj]
        exact (h4.append (hN _ hj)).append h5
      · rw [hD2 _ hji, hD2 _ (by omega)]
        exact h.dsub j hj (by omega)
    · intro j hj hij a ha
      by_cases hji : j = i + 1
      · subst hji
        rw [hD1] at ha
        rw [h2]
        simp only [List.mem_append] at ha ⊢
        tauto
      · rw [hD2 _ hji] at ha
        exact h.dmem j hj (by omega) a ha
    · rw [← List.append_assoc, ← h2]; exact hL.sub i (by omega)
  · rintro w ⟨D, A, X, B, h⟩
    obtain ⟨w', A', X', B', h1, h2, h3, h4, h5, h6, h7, h8, h9, _, h10⟩ := levelL hL hc hlen hf hbody hg h
    let D' : Nat → List Addr := fun j => if j = 0 then A' ++ N 0 ++ B' else D j
    have hD1 : D' 0 = A' ++ N 0 ++ B' := if_pos rfl
    have hD2 : ∀ j, j ≠ 0 → D' j = D j := fun j hj => if_neg hj
    have hds : ∀ j < maxHeight, (D' (j + 1)).Sublist (D' j) := by
      intro j hj
      by_cases hji : j = 0
      · subst hji
        rw [hD1, hD2 _ (by omega), h.last hj]
        exact (h4.append (hN _ hj)).append h5
      · rw [hD2 _ hji, hD2 _ (by omega)]
        exact h.dsub j hj (by omega)
    have hds0 : ∀ j ≤ maxHeight, (D' j).Sublist (D' 0) := by
      intro j hj
      induction j with
      | zero => exact .refl _
      | succ j ih => exact (hds j (by omega)).trans (ih (by omega))
    have hnX : ∀ a ∈ head :: D' 0, a ∉ X' := by
      intro a ha hx
      have hn := hL.nodup
      rw [h2] at hn
      have hp : (head :: (A' ++ X' ++ B')).Perm (X' ++ (head :: (A' ++ B'))) := by
        rw [List.append_assoc, ← List.cons_append, ← List.cons_append]
        exact List.perm_append_comm_assoc _ _ _
      rw [hp.nodup_iff, List.nodup_append] at hn
      rw [hD1] at ha
      by_cases hN' : a ∈ N 0
      · apply hNC a hN'
        rw [h2]; simp [hx]
      · refine hn.2.2 a hx a ?_ rfl
        simp only [List.mem_cons, List.mem_append] at ha ⊢
        tauto
    refine ⟨w', h1, D', A', X', B', ⟨?_, ?_, hds, ?_, h3, h2, hD1, (h10 rfl).2, (h10 rfl).1⟩⟩
    · intro a; simp [h7]
    · intro j hj
      by_cases hji : j = 0
      · subst hji; rw [hD1]; exact h9
      · have := hds0 j hj
        rw [hD2 j hji] at this ⊢
        refine chain_frame (h.done j hj (by omega)) fun y hy => ?_
        exact h8 y j (.inl (hnX y ((this.cons_cons _).mem hy))) hji
    · intro j hj a ha
      by_cases hji : j = 0
      · subst hji
        rw [hD1] at ha
        rw [h2]
        simp only [List.mem_append] at ha ⊢
        tauto
      · rw [hD2 _ hji] at ha
        exact h.dmem j hj (by omega) a ha
  · refine ⟨fun _ => [], [], [], [], ⟨hS, hch, ?_, ?_, ?_, .nil _ _, ?_, by simp, hcur, hret, hl, Nat.le_refl _⟩⟩ <;> intros <;> omega

end Verif.Skip.Map
