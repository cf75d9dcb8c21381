/- The set operations of a skip map with any answers: the loop against `MergeOp.run` (C78). -/
import Verif.Skip.MapSetOps
import Verif.Skip.MapAlgebra
import Verif.Skip.MapProps
import Verif.Skip.MapLawlessProps

namespace Verif.Skip.Map

open Verif.Spec Verif.SL

variable {K V : Type}

/-- A map with the nodes `T` on the bottom level; nothing is said about the order of the keys or the upper levels. -/
structure Laid (s : SkipMap K V) (T : List (Tower (K × V))) : Prop where
  hd : Skip.shape s.mem s.head = some (none, maxHeight + 1)
  tow : ∀ t ∈ T, Skip.shape s.mem t.addr = some (some t.e, t.h)
  pos : ∀ t ∈ T, 0 < t.h ∧ t.h ≤ maxHeight + 1
  nodup : (s.head :: T.map (·.addr)).Nodup
  only : ∀ a, a ≠ s.head → a ∉ T.map (·.addr) → Skip.shape s.mem a = none
  chain : Chain (lk s.mem 0) s.head (addrs T)
  len : s.len = T.length
  bump : ∀ a, s.bump ≤ a → s.mem a = none

theorem towers_of {m : MHeap K V} (A : List Addr) (l : List (K × V)) (he : A.map (entryAt m) = l.map some)
    (hh : ∀ a ∈ A, Has (Skip.shape m) 0 a) :
    ∃ T : List (Tower (K × V)), addrs T = A ∧ T.map (·.e) = l ∧
      ∀ t ∈ T, Skip.shape m t.addr = some (some t.e, t.h) ∧ 0 < t.h ∧ t.h ≤ maxHeight + 1 := by
  induction A generalizing l with
  | nil =>
    cases l with
    | nil => exact ⟨[], rfl, rfl, by simp⟩
    | cons e l => simp at he
  | cons a A ih =>
    cases l with
    | nil => simp at he
    | cons e l =>
      simp only [List.map_cons, List.cons.injEq] at he
      obtain ⟨T, h1, h2, h3⟩ := ih l he.2 fun b hb => hh b (by simp [hb])
      obtain ⟨e', n, h4, h5⟩ := hh a (by simp)
      have := entryAt_of_shape h4
      rw [he.1, Option.some.injEq] at this
      subst this
      refine ⟨⟨a, e, n⟩ :: T, by simp [h1], by simp [h2], ?_⟩
      intro t ht
      rcases List.mem_cons.1 ht with rfl | ht
      · exact ⟨h4, h5⟩
      · exact h3 t ht

theorem WGood.laid {s : SkipMap K V} {C : Nat → List Addr} {l : List (K × V)} (h : WGood s C l) :
    ∃ T, Laid s T ∧ T.map (·.e) = l := by
  obtain ⟨T, h1, h2, h3⟩ := towers_of (C 0) l h.ents (h.lev.has 0 (Nat.zero_le _))
  have h1' : T.map (·.addr) = C 0 := h1
  refine ⟨T, ⟨h.lev.hd, fun t ht => (h3 t ht).1, fun t ht => (h3 t ht).2, ?_, ?_, ?_, ?_, h.bump⟩, h2⟩
  · rw [h1']; exact h.lev.nodup
  · rw [h1']; exact h.only
  · rw [h1]; exact h.chain 0 (Nat.zero_le _)
  · rw [h.len_eq, ← h1]; simp

theorem mergeInit_ok (off : Nat) {l r : SkipMap K V} {L R : List (Tower (K × V))} (hl : Laid l L) (hr : Laid r R)
    (hd : Disjoint l r) :
    ∃ s head, MInv s head l.head r.head [] L R [] ∧ l.head ≠ r.head ∧ (∀ a, head ≤ a → l.mem a = none ∧ r.mem a = none) ∧
      mergeInit l r off = some (s, head) := by
  obtain ⟨head, hhead⟩ : ∃ h, h = Nat.max l.bump r.bump + off := ⟨_, rfl⟩
  obtain ⟨m0, hm0⟩ : ∃ m : MHeap K V, m = Heap.put (fun a => (l.mem a).or (r.mem a)) head headNode := ⟨_, rfl⟩
  have hL : ∀ a, l.mem a ≠ none → a ≠ head ∧ m0 a = l.mem a := by
    intro a ha
    have : a ≠ head := by
      rintro rfl
      exact ha (hl.bump _ (by rw [hhead]; exact Nat.le_trans (Nat.le_max_left _ _) (Nat.le_add_right _ _)))
    refine ⟨this, ?_⟩
    rw [hm0]
    simp only [Heap.put, if_neg this]
    cases h : l.mem a with
    | none => exact absurd h ha
    | some n => rfl
  have hR : ∀ a, r.mem a ≠ none → a ≠ head ∧ m0 a = r.mem a := by
    intro a ha
    have : a ≠ head := by
      rintro rfl
      exact ha (hr.bump _ (by rw [hhead]; exact Nat.le_trans (Nat.le_max_right _ _) (Nat.le_add_right _ _)))
    refine ⟨this, ?_⟩
    rw [hm0]
    simp only [Heap.put, if_neg this]
    rcases hd a with h | h
    · rw [h]; rfl
    · exact absurd h ha
  have nn : ∀ {m : MHeap K V} {a p}, Skip.shape m a = some p → m a ≠ none := by
    intro m a p h hc; simp [Skip.shape, hc] at h
  have sL : ∀ {a p}, Skip.shape l.mem a = some p → a ≠ head ∧ Skip.shape m0 a = some p ∧
      ∀ j, getLink m0 a j = getLink l.mem a j := by
    intro a p h
    obtain ⟨h1, h2⟩ := hL a (nn h)
    exact ⟨h1, by rw [← h]; simp only [Skip.shape, h2], fun j => by simp only [getLink, h2]⟩
  have sR : ∀ {a p}, Skip.shape r.mem a = some p → a ≠ head ∧ Skip.shape m0 a = some p ∧
      ∀ j, getLink m0 a j = getLink r.mem a j := by
    intro a p h
    obtain ⟨h1, h2⟩ := hR a (nn h)
    exact ⟨h1, by rw [← h]; simp only [Skip.shape, h2], fun j => by simp only [getLink, h2]⟩
  have dLR : ∀ {a b p q}, Skip.shape l.mem a = some p → Skip.shape r.mem b = some q → a ≠ b := by
    rintro a b p q h1 h2 rfl
    rcases hd a with h | h
    · exact nn h1 h
    · exact nn h2 h
  have hlh := sL hl.hd
  have hrh := sR hr.hd
  have hlrh : l.head ≠ r.head := dLR hl.hd hr.hd
  have cL := hl.chain
  have cR := hr.chain
  obtain ⟨m1, a1, a2, a3⟩ := zeroLinks_ok hlh.2.1 none
  obtain ⟨m2, b1, b2, b3⟩ := zeroLinks_ok (m := m1) (by rw [a2]; exact hrh.2.1) none
  have hlf : getLink m0 l.head 0 = some (addrs L).head? := by rw [hlh.2.2]; exact chain_link cL
  have hrf : getLink m0 r.head 0 = some (addrs R).head? := by rw [hrh.2.2]; exact chain_link cR
  have hsh2 : Skip.shape m2 = Skip.shape m0 := by rw [b2, a2]
  have hfar : ∀ a, a ≠ l.head → a ≠ r.head → ∀ j, getLink m2 a j = getLink m0 a j := by
    intro a h1 h2 j; rw [b3, if_neg h2, a3, if_neg h1]
  have hnl : ∀ t ∈ L, t.addr ≠ l.head ∧ t.addr ≠ r.head := fun t ht =>
    ⟨by rintro h; exact (List.nodup_cons.1 hl.nodup).1 (h ▸ List.mem_map.2 ⟨t, ht, rfl⟩),
      dLR (hl.tow t ht) hr.hd⟩
  have hnr : ∀ t ∈ R, t.addr ≠ l.head ∧ t.addr ≠ r.head := fun t ht =>
    ⟨(dLR hl.hd (hr.tow t ht)).symm,
      by rintro h; exact (List.nodup_cons.1 hr.nodup).1 (h ▸ List.mem_map.2 ⟨t, ht, rfl⟩)⟩
  have hheadsh : Skip.shape m0 head = some (none, maxHeight + 1) := by
    rw [hm0]; simp [Skip.shape, Heap.put, headNode]
  have hinv : MInv ⟨m2, (addrs L).head?, (addrs R).head?, List.replicate (maxHeight + 1) head, 0⟩
      head l.head r.head [] L R [] := by
    refine ⟨?_, ?_, ?_, ?_, ?_, ?_, ⟨by simp, ?_⟩, ⟨rfl, ?_⟩, ⟨rfl, ?_⟩, rfl⟩
    · intro a ha
      simp only [hsh2]
      simp only [List.mem_cons, List.not_mem_nil, or_false] at ha
      rcases ha with rfl | rfl | rfl
      · exact hheadsh
      · exact hlh.2.1
      · exact hrh.2.1
    · intro t ht
      simp only [hsh2]
      simp only [List.nil_append, List.append_nil, List.mem_append] at ht
      rcases ht with ht | ht
      · exact (sL (hl.tow t ht)).2.1
      · exact (sR (hr.tow t ht)).2.1
    · intro t ht
      simp only [List.nil_append, List.append_nil, List.mem_append] at ht
      rcases ht with ht | ht
      · exact hl.pos t ht
      · exact hr.pos t ht
    · intro a h1 h2
      simp only [hsh2]
      simp only [List.mem_cons, List.not_mem_nil, or_false, not_or] at h1
      simp only [List.nil_append, List.append_nil, List.map_append, List.mem_append, not_or] at h2
      have e1 := hl.only a h1.2.1 h2.1
      have e2 := hr.only a h1.2.2 h2.2
      simp only [Skip.shape, Option.map_eq_none_iff] at e1 e2 ⊢
      rw [hm0]
      simp [Heap.put, h1.1, e1, e2]
    · have e1 := hl.nodup
      have e2 := hr.nodup
      simp only [List.nil_append, List.append_nil, List.map_append, List.cons_append]
      refine List.nodup_cons.2 ⟨?_, ?_⟩
      · intro hc
        simp only [List.mem_cons, List.mem_append, List.mem_map] at hc
        rcases hc with h | h | ⟨t, ht, h⟩ | ⟨t, ht, h⟩
        · exact hlh.1 h.symm
        · exact hrh.1 h.symm
        · exact (sL (hl.tow t ht)).1 h
        · exact (sR (hr.tow t ht)).1 h
      · have p : (l.head :: r.head :: (L.map (·.addr) ++ R.map (·.addr))).Perm
            ((l.head :: L.map (·.addr)) ++ (r.head :: R.map (·.addr))) := by
          rw [List.cons_append]
          exact (List.perm_middle.symm).cons _
        rw [p.nodup_iff, List.nodup_append]
        refine ⟨e1, e2, ?_⟩
        have hl' : ∀ x ∈ l.head :: L.map (·.addr), ∃ p, Skip.shape l.mem x = some p := by
          intro x hx
          rcases List.mem_cons.1 hx with rfl | hx
          · exact ⟨_, hl.hd⟩
          · obtain ⟨t, ht, rfl⟩ := List.mem_map.1 hx; exact ⟨_, hl.tow t ht⟩
        have hr' : ∀ x ∈ r.head :: R.map (·.addr), ∃ p, Skip.shape r.mem x = some p := by
          intro x hx
          rcases List.mem_cons.1 hx with rfl | hx
          · exact ⟨_, hr.hd⟩
          · obtain ⟨t, ht, rfl⟩ := List.mem_map.1 hx; exact ⟨_, hr.tow t ht⟩
        intro x hx y hy
        obtain ⟨p1, h1⟩ := hl' x hx
        obtain ⟨p2, h2⟩ := hr' y hy
        exact dLR h1 h2
    · intro i hi
      show getLink m2 head i = some none
      rw [hfar head hlh.1.symm hrh.1.symm]
      rw [hm0]
      simp [getLink, Heap.put, headNode, Nat.lt_succ_of_le hi]
    · intro i hi
      simp [Nat.lt_succ_of_le hi]
    · intro a Q hP
      have ha : a ∈ addrs L := by obtain ⟨P, hP⟩ := hP; rw [hP]; simp
      obtain ⟨t, ht, rfl⟩ := List.mem_map.1 ha
      rw [hfar _ (hnl t ht).1 (hnl t ht).2, (sL (hl.tow t ht)).2.2]
      exact chain_next (lk := lk l.mem 0) cL _ _ hP
    · intro a Q hP
      have ha : a ∈ addrs R := by obtain ⟨P, hP⟩ := hP; rw [hP]; simp
      obtain ⟨t, ht, rfl⟩ := List.mem_map.1 ha
      rw [hfar _ (hnr t ht).1 (hnr t ht).2, (sR (hr.tow t ht)).2.2]
      exact chain_next (lk := lk r.mem 0) cR _ _ hP
  have hmw : mergeInit l r off = some (⟨m2, (addrs L).head?, (addrs R).head?, List.replicate (maxHeight + 1) head, 0⟩, head) := by
    unfold mergeInit
    simp only [← hhead, ← hm0, hlf, hrf, Option.bind_eq_bind, Option.bind_some, a1, b1]
    rfl
  exact ⟨_, head, hinv, hlrh, fun a ha =>
    ⟨hl.bump a (Nat.le_trans (by rw [hhead]; exact Nat.le_trans (Nat.le_max_left _ _) (Nat.le_add_right _ _)) ha),
      hr.bump a (Nat.le_trans (by rw [hhead]; exact Nat.le_trans (Nat.le_max_right _ _) (Nat.le_add_right _ _)) ha)⟩, hmw⟩


/-! ### The loop -/

section
variable {s : Merge K V} {head lh rh : Addr} {O L R X : List (Tower (K × V))} {t : Tower (K × V)}

theorem dropNode_ok (h : MInv s head lh rh O L R (t :: X)) :
    ∃ s', dropNode s t.addr = some (s', t.e) ∧ MInv s' head lh rh O L R X := by
  obtain ⟨s', h1, h2, _⟩ := free_hand h
  refine ⟨s', ?_, h2⟩
  unfold freeNode at h1
  obtain ⟨m, h3, h4⟩ := Option.map_eq_some_iff.1 h1
  simp [dropNode, entryAt_of_shape (h.tow t (by simp)), h3, h4]

theorem keepL_ok (h : MInv s head lh rh O (t :: L) R []) :
    ∃ s', (keepL s).bind finish = some (s', []) ∧ MInv s' head lh rh (O ++ [t]) L R [] := by
  obtain ⟨s1, h1, h2, _⟩ := popL_ok h
  obtain ⟨s2, h3, h4, _⟩ := append_ok h2
  exact ⟨s2, by simp [keepL, h1, finish, h3], h4⟩

theorem keepR_ok (h : MInv s head lh rh O L (t :: R) []) :
    ∃ s', (keepR s).bind finish = some (s', []) ∧ MInv s' head lh rh (O ++ [t]) L R [] := by
  obtain ⟨s1, h1, h2, _⟩ := popR_ok h
  obtain ⟨s2, h3, h4, _⟩ := append_ok h2
  exact ⟨s2, by simp [keepR, h1, finish, h3], h4⟩

theorem loseR_ok (h : MInv s head lh rh O L (t :: R) []) :
    ∃ s', (loseR s).bind finish = some (s', [t.e]) ∧ MInv s' head lh rh O L R [] := by
  obtain ⟨s1, h1, h2, _⟩ := popR_ok h
  obtain ⟨s2, h3, h4⟩ := dropNode_ok h2
  exact ⟨s2, by simp [loseR, h1, finish, h3], h4⟩

theorem loseBoth_ok {u : Tower (K × V)} (h : MInv s head lh rh O (t :: L) (u :: R) []) :
    ∃ s', (loseBoth s).bind finish = some (s', [t.e, u.e]) ∧ MInv s' head lh rh O L R [] := by
  obtain ⟨s1, h1, h2, _⟩ := popL_ok h
  obtain ⟨s2, h3, h4, _⟩ := popR_ok h2
  obtain ⟨s3, h5, h6⟩ := dropNode_ok h4.swap
  obtain ⟨s4, h7, h8⟩ := dropNode_ok h6
  exact ⟨s4, by simp [loseBoth, h1, h3, h5, h7, finish], h8⟩

end

/-- The result of the loop is as the outcome says. -/
def SimTo (head lh rh : Addr) (B : Tower (K × V) → Prop) (O : List (Tower (K × V))) (log : List (K × V)) :
    Outcome (K × V) → Option (Merge K V × List (K × V) × Bool) → Prop
  | .returned out d, x => ∃ s Z, x = some (s, log ++ d, false) ∧ Z.map (·.e) = out ∧ (∀ t ∈ Z, B t) ∧
      MInv s head lh rh (O ++ Z) [] [] []
  | .stopped out d l r, x => ∃ s Z L R, x = some (s, log ++ d, true) ∧ Z.map (·.e) = out ∧ L.map (·.e) = l ∧
      R.map (·.e) = r ∧ L ≠ [] ∧ R ≠ [] ∧ MInv s head lh rh (O ++ Z) L R []
  | .crashed, x => x = none

section
variable {head lh rh : Addr} {B : Tower (K × V) → Prop} {O : List (Tower (K × V))} {log d : List (K × V)}
  {o : Outcome (K × V)} {x : Option (Merge K V × List (K × V) × Bool)} {t : Tower (K × V)}

theorem SimTo.keep (h : SimTo head lh rh B (O ++ [t]) log o x) (hB : B t) :
    SimTo head lh rh B O log (o.after [t.e] []) x := by
  cases o with
  | returned out d =>
    obtain ⟨s, Z, h1, h2, h3, h4⟩ := h
    exact ⟨s, t :: Z, by simpa using h1, by simp [h2], by simpa using ⟨hB, h3⟩, by simpa using h4⟩
  | stopped out d l r =>
    obtain ⟨s, Z, L, R, h1, h2, h3, h4, h5, h6, h7⟩ := h
    exact ⟨s, t :: Z, L, R, by simpa using h1, by simp [h2], h3, h4, h5, h6, by simpa using h7⟩
  | crashed => exact h

theorem SimTo.lose (h : SimTo head lh rh B O (log ++ d) o x) : SimTo head lh rh B O log (o.after [] d) x := by
  cases o with
  | returned out d =>
    obtain ⟨s, Z, h1, h2, h3, h4⟩ := h
    exact ⟨s, Z, by simpa using h1, h2, h3, h4⟩
  | stopped out d l r =>
    obtain ⟨s, Z, L, R, h1, h2, h3, h4, h5, h6, h7⟩ := h
    exact ⟨s, Z, L, R, by simpa using h1, h2, h3, h4, h5, h6, h7⟩
  | crashed => exact h

end

theorem loopA_none (op : MergeOp) (f : Nat) (ans : List Ordering) (s : Merge K V) (log : List (K × V))
    (h1 : s.left = none) (h2 : s.right = none) : loopA op f ans s log = some (s, log, false) := by
  rw [loopA.eq_def]; simp only [h1, h2]

theorem loopA_right (op : MergeOp) (f : Nat) (ans : List Ordering) (s : Merge K V) (log : List (K × V)) {b : Addr}
    (h1 : s.left = none) (h2 : s.right = some b) : loopA op (f + 1) ans s log =
      ((onlyRight op s).bind finish).bind fun (s, d) => loopA op f ans s (log ++ d) := by
  rw [loopA.eq_def]; simp only [h1, h2]

theorem loopA_left (op : MergeOp) (f : Nat) (ans : List Ordering) (s : Merge K V) (log : List (K × V)) {a : Addr}
    (h1 : s.left = some a) (h2 : s.right = none) : loopA op (f + 1) ans s log =
      ((onlyLeft op s).bind finish).bind fun (s, d) => loopA op f ans s (log ++ d) := by
  rw [loopA.eq_def]; simp only [h1, h2]

theorem loopA_panic (op : MergeOp) (f : Nat) (s : Merge K V) (log : List (K × V)) {a b : Addr} {e e' : K × V}
    (h1 : s.left = some a) (h2 : s.right = some b) (h3 : entryAt s.mem a = some e) (h4 : entryAt s.mem b = some e') :
    loopA op f [] s log = some (s, log, true) := by
  rw [loopA.eq_def]; simp only [h1, h2, h3, h4]

theorem loopA_both (op : MergeOp) (f : Nat) (o : Ordering) (ans : List Ordering) (s : Merge K V) (log : List (K × V))
    {a b : Addr} {e e' : K × V}
    (h1 : s.left = some a) (h2 : s.right = some b) (h3 : entryAt s.mem a = some e) (h4 : entryAt s.mem b = some e') :
    loopA op (f + 1) (o :: ans) s log =
      ((onAnswer op o s).bind finish).bind fun (s, d) => loopA op f ans s (log ++ d) := by
  rw [loopA.eq_def]; simp only [h1, h2, h3, h4]

theorem loopA_ok (op : MergeOp) {head lh rh : Addr} {B : Tower (K × V) → Prop} (f : Nat) (ans : List Ordering) {s : Merge K V}
    {O L R : List (Tower (K × V))} (log : List (K × V)) (h : MInv s head lh rh O L R []) (hf : L.length + R.length ≤ f)
    (hL : ∀ t ∈ L, B t) (hR : ∀ t ∈ R, B t) :
    SimTo head lh rh B O log (op.run ans (L.map (·.e)) (R.map (·.e))) (loopA op f ans s log) := by
  induction f generalizing ans s O L R log with
  | zero =>
    obtain rfl : L = [] := List.eq_nil_of_length_eq_zero (by omega)
    obtain rfl : R = [] := List.eq_nil_of_length_eq_zero (by omega)
    rw [loopA_none op _ ans s log h.left.1 h.right.1]
    have : op.run ans ([] : List (K × V)) [] = .returned [] [] := by
      cases op with
      | union => simp [MergeOp.run]
      | difference sym => cases sym <;> simp [MergeOp.run]
    rw [List.map_nil, this]
    exact ⟨s, [], by simp, rfl, by simp, by simpa using h⟩
  | succ f ih =>
    have hl := h.left.1
    have hr := h.right.1
    cases L with
    | nil =>
      cases R with
      | nil =>
        rw [loopA_none op _ ans s log h.left.1 h.right.1]
        have : op.run ans ([] : List (K × V)) [] = .returned [] [] := by
          cases op with
          | union => simp [MergeOp.run]
          | difference sym => cases sym <;> simp [MergeOp.run]
        rw [List.map_nil, this]
        exact ⟨s, [], by simp, rfl, by simp, by simpa using h⟩
      | cons b R =>
        rw [loopA_right op f ans s log hl hr]
        have hf' : ([] : List (Tower (K × V))).length + R.length ≤ f := by simp at hf ⊢; omega
        have hB := hR b (by simp)
        have hR' : ∀ t ∈ R, B t := fun t ht => hR t (by simp [ht])
        have keep : SimTo head lh rh B O log ((op.run ans [] (R.map (·.e))).after [b.e] [])
            (((keepR s).bind finish).bind fun (s, d) => loopA op f ans s (log ++ d)) := by
          obtain ⟨s', h1, h2⟩ := keepR_ok h
          rw [h1]
          have := SimTo.keep (ih ans (log ++ []) h2 hf' hL hR') hB
          simp only [Option.bind_some, List.append_nil] at this ⊢
          exact this
        have lose : SimTo head lh rh B O log ((op.run ans [] (R.map (·.e))).after [] [b.e])
            (((loseR s).bind finish).bind fun (s, d) => loopA op f ans s (log ++ d)) := by
          obtain ⟨s', h1, h2⟩ := loseR_ok h
          rw [h1]
          exact SimTo.lose (ih ans (log ++ [b.e]) h2 hf' hL hR')
        cases op with
        | union => simpa [MergeOp.run, Outcome.after, onlyRight] using keep
        | difference sym =>
          cases sym
          · simpa [MergeOp.run, Outcome.after, onlyRight] using lose
          · simpa [MergeOp.run, Outcome.after, onlyRight] using keep
    | cons a L =>
      cases R with
      | nil =>
        rw [loopA_left op f ans s log hl hr]
        have hf' : L.length + ([] : List (Tower (K × V))).length ≤ f := by simp at hf ⊢; omega
        cases op with
        | union =>
          obtain ⟨s', h1, h2⟩ := keepL_ok h
          have := SimTo.keep (ih ans (log ++ []) h2 hf' (fun t ht => hL t (by simp [ht])) hR) (hL a (by simp))
          have e : MergeOp.union.run ans ((a :: L).map (·.e)) (([] : List (Tower (K × V))).map (·.e)) =
              (MergeOp.union.run ans (L.map (·.e)) (([] : List (Tower (K × V))).map (·.e))).after [a.e] [] := by
            cases L <;> simp [MergeOp.run, Outcome.after]
          rw [e]
          simp only [onlyLeft, h1]
          simp only [Option.bind_some, List.append_nil] at this ⊢
          exact this
        | difference sym =>
          have e : (MergeOp.difference sym).run ans ((a :: L).map (·.e)) (([] : List (Tower (K × V))).map (·.e)) = .crashed := by
            simp [MergeOp.run]
          rw [e]
          have hr' : s.right = none := hr
          show _ = none
          simp [onlyLeft, keepR, popR, hr']
      | cons b R =>
        have ha := entryAt_of_shape (h.tow a (by simp))
        have hb := entryAt_of_shape (h.tow b (by simp))
        cases ans with
        | nil =>
          rw [loopA_panic op _ s log hl hr ha hb]
          have e : op.run [] ((a :: L).map (·.e)) ((b :: R).map (·.e)) =
              .stopped [] [] ((a :: L).map (·.e)) ((b :: R).map (·.e)) := by simp [MergeOp.run]
          rw [e]
          exact ⟨s, [], a :: L, b :: R, by simp, rfl, rfl, rfl, by simp, by simp, by simpa using h⟩
        | cons o ans =>
          rw [loopA_both op f o ans s log hl hr ha hb]
          have hLa := hL a (by simp)
          have hRb := hR b (by simp)
          have hL' : ∀ t ∈ L, B t := fun t ht => hL t (by simp [ht])
          have hR' : ∀ t ∈ R, B t := fun t ht => hR t (by simp [ht])
          have kL : SimTo head lh rh B O log ((op.run ans (L.map (·.e)) ((b :: R).map (·.e))).after [a.e] [])
              (((keepL s).bind finish).bind fun (s, d) => loopA op f ans s (log ++ d)) := by
            obtain ⟨s', h1, h2⟩ := keepL_ok h
            rw [h1]
            have := SimTo.keep (ih ans (log ++ []) h2 (by simp at hf ⊢; omega) hL' hR) hLa
            simp only [Option.bind_some, List.append_nil] at this ⊢
            exact this
          have kR : SimTo head lh rh B O log ((op.run ans ((a :: L).map (·.e)) (R.map (·.e))).after [b.e] [])
              (((keepR s).bind finish).bind fun (s, d) => loopA op f ans s (log ++ d)) := by
            obtain ⟨s', h1, h2⟩ := keepR_ok h
            rw [h1]
            have := SimTo.keep (ih ans (log ++ []) h2 (by simp at hf ⊢; omega) hL hR') hRb
            simp only [Option.bind_some, List.append_nil] at this ⊢
            exact this
          have lR : SimTo head lh rh B O log ((op.run ans ((a :: L).map (·.e)) (R.map (·.e))).after [] [b.e])
              (((loseR s).bind finish).bind fun (s, d) => loopA op f ans s (log ++ d)) := by
            obtain ⟨s', h1, h2⟩ := loseR_ok h
            rw [h1]
            exact SimTo.lose (ih ans (log ++ [b.e]) h2 (by simp at hf ⊢; omega) hL hR')
          have lB : SimTo head lh rh B O log ((op.run ans (L.map (·.e)) (R.map (·.e))).after [] [a.e, b.e])
              (((loseBoth s).bind finish).bind fun (s, d) => loopA op f ans s (log ++ d)) := by
            obtain ⟨s', h1, h2⟩ := loseBoth_ok h
            rw [h1]
            exact SimTo.lose (ih ans (log ++ [a.e, b.e]) h2 (by simp at hf ⊢; omega) hL' hR')
          cases o with
          | lt => cases op <;> exact kL
          | eq =>
            cases op with
            | union => exact lR
            | difference sym => exact lB
          | gt =>
            cases op with
            | union => exact kR
            | difference sym => cases sym; exacts [lR, kR]

/-! ### Unwinding -/

theorem dropAt_ok {m : MHeap K V} {steps : Nat} {a : Addr} {T : List (Tower (K × V))} (hs : T.length ≤ steps)
    (ha : (m a).isSome) (hl : getLink m a 0 = some (addrs T).head?) (hr : Run m (addrs T))
    (ht : ∀ t ∈ T, Skip.shape m t.addr = some (some t.e, t.h)) (hn : (a :: addrs T).Nodup) :
    ∃ m', dropAt steps m (some a) = some (m', T.map (·.e)) ∧ ∀ b, m' b = if b ∈ a :: addrs T then none else m b := by
  obtain ⟨hn1, hn2⟩ := List.nodup_cons.1 hn
  obtain ⟨n, hna⟩ := Option.isSome_iff_exists.1 ha
  have hfree : m.free a = some fun b => if b = a then none else m b := by simp [Heap.free, hna]
  have hne : ∀ t ∈ T, t.addr ≠ a := fun t h e => hn1 (e ▸ List.mem_map.2 ⟨t, h, rfl⟩)
  have hlk : Linked (id : Option Addr → Option Addr) (fun b => if b = a then none else m b) (addrs T).head?
      (T.map fun t => (t.addr, t.e)) := by
    refine linked_of_chain (fun t h => ⟨t.h, ?_⟩) fun b Q hP => ?_
    · simpa [Skip.shape, hne t h] using ht t h
    · have hb : b ∈ addrs T := by obtain ⟨P, hP⟩ := hP; simp only [addrs]; rw [hP]; simp
      have : b ≠ a := by rintro rfl; exact hn1 hb
      simpa [getLink, this] using hr b Q hP
  have e1 : (T.map fun t => (t.addr, t.e)).map (·.1) = addrs T := by simp [Function.comp_def]
  have e2 : (T.map fun t => (t.addr, t.e)).map (·.2) = T.map (·.e) := by simp [Function.comp_def]
  obtain ⟨m', h1, h2, _, h4, _⟩ := freeAllD_ok (boom := fun _ => false) steps [] (by simpa using hs)
    (by rw [e1]; exact hn2) hlk
  rw [e2, startedOf_all (by simp)] at h1
  rw [e1, e2] at h4
  rw [e1] at h2
  refine ⟨m', ?_, fun b => ?_⟩
  · simp only [dropAt, dropD, hl, hfree, id_eq, h1, List.nil_append]
  · by_cases hb : b ∈ addrs T
    · rw [if_pos (List.mem_cons_of_mem _ hb)]; exact h4 (by simp) b hb
    · rw [h2 b hb]
      simp only [List.mem_cons, hb, or_false]

theorem unwind_ok {s : Merge K V} {head lh rh : Addr} {O L R : List (Tower (K × V))} {a b : Tower (K × V)} {steps : Nat}
    (h : MInv s head lh rh O (a :: L) (b :: R) []) (hO : O.length ≤ steps) (hL : L.length ≤ steps) (hR : R.length ≤ steps) :
    ∃ m, unwind steps head s = some (m, O.map (·.e) ++ R.map (·.e) ++ L.map (·.e)) ∧
      ∀ x, m x ≠ none ↔ x = lh ∨ x = rh := by
  have nn : ∀ {m : MHeap K V} {a p}, Skip.shape m a = some p → (m a).isSome := by
    intro m a p h
    obtain ⟨_, h, _⟩ := shape_eq h
    simp [h]
  have hnd := h.nodup
  simp only [List.append_nil, List.map_append, List.map_cons, List.cons_append, List.nil_append,
    List.append_assoc] at hnd
  have hc := h.chain 0 (Nat.zero_le _)
  rw [lv_zero fun t ht => (h.pos t (by simp [ht])).1] at hc
  have hl0 : getLink s.mem a.addr 0 = some (addrs L).head? := h.left.2 a.addr (addrs L) ⟨[], rfl⟩
  have hr0 : getLink s.mem b.addr 0 = some (addrs R).head? := h.right.2 b.addr (addrs R) ⟨[], rfl⟩
  have p : (head :: lh :: rh :: (addrs O ++ (a.addr :: (addrs L ++ (b.addr :: addrs R))))).Perm
      ((head :: addrs O) ++ ((b.addr :: addrs R) ++ ((a.addr :: addrs L) ++ [lh, rh]))) := by
    classical
    refine List.perm_iff_count.2 fun x => ?_
    simp only [List.count_append, List.count_cons, List.count_nil]
    omega
  rw [p.nodup_iff] at hnd
  obtain ⟨n1, n2, n3⟩ := List.nodup_append.1 hnd
  obtain ⟨n4, n5, n6⟩ := List.nodup_append.1 n2
  obtain ⟨n7, n8, n9⟩ := List.nodup_append.1 n5
  obtain ⟨m1, a1, a2⟩ := dropAt_ok hO (nn (h.hd head (by simp))) (chain_link hc)
    (fun x Q hP => chain_next (lk := lk s.mem 0) hc x Q hP) (fun t ht => h.tow t (by simp [ht])) n1
  have f1 : ∀ x, x ∉ head :: addrs O → m1 x = s.mem x := fun x hx => by rw [a2, if_neg hx]
  have o1 : ∀ x ∈ b.addr :: addrs R, x ∉ head :: addrs O := fun x hx hc =>
    n3 x hc x (List.mem_append_left _ hx) rfl
  have o1' : ∀ x ∈ a.addr :: addrs L, x ∉ head :: addrs O := fun x hx hc =>
    n3 x hc x (List.mem_append_right _ (List.mem_append_left _ hx)) rfl
  obtain ⟨m2, b1, b2⟩ := dropAt_ok (m := m1) (a := b.addr) (T := R) hR
    (by rw [f1 _ (o1 _ (by simp))]; exact nn (h.tow b (by simp)))
    (by simp only [getLink, f1 _ (o1 b.addr (by simp))]; exact hr0)
    (fun x Q hP => by
      have hx : x ∈ addrs R := by obtain ⟨P, hP⟩ := hP; rw [hP]; simp
      simp only [getLink, f1 x (o1 x (by simp [hx]))]; exact run_tail h.right.2 x Q hP)
    (fun t ht => by
      have : t.addr ∈ addrs R := List.mem_map.2 ⟨t, ht, rfl⟩
      simp only [Skip.shape, f1 t.addr (o1 _ (List.mem_cons_of_mem _ this))]
      exact h.tow t (by simp [ht])) n4
  have f2 : ∀ x ∈ a.addr :: addrs L, m2 x = s.mem x := fun x hx => by
    rw [b2, if_neg fun hc => n6 x hc x (List.mem_append_left _ hx) rfl, f1 x (o1' x hx)]
  obtain ⟨m3, c1, c2⟩ := dropAt_ok (m := m2) (a := a.addr) (T := L) hL
    (by rw [f2 _ (by simp)]; exact nn (h.tow a (by simp)))
    (by simp only [getLink, f2 a.addr (by simp)]; exact hl0)
    (fun x Q hP => by
      have hx : x ∈ addrs L := by obtain ⟨P, hP⟩ := hP; rw [hP]; simp
      simp only [getLink, f2 x (by simp [hx])]; exact run_tail h.left.2 x Q hP)
    (fun t ht => by
      have : t.addr ∈ addrs L := List.mem_map.2 ⟨t, ht, rfl⟩
      simp only [Skip.shape, f2 t.addr (List.mem_cons_of_mem _ this)]
      exact h.tow t (by simp [ht])) n7
  have hsl : s.left = some a.addr := h.left.1
  have hsr : s.right = some b.addr := h.right.1
  refine ⟨m3, by simp [unwind, a1, hsr, b1, hsl, c1], fun x => ?_⟩
  rw [c2, b2, a2]
  constructor
  · intro hx
    split at hx
    · exact absurd rfl hx
    · rename_i x1
      split at hx
      · exact absurd rfl hx
      · rename_i x2
        split at hx
        · exact absurd rfl hx
        · rename_i x3
          by_contra hc
          apply hx
          have := h.only x (by
            simp only [List.mem_cons, not_or] at x3 hc ⊢
            exact ⟨x3.1, hc.1, hc.2, by simp⟩) (by
            simp only [List.append_nil, List.map_append, List.map_cons, List.mem_append, List.mem_cons, not_or] at x1 x2 x3 ⊢
            tauto)
          simpa [Skip.shape] using this
  · intro hx
    have hm : x ∈ [lh, rh] := by simpa using hx
    rw [if_neg fun hc => n9 x hc x hm rfl, if_neg fun hc => n6 x hc x (List.mem_append_right _ hm) rfl,
      if_neg fun hc => n3 x hc x (List.mem_append_right _ (List.mem_append_right _ hm)) rfl]
    have := nn (h.hd x (by simp only [List.mem_cons]; simp only [List.mem_cons] at hm; tauto))
    intro hc
    rw [hc] at this
    simp at this

/-! ### The whole call -/

theorem lv_mono (i : Nat) (T : List (Tower (K × V))) : (lv (i + 1) T).Sublist (lv i T) := by
  induction T with
  | nil => simp
  | cons t T ih =>
    simp only [lv, List.filter_cons] at ih ⊢
    by_cases h1 : i + 1 < t.h
    · have h2 : i < t.h := by omega
      simpa [h1, h2] using ih
    · by_cases h2 : i < t.h
      · simp only [h1, h2, decide_true, decide_false, if_true, Bool.false_eq_true, if_false, List.map_cons]
        exact ih.cons _
      · simpa [h1, h2] using ih

theorem finish_ok {s : Merge K V} {head lh rh : Addr} {Z : List (Tower (K × V))} (h : MInv s head lh rh Z [] [] [])
    (hlr : lh ≠ rh) (hZ : ∀ t ∈ Z, t.addr < head) (hb : ∀ a, head ≤ a → a ≠ lh ∧ a ≠ rh) :
    ∃ m m', s.mem.free lh = some m ∧ m.free rh = some m' ∧
      WGood ⟨m', head, s.len, head + 1⟩ (fun i => lv i Z) (Z.map (·.e)) := by
  obtain ⟨m3, c1, c2, c3⟩ := free_ok (h.hd lh (by simp))
  obtain ⟨m4, d1, d2, d3⟩ := free_ok (m := m3) (p := (none, maxHeight + 1)) (a := rh)
    (by rw [c2, if_neg hlr.symm]; exact h.hd rh (by simp))
  have hsh : ∀ a, Skip.shape m4 a = if a = lh ∨ a = rh then none else Skip.shape s.mem a := by
    intro a; rw [d2, c2]
    by_cases e1 : a = rh
    · simp [e1]
    · by_cases e2 : a = lh <;> simp [e1, e2]
  have hn := h.nodup
  simp only [List.append_nil, List.cons_append, List.nil_append, List.nodup_cons, List.mem_cons, not_or] at hn
  have hgl : ∀ a j, a ≠ lh → a ≠ rh → getLink m4 a j = getLink s.mem a j := by
    intro a j e1 e2; rw [d3, if_neg e2, c3, if_neg e1]
  have hZn : ∀ a ∈ head :: addrs Z, a ≠ lh ∧ a ≠ rh := by
    intro a ha
    rcases List.mem_cons.1 ha with rfl | ha
    · exact ⟨hn.1.1, hn.1.2.1⟩
    · exact ⟨by rintro rfl; exact hn.2.1.2 ha, by rintro rfl; exact hn.2.2.1 ha⟩
  have htow : ∀ t ∈ Z, Skip.shape m4 t.addr = some (some t.e, t.h) := by
    intro t ht
    have := hZn t.addr (List.mem_cons_of_mem _ (List.mem_map.2 ⟨t, ht, rfl⟩))
    rw [hsh, if_neg (by tauto)]
    exact h.tow t (by simp [ht])
  have hz0 : lv 0 Z = addrs Z := lv_zero fun t ht => (h.pos t (by simp [ht])).1
  refine ⟨m3, m4, c1, d1, ⟨⟨?_, ?_, fun i _ => lv_mono i Z, ?_⟩, ?_, ?_, ?_, ?_, ?_⟩⟩
  · rw [hsh, if_neg (by have := hZn head (by simp); tauto)]
    exact h.hd head (by simp)
  · intro i _ a ha
    obtain ⟨t, ht, hi, rfl⟩ := mem_lv.1 ha
    exact ⟨t.e, t.h, htow t ht, hi, (h.pos t (by simp [ht])).2⟩
  · simp only [hz0]
    exact List.nodup_cons.2 ⟨hn.1.2.2, hn.2.2.2⟩
  · intro i hi
    refine chain_frame (h.chain i hi) fun y hy => ?_
    have hy' : y ∈ head :: addrs Z := by
      rcases List.mem_cons.1 hy with rfl | hy
      · simp
      · exact List.mem_cons_of_mem _ (mem_lv_addr hy)
    exact hgl y i (hZn y hy').1 (hZn y hy').2
  · intro a e1 e2
    simp only [hz0] at e2
    simp only
    rw [hsh]
    split
    · rfl
    · rename_i e3
      refine h.only a ?_ (by simpa using e2)
      simp only [List.mem_cons, List.not_mem_nil, or_false, not_or]
      simp only [not_or] at e3
      exact ⟨e1, e3.1, e3.2⟩
  · simp only [hz0]; rw [h.len]; simp
  · simp only [hz0, List.map_map]
    refine List.map_congr_left fun t ht => ?_
    exact entryAt_of_shape (htow t ht)
  · intro a ha
    have h5 : Skip.shape m4 a = none := by
      rw [hsh]
      split
      · rfl
      · rename_i e3
        refine h.only a ?_ ?_
        · simp only [List.mem_cons, List.not_mem_nil, or_false, not_or]
          simp only [not_or] at e3
          exact ⟨Nat.ne_of_gt ha, e3.1, e3.2⟩
        · simp only [List.append_nil, List.mem_map]
          rintro ⟨t, ht, rfl⟩
          exact absurd (hZ t ht) (Nat.not_lt.2 (Nat.le_of_lt ha))
    simpa [Skip.shape] using h5

end Verif.Skip.Map
