/- The calls of a skip map whose comparisons obey no law: what each does to the list of entries. -/
import Verif.Skip.MapLawlessLoop
import Verif.Skip.MapSim

namespace Verif.Skip.Map

open Verif.Spec

variable {K V : Type}

/-- A map with level lists `C` and entries `l`, in no particular order. -/
structure WGood (s : SkipMap K V) (C : Nat → List Addr) (l : List (K × V)) : Prop where
  lev : Levels (shape s.mem) s.head C
  chain : ∀ i ≤ maxHeight, Chain (lk s.mem i) s.head (C i)
  only : ∀ a, a ≠ s.head → a ∉ C 0 → shape s.mem a = none
  len_eq : s.len = (C 0).length
  ents : (C 0).map (entryAt s.mem) = l.map some
  bump : ∀ a, s.bump ≤ a → s.mem a = none

theorem WGood.length {s : SkipMap K V} {C : Nat → List Addr} {l : List (K × V)} (h : WGood s C l) :
    (C 0).length = l.length := by simpa using congrArg List.length h.ents

theorem WGood.mem {s : SkipMap K V} {C : Nat → List Addr} {l : List (K × V)} (h : WGood s C l) {a : Addr}
    (ha : a ∈ C 0) {e : K × V} (he : entryAt s.mem a = some e) : e ∈ l := by
  have : entryAt s.mem a ∈ (C 0).map (entryAt s.mem) := List.mem_map.2 ⟨a, ha, rfl⟩
  rw [h.ents, he] at this
  simpa using this

theorem WGood.ent {s : SkipMap K V} {C : Nat → List Addr} {l : List (K × V)} (h : WGood s C l) {i : Nat}
    (hi : i ≤ maxHeight) {a : Addr} (ha : a ∈ C i) : ∃ e, entryAt s.mem a = some e ∧ e ∈ l := by
  obtain ⟨e, n, h1, _⟩ := h.lev.has i hi a ha
  have := entryAt_of_shape h1
  exact ⟨e, this, h.mem ((h.lev.sub0 hi).mem ha) this⟩

theorem wgood_new (a : Addr) : WGood (SkipMap.new a : SkipMap K V) (fun _ => []) [] := by
  refine ⟨⟨?_, by simp, by simp, by simp⟩, ?_, ?_, rfl, rfl, ?_⟩
  · simp [SkipMap.new, shape, Heap.put, headNode]
  · intro i hi
    show getLink _ _ _ = _
    simp [SkipMap.new, getLink, Heap.put, headNode, Nat.lt_succ_of_le hi]
  · intro b hb _
    simp only [SkipMap.new] at hb
    simp [SkipMap.new, shape, Heap.put, hb]
  · intro b hb
    simp only [SkipMap.new] at hb
    simp [SkipMap.new, Heap.put, Nat.ne_of_gt hb]

/-! ### `insert` and `remove` -/

theorem split_map {A X B : List Addr} {f : Addr → Option (K × V)} {l : List (K × V)}
    (h : (A ++ X ++ B).map f = l.map some) :
    ∃ a x b, l = a ++ x ++ b ∧ A.map f = a.map some ∧ X.map f = x.map some ∧ B.map f = b.map some := by
  rw [List.map_append, List.map_append] at h
  obtain ⟨l1, b, rfl, h1, h2⟩ := List.append_eq_map_iff.1 h
  obtain ⟨a, x, rfl, h3, h4⟩ := List.append_eq_map_iff.1 h1.symm
  exact ⟨a, x, b, rfl, h3.symm, h4.symm, h2.symm⟩

theorem map_congr_entry {m m' : MHeap K V} {A : List Addr} (h : ∀ a ∈ A, shape m' a = shape m a) :
    A.map (entryAt m') = A.map (entryAt m) := by
  refine List.map_congr_left fun a ha => ?_
  have := h a ha
  simp only [shape, entryAt] at this ⊢
  cases h1 : m a <;> cases h2 : m' a <;> simp_all

/-- What the loops leave behind, in terms of entries. -/
theorem endL_good {s : SkipMap K V} {C N D : Nat → List Addr} {l ne : List (K × V)} {c : Answers K} {len : Nat}
    {w : Work K V} {A X B : List Addr} {m : MHeap K V} {bump : Nat}
    (hL : Levels (shape m) s.head C)
    (hN : ∀ i ≤ maxHeight, ∀ a ∈ N i, Has (shape m) i a) (hN0 : (N 0).length = ne.length ∧ (N 0).Nodup)
    (hNe : (N 0).map (entryAt m) = ne.map some)
    (hNC : ∀ a ∈ N 0, a ∉ s.head :: C 0)
    (honly : ∀ a, a ≠ s.head → a ∉ C 0 → a ∉ N 0 → shape m a = none)
    (hents : (C 0).map (entryAt m) = l.map some) (hlen : len = l.length + ne.length)
    (hb : ∀ a, bump ≤ a → m a = none)
    (h : EndL (shape m) s.head C N c len w D A X B) :
    WGood ⟨w.mem, s.head, w.len, bump⟩ D (l.take A.length ++ ne ++ l.drop (A.length + X.length)) ∧
      ∃ a x b, l = a ++ x.toList ++ b ∧ w.ret = x ∧
        l.take A.length ++ ne ++ l.drop (A.length + X.length) = a ++ ne ++ b ∧
        ∀ e, x = some e → c.eq 0 e.1 = true := by
  have hents' := hents
  rw [h.old] at hents'
  obtain ⟨a, x, b, rfl, ha, hx, hbb⟩ := split_map hents'
  have la : A.length = a.length := by simpa using congrArg List.length ha
  have lx : X.length = x.length := by simpa using congrArg List.length hx
  have lb : B.length = b.length := by simpa using congrArg List.length hbb
  have e1 : (a ++ x ++ b).take A.length = a := by rw [la, List.append_assoc, List.take_left']; rfl
  have e2 : (a ++ x ++ b).drop (A.length + X.length) = b := by
    rw [la, lx, ← List.length_append, List.drop_left']; rfl
  rw [e1, e2]
  have hnX : ∀ y ∈ s.head :: (A ++ N 0 ++ B), y ∉ X := by
    intro y hy hxx
    have hn := hL.nodup
    rw [h.old] at hn
    have hp : (s.head :: (A ++ X ++ B)).Perm (X ++ (s.head :: (A ++ B))) := by
      rw [List.append_assoc, ← List.cons_append, ← List.cons_append]
      exact List.perm_append_comm_assoc _ _ _
    rw [hp.nodup_iff, List.nodup_append] at hn
    by_cases hN' : y ∈ N 0
    · apply hNC y hN'
      rw [h.old]; simp [hxx]
    · refine hn.2.2 y hxx y ?_ rfl
      simp only [List.mem_cons, List.mem_append] at hy ⊢
      tauto
  have hsh : ∀ y ∈ s.head :: (A ++ N 0 ++ B), shape w.mem y = shape m y := fun y hy => by
    rw [h.shp, if_neg (hnX y hy)]
  have hds : ∀ j ≤ maxHeight, (D j).Sublist (D 0) := by
    intro j hj
    induction j with
    | zero => exact .refl _
    | succ j ih => exact (h.dsub j (by omega)).trans (ih (by omega))
  refine ⟨⟨⟨?_, ?_, h.dsub, ?_⟩, h.chain, ?_, ?_, ?_, ?_⟩, a, x.head?, b, ?_, ?_, rfl, ?_⟩
  · rw [hsh _ (by simp)]; exact hL.hd
  · intro i hi y hy
    have hy0 := (hds i hi).mem hy
    rw [h.new] at hy0
    unfold Has
    rw [hsh y (List.mem_cons_of_mem _ hy0)]
    rcases h.dmem i hi y hy with h1 | h1
    · exact hL.has i hi y h1
    · exact hN i hi y h1
  · rw [h.new]
    have hp : (s.head :: (A ++ N 0 ++ B)).Perm (N 0 ++ (s.head :: (A ++ B))) := by
      rw [List.append_assoc, ← List.cons_append, ← List.cons_append]
      exact List.perm_append_comm_assoc _ _ _
    rw [hp.nodup_iff, List.nodup_append]
    have hsub : (s.head :: (A ++ B)).Sublist (s.head :: C 0) := by
      rw [h.old, List.append_assoc]
      exact ((List.Sublist.refl _).append (List.sublist_append_right _ _)).cons_cons _
    refine ⟨hN0.2, hL.nodup.sublist hsub, ?_⟩
    rintro y hy _ hz rfl
    exact hNC y hy (hsub.mem hz)
  · intro y h1 h2
    show shape w.mem y = none
    rw [h.shp]
    split
    · rfl
    · rename_i h3
      rw [h.new] at h2
      simp only [List.mem_append, not_or] at h2
      exact honly y h1 (by rw [h.old]; simp [h2, h3]) h2.1.2
  · have := h.len_eq
    simp only [h.new, List.length_append] at this hlen ⊢
    omega
  · rw [h.new, map_congr_entry fun y hy => hsh y (List.mem_cons_of_mem _ hy)]
    simp only [List.map_append, ha, hbb, hNe]
  · intro y hy
    have h3 := h.shp y
    have h4 : shape m y = none := by simp [shape, hb y hy]
    rw [h4, ite_self] at h3
    simpa [shape] using h3
  · rcases h.cut.found with ⟨rfl, _⟩ | ⟨z, rfl, _⟩
    · obtain rfl := List.length_eq_zero_iff.1 lx.symm; rfl
    · obtain ⟨e, rfl⟩ := List.length_eq_one_iff.1 lx.symm; rfl
  · rw [h.ret]
    rcases h.cut.found with ⟨rfl, _⟩ | ⟨z, rfl, _⟩
    · obtain rfl := List.length_eq_zero_iff.1 lx.symm; rfl
    · obtain ⟨e, rfl⟩ := List.length_eq_one_iff.1 lx.symm
      obtain ⟨e', n, h1, _⟩ := hL.has 0 (Nat.zero_le _) z (by rw [h.old]; simp)
      simp only [List.map_cons, List.map_nil, List.cons.injEq, and_true, entryAt_of_shape h1, Option.some.injEq] at hx
      simp [retOf, h1, hx]
  · intro e he
    rcases h.cut.found with ⟨rfl, _⟩ | ⟨z, rfl, hz⟩
    · obtain rfl := List.length_eq_zero_iff.1 lx.symm; simp at he
    · obtain ⟨e'', rfl⟩ := List.length_eq_one_iff.1 lx.symm
      obtain ⟨e', n, h1, _⟩ := hL.has 0 (Nat.zero_le _) z (by rw [h.old]; simp)
      simp only [List.map_cons, List.map_nil, List.cons.injEq, and_true, entryAt_of_shape h1, Option.some.injEq] at hx
      simp only [List.head?_cons, Option.some.injEq] at he
      rw [keyP_of h1, hx, he] at hz
      exact hz

theorem removeL_ok {s : SkipMap K V} {C : Nat → List Addr} {l : List (K × V)} (h : WGood s C l) {c : Answers K}
    (hc : c.Steady) : ∃ s' C' l' r, s.removeL c = some (s', r) ∧ WGood s' C' l' ∧
      (LCall.remove c).Spec l (.pair r) l' := by
  obtain ⟨w, D, A, X, B, h1, h2⟩ := levelsL_ok (g := fun _ w => some w) (N := fun _ => [])
    (body := removeLevelL (s.len + 1) c) (fuel := s.len + 1) (len := s.len) (w := ⟨s.mem, s.head, none, s.len⟩) h.lev hc
    (by rw [h.len_eq]; exact Nat.le_refl _) (by rw [h.len_eq]; omega) (by simp) (by simp) (fun i w => by simp)
    (fun i _ w A B _ _ _ _ hc _ => ⟨w.mem, rfl, rfl, fun _ _ _ => rfl, by simpa using hc⟩) rfl h.chain rfl rfl rfl
  obtain ⟨g1, a, x, b, g2, g3, g4, g5⟩ := endL_good (ne := []) (bump := s.bump) h.lev (by simp) (by simp) (by simp) (by simp)
    (fun a h1 h2 _ => h.only a h1 h2) h.ents (by simp [h.len_eq, h.length]) h.bump h2
  exact ⟨_, D, _, w.ret, by simp [SkipMap.removeL, h1], g1, a, x, b, by rw [g3], g2, by rw [g4]; simp, g5⟩

theorem insertL_ok {s : SkipMap K V} {C : Nat → List Addr} {l : List (K × V)} (h : WGood s C l) {c : Answers K}
    (hc : c.Steady) (key : K) (v : V) (nh off : Nat) (hnh : nh ≤ maxHeight) :
    ∃ s' C' l' r, s.insertL key v c nh off = some (s', r) ∧ WGood s' C' l' ∧
      (LCall.insert key v c).Spec l (.pair r) l' := by
  set new := s.bump + off with hnew
  set m : MHeap K V := s.mem.put new ⟨some (key, v), List.replicate (nh + 1) none⟩ with hm
  have hfree : s.mem new = none := h.bump _ (Nat.le_add_right _ _)
  have hfresh : new ∉ s.head :: C 0 := by
    intro hc
    rcases List.mem_cons.1 hc with hc | hc
    · have := h.lev.hd
      rw [← hc] at this
      simp [shape, hfree] at this
    · obtain ⟨e, n, h1, _⟩ := h.lev.has 0 (Nat.zero_le _) _ hc
      simp [shape, hfree] at h1
  have hsh : ∀ a, shape m a = if a = new then some (some (key, v), nh + 1) else shape s.mem a := by
    intro a; simp only [hm, shape_put, List.length_replicate]
  have hsh' : ∀ a ∈ s.head :: C 0, shape m a = shape s.mem a := by
    intro a ha; rw [hsh, if_neg]; rintro rfl; exact hfresh ha
  have hlev : Levels (shape m) s.head C := by
    refine ⟨by rw [hsh' _ (by simp)]; exact h.lev.hd, ?_, h.lev.sub, h.lev.nodup⟩
    intro i hi a ha
    unfold Has
    rw [hsh' a (List.mem_cons_of_mem _ ((h.lev.sub0 hi).mem ha))]
    exact h.lev.has i hi a ha
  have hch : ∀ j ≤ maxHeight, Chain (lk m j) s.head (C j) := by
    intro j hj
    refine chain_frame (h.chain j hj) fun y hy => ?_
    simp only [lk, hm]
    rw [getLink_put, if_neg]
    rintro rfl
    exact hfresh (((h.lev.sub0 hj).cons_cons _).mem hy)
  let N : Nat → List Addr := fun i => if i ≤ nh then [new] else []
  have hN0 : N 0 = [new] := if_pos (Nat.zero_le _)
  obtain ⟨w, D, A, X, B, h1, h2⟩ := levelsL_ok (g := linkNew new nh) (N := N)
    (body := insertLevelL (s.len + 1) new nh c) (len := s.len + 1) (w := ⟨m, s.head, none, s.len + 1⟩) hlev hc
    (by rw [h.len_eq]; omega) (by rw [h.len_eq]; omega)
    (fun j _ => by
      simp only [N]
      by_cases h1 : j + 1 ≤ nh
      · rw [if_pos h1, if_pos (by omega)]
      · rw [if_neg h1]; exact List.nil_sublist _)
    (by rw [hN0]; simpa using hfresh)
    (insertLevelL_eq _ _ _ _)
    (fun i _ w A B hw hn hAB hl hch hcur => by
      refine linkNew_list (e := some (key, v)) ?_ hl hn ?_ hch hcur
      · rw [hw new (fun hc => hfresh (List.mem_cons_of_mem _ hc)), hsh, if_pos rfl]
      · intro hc
        rcases List.mem_cons.1 hc with hc | hc
        · apply hfresh; rw [hc]; simp
        · exact hfresh (List.mem_cons_of_mem _ (hAB _ hc)))
    rfl hch rfl rfl rfl
  obtain ⟨g1, a, x, b, g2, g3, g4, g5⟩ := endL_good (ne := [(key, v)]) (bump := new + 1) (l := l) hlev
    (fun i _ a ha => by
      simp only [N] at ha
      by_cases h1 : i ≤ nh
      · rw [if_pos h1] at ha
        simp only [List.mem_singleton] at ha
        subst ha
        exact ⟨(key, v), nh + 1, by rw [hsh, if_pos rfl], by omega, by omega⟩
      · rw [if_neg h1] at ha; simp at ha)
    (by simp [hN0]) (by simp [hN0, hm, entryAt, Heap.put])
    (by rw [hN0]; simpa using hfresh)
    (fun a h1 h2 h3 => by
      rw [hN0, List.mem_singleton] at h3
      rw [hsh, if_neg h3]; exact h.only a h1 h2)
    (by rw [map_congr_entry fun y hy => hsh' y (List.mem_cons_of_mem _ hy)]; exact h.ents)
    (by simp [h.len_eq, h.length])
    (fun a ha => by
      have : shape m a = none := by
        rw [hsh, if_neg (Nat.ne_of_gt ha)]
        simp [shape, h.bump a (Nat.le_trans (Nat.le_add_right _ off) (Nat.le_of_succ_le ha))]
      simpa [shape] using this) h2
  refine ⟨_, D, _, w.ret, ?_, g1, a, x, b, by rw [g3], g2, by rw [g4]; simp, g5⟩
  unfold SkipMap.insertL
  simp only
  rw [show downFrom (insertLevelL (s.len + 1) (s.bump + off) nh c) maxHeight
    ⟨s.mem.put (s.bump + off) ⟨some (key, v), List.replicate (nh + 1) none⟩, s.head, none, s.len + 1⟩ = some w from h1]
  rfl

/-! ### Reading -/

/-- A walk ends somewhere on its level, whatever the answers are. -/
theorem walk_any {m : MHeap K V} (p : K × V → Bool) {i : Nat} {Q : List Addr} {a : Addr} {fuel : Nat}
    (hc : Chain (lk m i) a Q) (hQ : ∀ b ∈ Q, ∃ e, entryAt m b = some e) (hf : Q.length < fuel) :
    ∃ Q1 Q2, Q = Q1 ++ Q2 ∧ walk m p i fuel a = some (lastD a Q1, Q2.head?) ∧
      (∀ b ∈ Q1, ∃ e, entryAt m b = some e ∧ p e = true) ∧
      ∀ b, Q2.head? = some b → ∃ e, entryAt m b = some e ∧ p e = false := by
  let q : Addr → Bool := fun b => ((entryAt m b).map p).getD false
  have h1 : ∀ b ∈ Q.takeWhile q, ∃ e, entryAt m b = some e ∧ p e = true := by
    intro b hb
    have hq := (List.all_eq_true.1 (List.all_takeWhile (l := Q) (p := q))) b hb
    obtain ⟨e, he⟩ := hQ b (List.takeWhile_subset _ hb)
    exact ⟨e, he, by simpa [q, he] using hq⟩
  have h2 : ∀ b, (Q.dropWhile q).head? = some b → ∃ e, entryAt m b = some e ∧ p e = false := by
    intro b hb
    have hq := List.head?_dropWhile_not q Q
    rw [hb] at hq
    obtain ⟨e, he⟩ := hQ b (List.dropWhile_subset _ (List.mem_of_mem_head? hb))
    exact ⟨e, he, by simpa [q, he] using hq⟩
  have e : Q.takeWhile q ++ Q.dropWhile q = Q := List.takeWhile_append_dropWhile
  refine ⟨_, _, e.symm, walk_ok (by rw [e]; exact hc) h1 h2 ?_, h1, h2⟩
  exact Nat.lt_of_le_of_lt ((List.takeWhile_sublist q).length_le) hf

theorem hitL_any {m : MHeap K V} (eq : K → Bool) {Q : List Addr} (hQ : ∀ b ∈ Q, ∃ e, entryAt m b = some e) :
    hitL m eq Q.head? = some none ∨
      ∃ b ∈ Q, ∃ e, entryAt m b = some e ∧ eq e.1 = true ∧ hitL m eq Q.head? = some (some b) := by
  cases Q with
  | nil => exact .inl rfl
  | cons b Q =>
    obtain ⟨e, he⟩ := hQ b (by simp)
    simp only [List.head?_cons, hitL, he]
    by_cases h : eq e.1 = true
    · exact .inr ⟨b, by simp, e, he, h, by rw [if_pos h]⟩
    · exact .inl (by rw [if_neg h])

theorem lookupL_ok {s : SkipMap K V} {C : Nat → List Addr} {l : List (K × V)} (h : WGood s C l) (c : Answers K)
    (i : Nat) (hi : i ≤ maxHeight) (P Q : List Addr) (hC : C i = P ++ Q) :
    lookupL s.mem c (s.len + 1) i (lastD s.head P) = some none ∨
      ∃ b ∈ C 0, ∃ e j, entryAt s.mem b = some e ∧ c.eq j e.1 = true ∧
        lookupL s.mem c (s.len + 1) i (lastD s.head P) = some (some b) := by
  induction i generalizing P Q with
  | zero =>
    have hch := h.chain 0 hi
    rw [hC] at hch
    have hQ : ∀ b ∈ Q, ∃ e, entryAt s.mem b = some e := fun b hb => by
      obtain ⟨e, he, _⟩ := h.ent hi (a := b) (by rw [hC]; simp [hb])
      exact ⟨e, he⟩
    have hlen := congrArg List.length hC
    rw [List.length_append, ← h.len_eq] at hlen
    obtain ⟨Q1, Q2, rfl, h1, _, _⟩ := walk_any (fun e => c.lt 0 e.1) (fuel := s.len + 1) (chain_append.1 hch).2 hQ (by omega)
    rw [lookupL.eq_def]
    simp only [h1]
    rcases hitL_any (c.eq 0) (Q := Q2) (fun b hb => hQ b (by simp [hb])) with h2 | ⟨b, hb, e, he, h2, h3⟩
    · rw [h2]; exact .inl rfl
    · rw [h3]; exact .inr ⟨b, by rw [hC]; simp [hb], e, 0, he, h2, rfl⟩
  | succ i ih =>
    have hch := h.chain _ hi
    rw [hC] at hch
    have hQ : ∀ b ∈ Q, ∃ e, entryAt s.mem b = some e := fun b hb => by
      obtain ⟨e, he, _⟩ := h.ent hi (a := b) (by rw [hC]; simp [hb])
      exact ⟨e, he⟩
    have hlen := congrArg List.length hC
    rw [List.length_append] at hlen
    have hle := (h.lev.sub0 hi).length_le
    rw [← h.len_eq] at hle
    obtain ⟨Q1, Q2, rfl, h1, _, _⟩ := walk_any (fun e => c.lt (i + 1) e.1) (fuel := s.len + 1) (chain_append.1 hch).2 hQ (by omega)
    have hsub := h.lev.sub i (by omega)
    rw [hC, ← List.append_assoc] at hsub
    obtain ⟨C1, C2, e1, _, _, e2⟩ := sub_split hsub s.head
    rw [lookupL.eq_def]
    simp only [h1]
    rcases hitL_any (c.eq (i + 1)) (Q := Q2) (fun b hb => hQ b (by simp [hb])) with h2 | ⟨b, hb, e, he, h2, h3⟩
    · rw [h2, ← lastD_append, ← e2]
      exact ih (by omega) C1 C2 e1
    · rw [h3]; exact .inr ⟨b, (h.lev.sub0 hi).mem (by rw [hC]; simp [hb]), e, i + 1, he, h2, rfl⟩

theorem getL_ok {s : SkipMap K V} {C : Nat → List Addr} {l : List (K × V)} (h : WGood s C l) (c : Answers K) :
    ∃ o, s.getL c = some o ∧ ∀ e, o = some e → e ∈ l ∧ ∃ i, c.eq i e.1 = true := by
  unfold SkipMap.getL
  rcases lookupL_ok h c _ (startHeight_le s.len) [] _ rfl with h1 | ⟨b, hb, e, j, he, h2, h1⟩ <;>
    rw [lastD_nil] at h1 <;> rw [h1]
  · exact ⟨none, rfl, by simp⟩
  · refine ⟨some e, by simp [he], ?_⟩
    rintro _ ⟨rfl⟩
    exact ⟨h.mem hb he, j, h2⟩

theorem getMutL_ok {s : SkipMap K V} {C : Nat → List Addr} {l : List (K × V)} (h : WGood s C l) (c : Answers K)
    (f : V → V) : ∃ s' o l', s.getMutL c f = some (s', o) ∧ WGood s' C l' ∧
      (LCall.getMut c f).Spec l (.val (o.map (·.2))) l' := by
  unfold SkipMap.getMutL
  rcases lookupL_ok h c _ (startHeight_le s.len) [] _ rfl with h1 | ⟨x, hb, e, j, he, h2, h1⟩ <;>
    rw [lastD_nil] at h1 <;> rw [h1]
  · exact ⟨s, none, l, rfl, h, .inl ⟨rfl, rfl⟩⟩
  · obtain ⟨e', n, g1, _⟩ := h.lev.has 0 (Nat.zero_le _) x hb
    obtain rfl : e' = e := by rw [entryAt_of_shape g1] at he; simpa using he
    obtain ⟨ls, e1, e2⟩ := shape_eq g1
    obtain ⟨A, B, hAB⟩ := List.append_of_mem hb
    have hents := h.ents
    rw [hAB, show A ++ x :: B = A ++ [x] ++ B by simp] at hents
    obtain ⟨a, y, b, rfl, ha, hy, hbb⟩ := split_map hents
    obtain ⟨e'', rfl⟩ : ∃ z, y = [z] := List.length_eq_one_iff.1 (by simpa using (congrArg List.length hy).symm)
    obtain rfl : e' = e'' := by simpa [he] using hy
    set m' : MHeap K V := s.mem.put x ⟨some (e'.1, f e'.2), ls⟩ with hm'
    have hsh : ∀ a, shape m' a = if a = x then some (some (e'.1, f e'.2), n) else shape s.mem a := by
      intro a; rw [hm', shape_put, e2]
    have hgl : ∀ a j, getLink m' a j = getLink s.mem a j := by
      intro a j; rw [hm', getLink_put]
      split
      · rename_i h; subst h; simp [getLink, e1]
      · rfl
    have hn := h.lev.nodup
    rw [hAB, ← List.cons_append, List.perm_middle.nodup_iff, List.nodup_cons] at hn
    have hxn : x ≠ s.head ∧ x ∉ A ∧ x ∉ B := by
      have := hn.1
      simp only [List.cons_append, List.mem_cons, List.mem_append, not_or] at this
      exact this
    refine ⟨{ s with mem := m' }, some e', a ++ [(e'.1, f e'.2)] ++ b, by simp [modifyAt, e1, hm'], ⟨⟨?_, ?_, h.lev.sub, h.lev.nodup⟩, ?_, ?_, h.len_eq, ?_, ?_⟩,
      .inr ⟨a, e'.1, e'.2, b, j, rfl, by simp, by simp, h2⟩⟩
    · rw [hsh, if_neg (Ne.symm hxn.1)]; exact h.lev.hd
    · intro i hi z hz
      obtain ⟨ez, nz, h3, h4⟩ := h.lev.has i hi z hz
      by_cases hzx : z = x
      · subst hzx
        rw [h3] at g1
        obtain ⟨_, rfl⟩ : ez = e' ∧ nz = n := by simpa using g1
        exact ⟨_, nz, by rw [hsh, if_pos rfl], h4⟩
      · exact ⟨ez, nz, by rw [hsh, if_neg hzx]; exact h3, h4⟩
    · intro i hi
      exact chain_frame (h.chain i hi) fun y _ => hgl y i
    · intro z h3 h4
      show shape m' z = none
      rw [hsh, if_neg (by rintro rfl; exact h4 hb)]
      exact h.only z h3 h4
    · show (C 0).map (entryAt m') = _
      rw [hAB, show A ++ x :: B = A ++ [x] ++ B by simp, List.map_append, List.map_append,
        map_congr_entry (m := s.mem) (A := A) (fun z hz => by rw [hsh, if_neg (by rintro rfl; exact hxn.2.1 hz)]),
        map_congr_entry (m := s.mem) (A := B) (fun z hz => by rw [hsh, if_neg (by rintro rfl; exact hxn.2.2 hz)]),
        ha, hbb]
      simp [hm', entryAt, Heap.put]
    · intro z hz
      have h3 := hsh z
      have h4 : shape s.mem z = none := by simp [shape, h.bump z hz]
      rw [if_neg, h4] at h3
      · simpa [shape] using h3
      · rintro rfl
        rw [g1] at h4; simp at h4

theorem descendL_ok {s : SkipMap K V} {C : Nat → List Addr} {l : List (K × V)} (h : WGood s C l)
    (p : Nat → K × V → Bool) (i : Nat) (hi : i ≤ maxHeight) (P Q : List Addr) (hC : C i = P ++ Q)
    (hP : lastD s.head P = s.head ∨ ∃ e j, entryAt s.mem (lastD s.head P) = some e ∧ p j e = true) :
    ∃ P' Q', C 0 = P' ++ Q' ∧
      descendL s.mem p (s.len + 1) i (lastD s.head P) = some (lastD s.head P', Q'.head?) ∧
      (∀ b, Q'.head? = some b → ∃ e, entryAt s.mem b = some e ∧ p 0 e = false) ∧
      (lastD s.head P' = s.head ∨ ∃ e j, entryAt s.mem (lastD s.head P') = some e ∧ p j e = true) := by
  induction i generalizing P Q with
  | zero =>
    have hch := h.chain 0 hi
    rw [hC] at hch
    have hQ : ∀ b ∈ Q, ∃ e, entryAt s.mem b = some e := fun b hb => by
      obtain ⟨e, he, _⟩ := h.ent hi (a := b) (by rw [hC]; simp [hb])
      exact ⟨e, he⟩
    have hlen := congrArg List.length hC
    rw [List.length_append, ← h.len_eq] at hlen
    obtain ⟨Q1, Q2, rfl, h1, h2, h3⟩ := walk_any (p 0) (fuel := s.len + 1) (chain_append.1 hch).2 hQ (by omega)
    refine ⟨P ++ Q1, Q2, by rw [hC]; simp, by rw [descendL, h1, lastD_append], h3, ?_⟩
    rw [lastD_append]
    rcases List.mem_cons.1 (lastD_mem (lastD s.head P) Q1) with h4 | h4
    · rw [h4]; exact hP
    · obtain ⟨e, h5, h6⟩ := h2 _ h4
      exact .inr ⟨e, 0, h5, h6⟩
  | succ i ih =>
    have hch := h.chain _ hi
    rw [hC] at hch
    have hQ : ∀ b ∈ Q, ∃ e, entryAt s.mem b = some e := fun b hb => by
      obtain ⟨e, he, _⟩ := h.ent hi (a := b) (by rw [hC]; simp [hb])
      exact ⟨e, he⟩
    have hlen := congrArg List.length hC
    rw [List.length_append] at hlen
    have hle := (h.lev.sub0 hi).length_le
    rw [← h.len_eq] at hle
    obtain ⟨Q1, Q2, rfl, h1, h2, h3⟩ := walk_any (p (i + 1)) (fuel := s.len + 1) (chain_append.1 hch).2 hQ (by omega)
    have hsub := h.lev.sub i (by omega)
    rw [hC, ← List.append_assoc] at hsub
    obtain ⟨C1, C2, e1, _, _, e2⟩ := sub_split hsub s.head
    rw [descendL, h1]
    simp only
    rw [← lastD_append, ← e2]
    refine ih (by omega) C1 C2 e1 ?_
    rw [e2, lastD_append]
    rcases List.mem_cons.1 (lastD_mem (lastD s.head P) Q1) with h4 | h4
    · rw [h4]; exact hP
    · obtain ⟨e, h5, h6⟩ := h2 _ h4
      exact .inr ⟨e, i + 1, h5, h6⟩

theorem floorL_ok {s : SkipMap K V} {C : Nat → List Addr} {l : List (K × V)} (h : WGood s C l) (c : Answers K) :
    ∃ o, s.floorL c = some o ∧ ∀ e, o = some e → e ∈ l ∧ ∃ i, c.le i e.1 = true := by
  obtain ⟨P, Q, h1, h2, _, h4⟩ := descendL_ok h (fun i e => c.le i e.1) _ (startHeight_le s.len) [] _ rfl (.inl rfl)
  rw [lastD_nil] at h2
  unfold SkipMap.floorL
  rw [h2]
  simp only [Option.bind_eq_bind, Option.bind_some, orHead]
  by_cases h5 : lastD s.head P = s.head
  · rw [if_pos h5]; exact ⟨none, rfl, by simp⟩
  · rw [if_neg h5]
    rcases h4 with h4 | ⟨e, j, h6, h7⟩
    · exact absurd h4 h5
    · refine ⟨some e, by simp [h6], ?_⟩
      rintro _ ⟨rfl⟩
      have hm : lastD s.head P ∈ C 0 := by
        rcases List.mem_cons.1 (lastD_mem s.head P) with h8 | h8
        · exact absurd h8 h5
        · rw [h1]; simp [h8]
      exact ⟨h.mem hm h6, j, h7⟩

theorem ceilL_ok {s : SkipMap K V} {C : Nat → List Addr} {l : List (K × V)} (h : WGood s C l) (c : Answers K) :
    ∃ o, s.ceilL c = some o ∧ ∀ e, o = some e → e ∈ l ∧ c.lt 0 e.1 = false := by
  obtain ⟨P, Q, h1, h2, h3, _⟩ := descendL_ok h (fun i e => c.lt i e.1) _ (startHeight_le s.len) [] _ rfl (.inl rfl)
  rw [lastD_nil] at h2
  unfold SkipMap.ceilL
  rw [h2]
  simp only [Option.bind_eq_bind, Option.bind_some]
  cases hq : Q.head? with
  | none => exact ⟨none, rfl, by simp⟩
  | some b =>
    obtain ⟨e, h6, h7⟩ := h3 b hq
    refine ⟨some e, by simp [orNull, h6], ?_⟩
    rintro _ ⟨rfl⟩
    exact ⟨h.mem (by rw [h1]; simp [List.mem_of_mem_head? hq]) h6, h7⟩

theorem minL_ok {s : SkipMap K V} {C : Nat → List Addr} {l : List (K × V)} (h : WGood s C l) :
    s.min = some l.head? := by
  unfold SkipMap.min
  rw [chain_link (h.chain 0 (Nat.zero_le _))]
  have := h.ents
  cases hC : C 0 with
  | nil => rw [hC] at this; cases l with
    | nil => rfl
    | cons e l => simp at this
  | cons b B => rw [hC] at this; cases l with
    | nil => simp at this
    | cons e l => simp only [List.map_cons, List.cons.injEq] at this; simp [orNull, this.1]

theorem maxL_ok {s : SkipMap K V} {C : Nat → List Addr} {l : List (K × V)} (h : WGood s C l) :
    s.max = some l.getLast? := by
  obtain ⟨P, Q, h1, h2, h3, _⟩ := descendL_ok h (fun _ _ => true) _ (startHeight_le s.len) [] _ rfl (.inl rfl)
  rw [lastD_nil] at h2
  have hQ : Q = [] := by
    cases Q with
    | nil => rfl
    | cons b Q => obtain ⟨e, _, h4⟩ := h3 b rfl; simp at h4
  subst hQ
  rw [List.append_nil] at h1
  unfold SkipMap.max
  rw [← descend_const, h2]
  simp only [Option.bind_eq_bind, Option.bind_some, orHead]
  have he := h.ents
  rw [h1] at he
  rcases List.eq_nil_or_concat P with rfl | ⟨P', b, rfl⟩
  · have : l = [] := by simpa using he.symm
    subst this
    rw [lastD_nil, if_pos rfl]; rfl
  · rw [List.concat_eq_append] at h1 he ⊢
    have hn := h.lev.nodup
    rw [if_neg]
    · have := congrArg List.getLast? he
      simp only [List.map_append, List.map_cons, List.map_nil, List.getLast?_append, List.getLast?_singleton, Option.some_or,
        List.getLast?_map] at this
      cases hl : l.getLast? with
      | none => rw [hl] at this; simp at this
      | some e => rw [hl] at this; simp at this; simp [lastD_append, this]
    · intro hc
      have := lastD_eq_head (h1 ▸ hn) hc
      simp at this

theorem collect_list {m : MHeap K V} {a : Addr} {T : List Addr} {l : List (K × V)}
    (he : T.map (entryAt m) = l.map some) (hc : Chain (lk m 0) a T) :
    ∃ o, getLink m a 0 = some o ∧ collect m T.length o = some l := by
  induction T generalizing a l with
  | nil =>
    have : l = [] := by simpa using he.symm
    subst this
    exact ⟨none, hc, rfl⟩
  | cons t T ih =>
    cases l with
    | nil => simp at he
    | cons e l =>
      simp only [List.map_cons, List.cons.injEq] at he
      obtain ⟨o, h1, h2⟩ := ih (a := t) he.2 hc.2
      refine ⟨some t, hc.1, ?_⟩
      simp [collect, he.1, h1, h2]

theorem iterL_ok {s : SkipMap K V} {C : Nat → List Addr} {l : List (K × V)} (h : WGood s C l) :
    s.iter = some l := by
  obtain ⟨o, h1, h2⟩ := collect_list h.ents (h.chain 0 (Nat.zero_le _))
  simp [SkipMap.iter, h1, h.len_eq, h2]

theorem clearL_ok {s : SkipMap K V} {C : Nat → List Addr} {l : List (K × V)} (h : WGood s C l) :
    ∃ s', s.clear = some s' ∧ WGood s' (fun _ => []) [] := by
  have hc := h.chain 0 (Nat.zero_le _)
  have hnd := h.lev.nodup
  obtain ⟨m1, h1, h2, h3⟩ := freeAll_ok (m := s.mem) (o := (C 0).head?) (List.nodup_cons.1 hnd).2
    (fun a ha => by
      obtain ⟨e, n, h1, _⟩ := h.lev.has 0 (Nat.zero_le _) a ha
      exact ⟨_, h1⟩)
    ⟨rfl, chain_next (lk := lk s.mem 0) hc⟩
  have hhd : shape m1 s.head = some (none, maxHeight + 1) := by
    rw [h2, if_neg (List.nodup_cons.1 hnd).1]; exact h.lev.hd
  obtain ⟨m2, g1, g2, g3⟩ := zeroLinks_ok hhd none
  have hl : getLink s.mem s.head 0 = some (C 0).head? := chain_link hc
  refine ⟨{ s with mem := m2, len := 0 }, ?_, ⟨⟨?_, by simp, by simp, by simp⟩, ?_, ?_, rfl, rfl, ?_⟩⟩
  · unfold SkipMap.clear
    rw [hl]
    simp only [Option.bind_eq_bind, Option.bind_some, h.len_eq, h1, g1]
    rfl
  · rw [g2]; exact hhd
  · intro i hi
    show getLink m2 s.head i = some none
    rw [g3, if_pos rfl, if_pos (by omega)]
  · intro a ha _
    simp only
    rw [g2, h2]
    split
    · rfl
    · exact h.only a ha (by assumption)
  · intro a ha
    have : shape m2 a = none := by
      rw [g2, h2]
      split
      · rfl
      · simp [shape, h.bump a ha]
    simpa [shape] using this

theorem lawlessDrop_ok {s : SkipMap K V} {C : Nat → List Addr} {l : List (K × V)} (h : WGood s C l) :
    ∃ m, s.drop = some m ∧ ∀ a, m a = none := by
  have hc := h.chain 0 (Nat.zero_le _)
  have hnd := h.lev.nodup
  have hl : getLink s.mem s.head 0 = some (C 0).head? := chain_link hc
  obtain ⟨m0, e1, e2, e3⟩ := free_ok h.lev.hd
  have hne : ∀ a ∈ C 0, a ≠ s.head := by
    rintro a ha rfl; exact (List.nodup_cons.1 hnd).1 ha
  obtain ⟨m1, h1, h2, h3⟩ := freeAll_ok (m := m0) (o := (C 0).head?) (List.nodup_cons.1 hnd).2
    (fun a ha => by
      rw [e2, if_neg (hne a ha)]
      obtain ⟨e, n, h1, _⟩ := h.lev.has 0 (Nat.zero_le _) a ha
      exact ⟨_, h1⟩)
    ⟨rfl, fun b Q hbQ => by
      rw [e3, if_neg (hne b (by obtain ⟨P, hP⟩ := hbQ; rw [hP]; simp))]
      exact chain_next (lk := lk s.mem 0) hc b Q hbQ⟩
  refine ⟨m1, ?_, ?_⟩
  · unfold SkipMap.drop
    rw [hl]
    simp only [Option.bind_eq_bind, Option.bind_some, h.len_eq, e1, h1]
  · intro a
    have : shape m1 a = none := by
      rw [h2, e2]
      split
      · rfl
      · split
        · rfl
        · exact h.only a (by assumption) (by assumption)
    simpa [shape] using this

/-! ### Histories -/

theorem stepL_ok {s : SkipMap K V} {C : Nat → List Addr} {l : List (K × V)} (h : WGood s C l) (op : LCall K V)
    (hop : op.Edits → op.Steady) (d : Draw) :
    ∃ s' r C' l', stepL s op d = some (s', r) ∧ WGood s' C' l' ∧ op.Spec l r l' := by
  cases op with
  | insert k v c =>
    obtain ⟨s', C', l', r, h1, h2, h3⟩ := insertL_ok h (hop trivial) k v d.1 d.2 (by have := d.1.isLt; unfold maxHeight; omega)
    exact ⟨s', _, C', l', by simp [stepL, h1], h2, h3⟩
  | remove c =>
    obtain ⟨s', C', l', r, h1, h2, h3⟩ := removeL_ok h (hop trivial)
    exact ⟨s', _, C', l', by simp [stepL, h1], h2, h3⟩
  | get c =>
    obtain ⟨o, h1, h2⟩ := getL_ok h c
    refine ⟨s, _, C, l, by simp [stepL, h1]; rfl, h, rfl, _, rfl, ?_⟩
    intro v hv
    obtain ⟨e, rfl, rfl⟩ := Option.map_eq_some_iff.1 hv
    obtain ⟨h3, i, h4⟩ := h2 e rfl
    exact ⟨e.1, i, h3, h4⟩
  | getMut c f =>
    obtain ⟨s', o, l', h1, h2, h3⟩ := getMutL_ok h c f
    exact ⟨s', _, C, l', by simp [stepL, h1], h2, h3⟩
  | floor c =>
    obtain ⟨o, h1, h2⟩ := floorL_ok h c
    refine ⟨s, _, C, l, by simp [stepL, h1]; rfl, h, rfl, _, rfl, ?_⟩
    intro v hv
    obtain ⟨e, rfl, rfl⟩ := Option.map_eq_some_iff.1 hv
    obtain ⟨h3, i, h4⟩ := h2 e rfl
    exact ⟨e.2, i, h3, h4⟩
  | ceil c =>
    obtain ⟨o, h1, h2⟩ := ceilL_ok h c
    refine ⟨s, _, C, l, by simp [stepL, h1]; rfl, h, rfl, _, rfl, ?_⟩
    intro v hv
    obtain ⟨e, rfl, rfl⟩ := Option.map_eq_some_iff.1 hv
    obtain ⟨h3, h4⟩ := h2 e rfl
    exact ⟨e.2, h3, h4⟩
  | min => exact ⟨s, _, C, l, by simp [stepL, minL_ok h], h, rfl, rfl⟩
  | max => exact ⟨s, _, C, l, by simp [stepL, maxL_ok h], h, rfl, rfl⟩
  | len => exact ⟨s, _, C, l, rfl, h, rfl, by rw [h.len_eq, h.length]⟩
  | iter => exact ⟨s, _, C, l, by simp [stepL, iterL_ok h], h, rfl, rfl⟩
  | clear =>
    obtain ⟨s', h1, h2⟩ := clearL_ok h
    exact ⟨s', _, _, [], by simp [stepL, h1], h2, rfl, rfl⟩

theorem runL_ok {s : SkipMap K V} {C : Nat → List Addr} {l : List (K × V)} (h : WGood s C l)
    (ops : List (LCall K V × Draw)) (hops : ∀ x ∈ ops, x.1.Edits → x.1.Steady) :
    ∃ s' h C' l', runL s ops = some (s', h) ∧ h.map (·.1) = ops.map (·.1) ∧ WGood s' C' l' ∧ LHistory l h l' := by
  induction ops generalizing s C l with
  | nil => exact ⟨s, [], C, l, rfl, rfl, h, .nil l⟩
  | cons x ops ih =>
    obtain ⟨op, d⟩ := x
    obtain ⟨s1, r, C1, l1, h1, h2, h3⟩ := stepL_ok h op (hops (op, d) (by simp)) d
    obtain ⟨s2, hh, C2, l2, g1, g2, g3, g4⟩ := ih h2 (fun y hy => hops y (by simp [hy]))
    exact ⟨s2, (op, r) :: hh, C2, l2, by simp [runL, h1, g1], by simp [g2], g3, .cons h3 g4⟩

end Verif.Skip.Map
