/- `SkipMap` after any panics of comparisons: all calls (C90). -/
import Verif.Skip.WebRead

namespace Verif.Skip.Map.Torn

open Verif.Spec Relation

variable {K V : Type} [LinearOrder K]

/-- The last node of a search among the keys up to `k` is shown, if all keys that iteration does not show are greater. -/
theorem shown {s : SkipMap K V} {A : Nat → Addr → Prop} {T U : List Addr} (h : Holds s A T U) {k : K}
    (hs : ∀ e ∈ ents (entryAt s.mem) U, k < e.1) {c : Addr} (hc : A 0 c)
    (hb : c = s.head ∨ ∃ e, entryAt s.mem c = some e ∧ e.1 ≤ k) : c ∈ s.head :: T := by
  refine (h.body.side hc).resolve_right fun hU => ?_
  rcases hb with rfl | ⟨e, h1, h2⟩
  · exact (h.body.memU hU).2 rfl
  · exact absurd (hs e (mem_ents.2 ⟨c, hU, h1⟩)) (not_lt.2 h2)

theorem in_some {s : SkipMap K V} {A : Nat → Addr → Prop} {T U : List Addr} (h : Holds s A T U) {c : Addr} (hc : A 0 c)
    {e : K × V} (he : entryAt s.mem c = some e) : e ∈ ents (entryAt s.mem) T ∨ e ∈ ents (entryAt s.mem) U := by
  have hn : c ≠ s.head := by rintro rfl; rw [h.body.web.no_ent] at he; simp at he
  rcases (h.body.cover c).1 hc with h1 | h1 | h1
  · exact absurd h1 hn
  · exact .inl (mem_ents.2 ⟨c, h1, he⟩)
  · exact .inr (mem_ents.2 ⟨c, h1, he⟩)

/-- The entry of the last node of a descent. -/
theorem orHead_web {s : SkipMap K V} {A : Nat → Addr → Prop} {T U : List Addr} (h : Holds s A T U) {c : Addr} (hc : A 0 c) :
    ∃ o, orHead s c = some o ∧ (∀ e ∈ o, entryAt s.mem c = some e) ∧ (c = s.head ∨ ∃ e, o = some e) := by
  unfold orHead
  by_cases hn : c = s.head
  · exact ⟨none, by simp [hn], by simp, .inl hn⟩
  · obtain ⟨e, he⟩ := h.body.web.some_ent hc hn
    exact ⟨some e, by simp [hn, he], by simp [he], .inr ⟨e, rfl⟩⟩

/-- The entry of the next node. -/
theorem orNull_web {s : SkipMap K V} {A : Nat → Addr → Prop} {T U : List Addr} (h : Holds s A T U) {l : Option Addr}
    (hl : ∀ b, l = some b → A 0 b ∧ b ≠ s.head) :
    ∃ o, orNull s l = some o ∧ (∀ e ∈ o, ∃ b, l = some b ∧ entryAt s.mem b = some e) ∧ (∀ b, l = some b → ∃ e, o = some e) := by
  cases l with
  | none => exact ⟨none, rfl, by simp, by simp⟩
  | some b =>
    obtain ⟨e, he⟩ := h.body.web.some_ent (hl b rfl).1 (hl b rfl).2
    exact ⟨some e, by simp [orNull, he], by simp [he], by simp⟩

theorem floorP_web {s : SkipMap K V} {σ : Scattered K V} (h : WRel s σ) (k : K) (b : Nat) :
    s.floorP k b = some none ∨ ∃ o, s.floorP k b = some (some o) ∧ (∀ e ∈ o, e.1 ≤ k ∧ (e ∈ σ.seen ∨ e ∈ σ.lost)) ∧
      (σ.Sound k → ∀ e ∈ σ.seen, e.1 ≤ k → ∃ f ∈ o, e.1 ≤ f.1) := by
  obtain ⟨A, T, U, hh, rfl⟩ := h
  obtain ⟨c, nxt, d1, d2, d3, d4, d5⟩ := descend_web hh.body (fun e => decide (e.1 ≤ k)) hh.len (startHeight s.len) s.head
    (head_at hh) (.inl rfl)
  rcases descendP_or b d1 with h5 | h5
  · left; simp [SkipMap.floorP, h5]
  · right
    obtain ⟨o, o1, o2, o3⟩ := orHead_web hh d2
    refine ⟨o, by simp [SkipMap.floorP, h5, o1], fun e he => ?_, fun hs e he hek => ?_⟩
    · have hce := o2 e he
      refine ⟨?_, in_some hh d2 hce⟩
      rcases d4 with rfl | ⟨e', h1, h2⟩
      · rw [hh.body.web.no_ent] at hce; simp at hce
      · rw [hce] at h1; cases h1; simpa using h2
    · obtain ⟨x, hx, hxe⟩ := mem_ents.1 he
      have hc := shown hh hs d2 (by simpa using d4)
      rcases hh.body.between hc d3 hx with rfl | ⟨h1, h2⟩ | ⟨y, h1, _, h2⟩
      · obtain ⟨e', rfl⟩ := o3.resolve_left (hh.body.memT hx).2
        have := o2 e' rfl
        rw [hxe] at this; cases this
        exact ⟨e, rfl, le_refl _⟩
      · obtain ⟨e', rfl⟩ := o3.resolve_left h1
        have h3 := o2 e' rfl
        obtain ⟨u, v, u1, u2, u3⟩ := h2
        rw [hxe] at u1; rw [h3] at u2; cases u1; cases u2
        exact ⟨e', rfl, le_of_lt u3⟩
      · obtain ⟨_, _, f, f1, f2⟩ := d5 y h1
        have f3 : k < f.1 := by simpa using f2
        exfalso
        rcases h2 with rfl | ⟨u, v, u1, u2, u3⟩
        · rw [hxe] at f1; cases f1; exact absurd hek (not_le.2 f3)
        · rw [f1] at u1; rw [hxe] at u2; cases u1; cases u2
          exact absurd hek (not_le.2 (f3.trans u3))

theorem ceilP_web {s : SkipMap K V} {σ : Scattered K V} (h : WRel s σ) (k : K) (b : Nat) :
    s.ceilP k b = some none ∨ ∃ o, s.ceilP k b = some (some o) ∧ (∀ e ∈ o, k ≤ e.1 ∧ (e ∈ σ.seen ∨ e ∈ σ.lost)) ∧
      (σ.Sound k → (∀ e ∈ o, e ∈ σ.seen) ∧ ∀ e ∈ σ.seen, k ≤ e.1 → ∃ f ∈ o, f.1 ≤ e.1) := by
  obtain ⟨A, T, U, hh, rfl⟩ := h
  obtain ⟨c, nxt, d1, d2, d3, d4, d5⟩ := descend_web hh.body (fun e => decide (e.1 < k)) hh.len (startHeight s.len) s.head
    (head_at hh) (.inl rfl)
  have hlt : c = s.head ∨ ∃ e, entryAt s.mem c = some e ∧ e.1 < k := by simpa using d4
  rcases descendP_or b d1 with h5 | h5
  · left; simp [SkipMap.ceilP, h5]
  · right
    obtain ⟨o, o1, o2, o3⟩ := orNull_web hh (l := nxt) fun b hb => ⟨(d5 b hb).1, (d5 b hb).2.1⟩
    refine ⟨o, by simp [SkipMap.ceilP, h5, o1], fun e he => ?_, fun hs => ?_⟩
    · obtain ⟨y, y1, y2⟩ := o2 e he
      obtain ⟨h1, _, f, f1, f2⟩ := d5 y y1
      refine ⟨?_, in_some hh h1 y2⟩
      rw [y2] at f1; cases f1; simpa using f2
    · have hc := shown hh hs d2 (by
        rcases hlt with h1 | ⟨e, h1, h2⟩
        · exact .inl h1
        · exact .inr ⟨e, h1, le_of_lt h2⟩)
      refine ⟨fun e he => ?_, fun e he hek => ?_⟩
      · obtain ⟨y, y1, y2⟩ := o2 e he
        exact mem_ents.2 ⟨y, hh.body.chn.next hc (by unfold Nx; rw [d3, y1]), y2⟩
      · obtain ⟨x, hx, hxe⟩ := mem_ents.1 he
        rcases hh.body.between hc d3 hx with rfl | ⟨h1, h2⟩ | ⟨y, h1, _, h2⟩
        · obtain ⟨e', h1, h2⟩ := hlt.resolve_left (hh.body.memT hx).2
          rw [hxe] at h1; cases h1
          exact absurd hek (not_le.2 h2)
        · obtain ⟨e', h3, h4⟩ := hlt.resolve_left h1
          obtain ⟨u, v, u1, u2, u3⟩ := h2
          rw [hxe] at u1; rw [h3] at u2; cases u1; cases u2
          exact absurd hek (not_le.2 (u3.trans h4))
        · obtain ⟨f, rfl⟩ := o3 y h1
          obtain ⟨y', y1, y2⟩ := o2 f rfl
          obtain rfl : y = y' := by rw [h1] at y1; simpa using y1
          rcases h2 with rfl | ⟨u, v, u1, u2, u3⟩
          · rw [hxe] at y2; cases y2; exact ⟨e, rfl, le_refl _⟩
          · rw [y2] at u1; rw [hxe] at u2; cases u1; cases u2
            exact ⟨f, rfl, le_of_lt u3⟩

theorem min_web {s : SkipMap K V} {σ : Scattered K V} (h : WRel s σ) :
    ∃ o, s.min = some o ∧ (∀ e ∈ o, e ∈ σ.seen) ∧ ∀ e ∈ σ.seen, ∃ f ∈ o, f.1 ≤ e.1 := by
  obtain ⟨A, T, U, hh, rfl⟩ := h
  have hA : A 0 s.head := hh.body.web.hd 0 (Nat.zero_le _)
  obtain ⟨l, hl⟩ := hh.body.web.link hA
  obtain ⟨o, o1, o2, o3⟩ := orNull_web hh (l := l) fun b hb => hh.body.web.step hA (by unfold Nx; rw [hl, hb])
  refine ⟨o, by simp [SkipMap.min, hl, o1], fun e he => ?_, fun e he => ?_⟩
  · obtain ⟨y, y1, y2⟩ := o2 e he
    exact mem_ents.2 ⟨y, hh.body.chn.next (c := s.head) (by simp) (by unfold Nx; rw [hl, y1]), y2⟩
  · obtain ⟨x, hx, hxe⟩ := mem_ents.1 he
    rcases hh.body.between (by simp) hl hx with h1 | ⟨h1, _⟩ | ⟨y, h1, _, h2⟩
    · exact absurd h1 (hh.body.memT hx).2
    · exact absurd rfl h1
    · obtain ⟨f, rfl⟩ := o3 y h1
      obtain ⟨y', y1, y2⟩ := o2 f rfl
      obtain rfl : y = y' := by rw [h1] at y1; simpa using y1
      rcases h2 with rfl | ⟨u, v, u1, u2, u3⟩
      · rw [hxe] at y2; cases y2; exact ⟨e, rfl, le_refl _⟩
      · rw [y2] at u1; rw [hxe] at u2; cases u1; cases u2
        exact ⟨f, rfl, le_of_lt u3⟩

theorem max_web {s : SkipMap K V} {σ : Scattered K V} (h : WRel s σ) :
    ∃ o, s.max = some o ∧ (∀ e ∈ o, e ∈ σ.seen ∨ e ∈ σ.lost) ∧ (σ.lost = 0 → ∀ e ∈ σ.seen, ∃ f ∈ o, e.1 ≤ f.1) := by
  obtain ⟨A, T, U, hh, rfl⟩ := h
  obtain ⟨c, nxt, d1, d2, d3, d4, d5⟩ := descend_web hh.body (fun _ => true) hh.len (startHeight s.len) s.head
    (head_at hh) (.inl rfl)
  obtain ⟨o, o1, o2, o3⟩ := orHead_web hh d2
  refine ⟨o, by simp [SkipMap.max, d1, o1], fun e he => in_some hh d2 (o2 e he), fun h0 e he => ?_⟩
  obtain ⟨x, hx, hxe⟩ := mem_ents.1 he
  have hc : c ∈ s.head :: T := by
    refine (hh.body.side d2).resolve_right fun hU => ?_
    obtain ⟨e', he'⟩ := hh.body.web.some_ent d2 (hh.body.memU hU).2
    have : e' ∈ ents (entryAt s.mem) U := mem_ents.2 ⟨c, hU, he'⟩
    rw [show ents (entryAt s.mem) U = 0 from h0] at this
    simp at this
  rcases hh.body.between hc d3 hx with rfl | ⟨h1, h2⟩ | ⟨y, h1, _, h2⟩
  · obtain ⟨e', rfl⟩ := o3.resolve_left (hh.body.memT hx).2
    have := o2 e' rfl
    rw [hxe] at this; cases this
    exact ⟨e, rfl, le_refl _⟩
  · obtain ⟨e', rfl⟩ := o3.resolve_left h1
    have h3 := o2 e' rfl
    obtain ⟨u, v, u1, u2, u3⟩ := h2
    rw [hxe] at u1; rw [h3] at u2; cases u1; cases u2
    exact ⟨e', rfl, le_of_lt u3⟩
  · obtain ⟨_, _, f, f1, f2⟩ := d5 y h1
    simp at f2

omit [LinearOrder K] in
theorem chn_chain {m : MHeap K V} {a : Addr} {T : List Addr} (h : Chn (getLink m) a T) : Chain (lk m 0) a T := by
  induction T generalizing a with
  | nil => exact h
  | cons b T ih => exact ⟨h.1, ih h.2⟩

omit [LinearOrder K] in
theorem collect_chn {m : MHeap K V} {a : Addr} {T : List Addr} (h : Chn (getLink m) a T)
    (he : ∀ x ∈ T, ∃ e, entryAt m x = some e) (n : Nat) :
    ∃ o, getLink m a 0 = some o ∧ collect m (T.length + n) o = some (T.filterMap (entryAt m)) := by
  induction T generalizing a with
  | nil => exact ⟨none, h, by cases n <;> rfl⟩
  | cons b T ih =>
    obtain ⟨o, h1, h2⟩ := ih h.2 fun x hx => he x (List.mem_cons_of_mem _ hx)
    obtain ⟨e, h3⟩ := he b (by simp)
    refine ⟨some b, h.1, ?_⟩
    rw [List.length_cons, Nat.add_right_comm]
    simp [collect, h3, h1, h2]

theorem iter_web {s : SkipMap K V} {σ : Scattered K V} (h : WRel s σ) :
    ∃ l : List (K × V), s.iter = some l ∧ l.Pairwise (fun a b => a.1 < b.1) ∧ (l : Multiset (K × V)) = σ.seen := by
  obtain ⟨A, T, U, hh, rfl⟩ := h
  obtain ⟨o, h1, h2⟩ := collect_chn hh.body.chn (fun x hx => hh.body.web.some_ent (hh.body.memT hx).1 (hh.body.memT hx).2)
    U.length
  refine ⟨T.filterMap (entryAt s.mem), ?_, hh.body.ascending, rfl⟩
  simp [SkipMap.iter, h1, hh.len, h2]

omit [LinearOrder K] in
/-- Freeing needs no more steps than there are nodes. -/
theorem freeAll_more {m m' : MHeap K V} {f f' : Nat} (hf : f ≤ f') {o : Option Addr} (h : freeAll m f o = some m') :
    freeAll m f' o = some m' := by
  induction f generalizing f' o m with
  | zero =>
    cases o with
    | none => cases f' <;> simpa [freeAll] using h
    | some a => simp [freeAll] at h
  | succ f ih =>
    obtain ⟨f', rfl⟩ : ∃ g, f' = g + 1 := ⟨f' - 1, by omega⟩
    cases o with
    | none => simpa [freeAll] using h
    | some a =>
      simp only [freeAll] at h ⊢
      cases hl : getLink m a 0 with
      | none => simp [hl] at h
      | some l =>
        cases hm : m.free a with
        | none => simp [hl, hm] at h
        | some m₁ =>
          simp only [hl, hm, Option.bind_eq_bind, Option.bind_some] at h ⊢
          exact ih (by omega) h

omit [LinearOrder K] in
theorem shape_of_link {m : MHeap K V} {a : Addr} {i : Nat} {l} (h : getLink m a i = some l) : ∃ p, shape m a = some p := by
  obtain ⟨e, n, h1, _⟩ := shape_of_getLink h
  exact ⟨_, h1⟩

theorem clear_web {s : SkipMap K V} {σ : Scattered K V} (h : WRel s σ) :
    ∃ s', s.clear = some s' ∧ WRel s' Scattered.empty := by
  obtain ⟨A, T, U, hh, rfl⟩ := h
  have hb := hh.body
  have hA : A 0 s.head := hb.web.hd 0 (Nat.zero_le _)
  have hnh := (List.nodup_cons.1 hb.nodupT)
  have hch := chn_chain hb.chn
  obtain ⟨m1, h1, h2, h3⟩ := freeAll_ok (m := s.mem) (o := T.head?) hnh.2
    (fun a ha => by
      obtain ⟨l, hl⟩ := hb.web.link (hb.memT ha).1
      exact shape_of_link hl)
    ⟨rfl, chain_next (lk := lk s.mem 0) hch⟩
  have h1' := freeAll_more (f' := s.len) (by rw [hh.len]; omega) h1
  obtain ⟨l, hl⟩ := hb.web.link (hb.web.hd maxHeight (Nat.le_refl _))
  obtain ⟨e, n, g1, g2⟩ := shape_of_getLink hl
  have hhd : shape m1 s.head = some (e, n) := by rw [h2, if_neg hnh.1]; exact g1
  obtain ⟨m2, z1, z2, z3⟩ := zeroLinks_ok hhd none
  have he : entryAt m2 s.head = none := by
    rw [entryAt_of_shape_eq z2, entryAt_of_shape hhd, ← entryAt_of_shape g1]
    exact hb.web.no_ent
  have hz : ∀ i ≤ maxHeight, getLink m2 s.head i = some none := by
    intro i hi; rw [z3, if_pos rfl, if_pos (by omega)]
  have no : ∀ {i b}, i ≤ maxHeight → ¬ Nx (getLink m2) i s.head b := by
    intro i b hi; unfold Nx; rw [hz i hi]; simp
  refine ⟨{ s with mem := m2, len := 0 }, ?_, fun i a => a = s.head ∧ i ≤ maxHeight, [], [], ⟨⟨⟨?_, ?_, ?_, ?_, ?_, he, ?_, ?_, ?_, ?_⟩,
    ?_, ?_, hz 0 (Nat.zero_le _)⟩, rfl, ?_⟩, ?_⟩
  · unfold SkipMap.clear
    rw [show getLink s.mem s.head 0 = some T.head? from chain_link hch]
    simp only [Option.bind_eq_bind, Option.bind_some, h1', z1]
    rfl
  · exact fun i hi => ⟨rfl, hi⟩
  · exact fun h => h.2
  · exact fun h => ⟨h.1, by omega⟩
  · rintro i a ⟨rfl, hi⟩; exact ⟨_, hz i hi⟩
  · rintro a ⟨rfl, _⟩ hn; exact absurd rfl hn
  · rintro i a b ⟨rfl, hi⟩ hx; exact absurd hx (no hi)
  · rintro i a a' b ⟨rfl, hi⟩ _ hx _; exact absurd hx (no hi)
  · rintro i a b ⟨rfl, hi⟩ hn _; exact absurd rfl hn
  · rintro i a b ⟨rfl, hi⟩ _ hp
    rcases TransGen.head'_iff.1 hp with ⟨y, h4, _⟩
    exact absurd h4 (no (by omega))
  · intro a; simp
  · simp
  · rintro a ⟨rfl, _⟩; exact hh.bump _ hA
  · simp [ents, Scattered.empty]

/-- `drop` frees every node that iteration shows, and the head, once. -/
theorem drop_web {s : SkipMap K V} {σ : Scattered K V} (h : WRel s σ) : ∃ m, s.drop = some m := by
  obtain ⟨A, T, U, hh, rfl⟩ := h
  have hb := hh.body
  have hA : A 0 s.head := hb.web.hd 0 (Nat.zero_le _)
  have hnh := (List.nodup_cons.1 hb.nodupT)
  have hch := chn_chain hb.chn
  obtain ⟨l, hl⟩ := hb.web.link hA
  obtain ⟨p, hp⟩ := shape_of_link hl
  obtain ⟨m0, e1, e2, e3⟩ := free_ok hp
  have hne : ∀ a ∈ T, a ≠ s.head := by rintro a ha rfl; exact hnh.1 ha
  obtain ⟨m1, h1, h2, h3⟩ := freeAll_ok (m := m0) (o := T.head?) hnh.2
    (fun a ha => by
      rw [e2, if_neg (hne a ha)]
      obtain ⟨l, hl⟩ := hb.web.link (hb.memT ha).1
      exact shape_of_link hl)
    ⟨rfl, fun b Q hbQ => by
      rw [e3, if_neg (hne b (by obtain ⟨P, hP⟩ := hbQ; rw [hP]; simp))]
      exact chain_next (lk := lk s.mem 0) hch b Q hbQ⟩
  have h1' := freeAll_more (f' := s.len) (by rw [hh.len]; omega) h1
  refine ⟨m1, ?_⟩
  unfold SkipMap.drop
  rw [show getLink s.mem s.head 0 = some T.head? from chain_link hch]
  simp only [Option.bind_eq_bind, Option.bind_some, e1, h1']

theorem new_web (a : Addr) : WRel (SkipMap.new a : SkipMap K V) Scattered.empty := by
  have hz : ∀ i ≤ maxHeight, getLink (SkipMap.new a : SkipMap K V).mem a i = some none := by
    intro i hi
    simp only [SkipMap.new, getLink_put, if_true, headNode]
    simp [List.getElem?_replicate]; omega
  have no : ∀ {i b}, i ≤ maxHeight → ¬ Nx (getLink (SkipMap.new a : SkipMap K V).mem) i a b := by
    intro i b hi; unfold Nx; rw [hz i hi]; simp
  refine ⟨fun i x => x = a ∧ i ≤ maxHeight, [], [], ⟨⟨⟨?_, ?_, ?_, ?_, ?_, ?_, ?_, ?_, ?_, ?_⟩,
    ?_, ?_, hz 0 (Nat.zero_le _)⟩, rfl, ?_⟩, ?_⟩
  · exact fun i hi => ⟨rfl, hi⟩
  · exact fun h => h.2
  · exact fun h => ⟨h.1, by omega⟩
  · rintro i x ⟨rfl, hi⟩; exact ⟨_, hz i hi⟩
  · rintro x ⟨rfl, _⟩ hn; exact absurd rfl hn
  · simp [SkipMap.new, entryAt, Heap.put, headNode]
  · rintro i x b ⟨rfl, hi⟩ hx; exact absurd hx (no hi)
  · rintro i x x' b ⟨rfl, hi⟩ _ hx _; exact absurd hx (no hi)
  · rintro i x b ⟨rfl, hi⟩ hn _; exact absurd rfl hn
  · rintro i x b ⟨rfl, hi⟩ _ hp
    rcases TransGen.head'_iff.1 hp with ⟨y, h4, _⟩
    exact absurd h4 (no (by omega))
  · intro x; simp [SkipMap.new]
  · simp
  · rintro x ⟨rfl, _⟩; exact Nat.lt_succ_self _
  · simp [ents, Scattered.empty]

theorem count_web {s : SkipMap K V} {σ : Scattered K V} (h : WRel s σ) : s.len = σ.count := by
  obtain ⟨A, T, U, hh, rfl⟩ := h
  unfold Scattered.count
  rw [hh.len, card_ents fun a ha => hh.body.web.some_ent (hh.body.memT ha).1 (hh.body.memT ha).2,
    card_ents fun a ha => hh.body.web.some_ent (hh.body.memU ha).1 (hh.body.memU ha).2]

theorem stepP_web {s : SkipMap K V} {σ : Scattered K V} (h : WRel s σ) (op : MapOp K V) (d : Draw) (b : Nat) :
    ∃ s' o σ', stepP s op d b = some (s', o) ∧ WRel s' σ' ∧
      match o with
      | some r => Scattered.Ret op σ r σ'
      | none => Scattered.Left op σ σ' := by
  cases op with
  | insert k v =>
    have hd : (d.1 : Nat) ≤ maxHeight := by have := d.1.isLt; simp only [maxHeight]; omega
    rcases insertP_web h k v hd d.2 b with ⟨s', j, h1, h2⟩ | ⟨s', o, σ', h1, h2, h3, h4⟩
    · exact ⟨s', none, _, by simp [stepP, h1, outcome], h2, rfl⟩
    · exact ⟨s', some (.pair o), σ', by simp [stepP, h1, outcome], h2, o, rfl, h3, h4⟩
  | remove k =>
    rcases removeP_web h k b with ⟨s', j, h1, h2⟩ | ⟨s', o, σ', h1, h2, h3, h4⟩
    · exact ⟨s', none, _, by simp [stepP, h1, outcome], h2, rfl⟩
    · exact ⟨s', some (.pair o), σ', by simp [stepP, h1, outcome], h2, o, rfl, h3, h4⟩
  | get k =>
    rcases getP_web h k b with h1 | ⟨o, h1, h2⟩
    · exact ⟨s, none, σ, by simp [stepP, h1], h, rfl⟩
    · exact ⟨s, some (.val (o.map (·.2))), σ, by simp [stepP, h1], h, o, rfl, h2, rfl⟩
  | containsKey k =>
    rcases getP_web h k b with h1 | ⟨o, h1, h2⟩
    · exact ⟨s, none, σ, by simp [stepP, h1], h, rfl⟩
    · exact ⟨s, some (.bool o.isSome), σ, by simp [stepP, h1], h, o, rfl, h2, rfl⟩
  | getMut k f =>
    rcases getMutP_web h k f b with h1 | ⟨s', o, σ', h1, h2, h3, h4⟩
    · exact ⟨s, none, σ, by simp [stepP, h1], h, rfl⟩
    · exact ⟨s', some (.val (o.map (·.2))), σ', by simp [stepP, h1], h2, o, rfl, h3, h4⟩
  | floor k =>
    rcases floorP_web h k b with h1 | ⟨o, h1, h2, h3⟩
    · exact ⟨s, none, σ, by simp [stepP, h1], h, rfl⟩
    · exact ⟨s, some (.key (o.map (·.1))), σ, by simp [stepP, h1], h, o, rfl, h2, h3, rfl⟩
  | ceil k =>
    rcases ceilP_web h k b with h1 | ⟨o, h1, h2, h3⟩
    · exact ⟨s, none, σ, by simp [stepP, h1], h, rfl⟩
    · exact ⟨s, some (.key (o.map (·.1))), σ, by simp [stepP, h1], h, o, rfl, h2, h3, rfl⟩
  | min =>
    obtain ⟨o, h1, h2, h3⟩ := min_web h
    exact ⟨s, some (.key (o.map (·.1))), σ, by simp [stepP, step, h1], h, o, rfl, h2, h3, rfl⟩
  | max =>
    obtain ⟨o, h1, h2, h3⟩ := max_web h
    exact ⟨s, some (.key (o.map (·.1))), σ, by simp [stepP, step, h1], h, o, rfl, h2, h3, rfl⟩
  | len => exact ⟨s, some (.num s.len), σ, rfl, h, by rw [count_web h], rfl⟩
  | isEmpty => exact ⟨s, some (.bool (s.len == 0)), σ, rfl, h, by rw [count_web h], rfl⟩
  | iter =>
    obtain ⟨l, h1, h2, h3⟩ := iter_web h
    exact ⟨s, some (.list l), σ, by simp [stepP, step, h1], h, l, rfl, h2, h3, rfl⟩
  | clear =>
    obtain ⟨s', h1, h2⟩ := clear_web h
    exact ⟨s', some .unit, _, by simp [stepP, step, h1], h2, rfl, rfl⟩

/-- `SkipMap` under panicking comparisons. -/
def webSim (K V : Type) [LinearOrder K] (a : Addr) :
    SL.PanicSim (panicImpl K V a) Scattered.empty Scattered.Ret Scattered.Left where
  rel := WRel
  empty := new_web a
  step _ _ op d b h := stepP_web h op d b

end Verif.Skip.Map.Torn
