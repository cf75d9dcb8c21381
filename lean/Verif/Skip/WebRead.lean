/- The other calls of a `SkipMap` after panics. -/
import Verif.Skip.WebWrite

namespace Verif.Skip.Map.Torn

open Verif.Spec Relation

variable {K V : Type} [LinearOrder K]

omit [LinearOrder K] in
theorem length_lt {T U : List Addr} (p : Addr → Prop) [DecidablePred p] {n : Nat} (h : n = T.length + U.length) :
    (T ++ U).countP p < n + 1 := by
  have := List.countP_le_length (p := fun a => decide (p a)) (l := T ++ U)
  rw [List.length_append] at this
  omega

/-- The descents of `floor`, `ceil` and `max`. -/
theorem descend_web {m : MHeap K V} {head : Addr} {A : Nat → Addr → Prop} {T U : List Addr}
    (h : Body (getLink m) (entryAt m) head A T U) (p : K × V → Bool) {n : Nat} (hn : n = T.length + U.length) (i : Nat)
    (cur : Addr) (hc : A i cur) (hcur : cur = head ∨ ∃ e, entryAt m cur = some e ∧ p e = true) :
    ∃ c nxt, descend m p (n + 1) i cur = some (c, nxt) ∧ A 0 c ∧ getLink m c 0 = some nxt ∧
      (c = head ∨ ∃ e, entryAt m c = some e ∧ p e = true) ∧
      ∀ b, nxt = some b → A 0 b ∧ b ≠ head ∧ ∃ e, entryAt m b = some e ∧ p e = false := by
  classical
  have hL : ∀ a, A 0 a → a = head ∨ a ∈ T ++ U := fun a ha => by have := (h.cover a).1 ha; simpa using this
  induction i generalizing cur with
  | zero =>
    obtain ⟨c, nxt, w1, w2, w3, w4, w5, w6⟩ := walk_web h.web (T ++ U) hL p 0 (n + 1) cur hc (length_lt _ hn)
    refine ⟨c, nxt, w1, w3, w4, ?_, w6⟩
    rcases w5 with rfl | ⟨_, h1⟩
    · exact hcur
    · exact .inr h1
  | succ i ih =>
    obtain ⟨c, nxt, w1, w2, w3, w4, w5, w6⟩ := walk_web h.web (T ++ U) hL p (i + 1) (n + 1) cur hc (length_lt _ hn)
    obtain ⟨c', nxt', r1, r2⟩ := ih c (h.web.down w3) (by
      rcases w5 with rfl | ⟨_, h1⟩
      · exact hcur
      · exact .inr h1)
    exact ⟨c', nxt', by simp only [descend, w1]; exact r1, r2⟩

/-- The search of `get` and `get_mut`. -/
theorem lookup_web {m : MHeap K V} {head : Addr} {A : Nat → Addr → Prop} {T U : List Addr}
    (h : Body (getLink m) (entryAt m) head A T U) (key : K) {n : Nat} (hn : n = T.length + U.length) (i : Nat)
    (cur : Addr) (hc : A i cur) (hcur : cur = head ∨ ∃ e, entryAt m cur = some e ∧ e.1 < key) :
    (∃ b e, lookup m key (n + 1) i cur = some (some b) ∧ (b ∈ T ∨ b ∈ U) ∧ entryAt m b = some e ∧ e.1 = key) ∨
    (lookup m key (n + 1) i cur = some none ∧ ((∀ e ∈ ents (entryAt m) U, key < e.1) → ∀ e ∈ ents (entryAt m) T, e.1 ≠ key)) := by
  classical
  have hL : ∀ a, A 0 a → a = head ∨ a ∈ T ++ U := fun a ha => by have := (h.cover a).1 ha; simpa using this
  induction i generalizing cur with
  | zero =>
    obtain ⟨c, nxt, w1, w2, w3, w4, w5, w6⟩ :=
      walk_web h.web (T ++ U) hL (fun e => decide (e.1 < key)) 0 (n + 1) cur hc (length_lt _ hn)
    have hbel : c = head ∨ ∃ e, entryAt m c = some e ∧ e.1 < key := by
      rcases w5 with rfl | ⟨_, e, h1, h2⟩
      · exact hcur
      · exact .inr ⟨e, h1, by simpa using h2⟩
    have fin : (∀ b, nxt = some b → ∃ e, entryAt m b = some e ∧ key < e.1) →
        (∀ e ∈ ents (entryAt m) U, key < e.1) → ∀ e ∈ ents (entryAt m) T, e.1 ≠ key := by
      intro haft hsd e he
      obtain ⟨x, hx, hxe⟩ := mem_ents.1 he
      refine h.miss w4 hbel haft ?_ x hx e hxe
      refine (h.side w3).resolve_right fun hcU => ?_
      rcases hbel with rfl | ⟨e', h1, h2⟩
      · exact (h.memU hcU).2 rfl
      · exact absurd (hsd e' (mem_ents.2 ⟨c, hcU, h1⟩)) (not_lt.2 (le_of_lt h2))
    rw [lookup.eq_def]
    simp only [w1]
    cases hx : nxt with
    | none =>
      right
      exact ⟨by simp [hit], fin (by simp [hx])⟩
    | some b =>
      obtain ⟨b1, b2, e, b3, b4⟩ := w6 b hx
      by_cases hk : e.1 = key
      · left
        refine ⟨b, e, by simp [hit, b3, hk], ?_, b3, hk⟩
        have := (h.cover b).1 b1
        tauto
      · right
        refine ⟨by simp [hit, b3, hk], fin fun b' hb' => ?_⟩
        obtain rfl : b = b' := by rw [hx] at hb'; simpa using hb'
        exact ⟨e, b3, lt_of_le_of_ne (by simpa using b4) (Ne.symm hk)⟩
  | succ i ih =>
    obtain ⟨c, nxt, w1, w2, w3, w4, w5, w6⟩ :=
      walk_web h.web (T ++ U) hL (fun e => decide (e.1 < key)) (i + 1) (n + 1) cur hc (length_lt _ hn)
    have hbel : c = head ∨ ∃ e, entryAt m c = some e ∧ e.1 < key := by
      rcases w5 with rfl | ⟨_, e, h1, h2⟩
      · exact hcur
      · exact .inr ⟨e, h1, by simpa using h2⟩
    have ih' := ih c (h.web.down w3) hbel
    rw [lookup.eq_def]
    simp only [w1]
    cases hx : nxt with
    | none => simpa [hit] using ih'
    | some b =>
      obtain ⟨b1, b2, e, b3, b4⟩ := w6 b hx
      by_cases hk : e.1 = key
      · left
        refine ⟨b, e, by simp [hit, b3, hk], ?_, b3, hk⟩
        have := (h.cover b).1 (h.web.zero b1)
        tauto
      · simpa [hit, b3, hk] using ih'

theorem head_at {s : SkipMap K V} {A : Nat → Addr → Prop} {T U : List Addr} (h : Holds s A T U) :
    A (startHeight s.len) s.head := h.body.web.hd _ (startHeight_le _)

/-- What `lookup` finds is an answer. -/
theorem answer_hit {ent : Addr → Option (K × V)} {T U : List Addr} {key : K} {b : Addr} {e : K × V}
    (hb : b ∈ T ∨ b ∈ U) (he : ent b = some e) (hk : e.1 = key) :
    Scattered.Answer ⟨ents ent T, ents ent U⟩ key (some e) := by
  refine ⟨fun x hx => ?_, by simp⟩
  obtain rfl : e = x := by simpa using hx
  refine ⟨hk, ?_⟩
  rcases hb with hb | hb
  · exact .inl (mem_ents.2 ⟨b, hb, he⟩)
  · have hm : e ∈ ents ent U := mem_ents.2 ⟨b, hb, he⟩
    exact .inr ⟨hm, not_sound (σ := ⟨ents ent T, ents ent U⟩) hm (le_of_eq hk)⟩

theorem getP_web {s : SkipMap K V} {σ : Scattered K V} (h : WRel s σ) (key : K) (b : Nat) :
    s.getP key b = some none ∨ ∃ o, s.getP key b = some (some o) ∧ σ.Answer key o := by
  obtain ⟨A, T, U, hh, rfl⟩ := h
  rcases lookup_web hh.body key hh.len (startHeight s.len) s.head (head_at hh) (.inl rfl) with
    ⟨a, e, h1, h2, h3, h4⟩ | ⟨h1, h2⟩
  · rcases lookupP_or b h1 with h5 | h5
    · left; simp [SkipMap.getP, h5]
    · right; exact ⟨some e, by simp [SkipMap.getP, h5, h3], answer_hit h2 h3 h4⟩
  · rcases lookupP_or b h1 with h5 | h5
    · left; simp [SkipMap.getP, h5]
    · right; exact ⟨none, by simp [SkipMap.getP, h5], by simp, fun _ => h2⟩

/-- Other values, the same keys. -/
theorem Body.values {g : Links} {ent : Addr → Option (K × V)} {head : Addr} {A : Nat → Addr → Prop} {T U : List Addr}
    (h : Body g ent head A T U) {ent' : Addr → Option (K × V)} (he : ∀ a, (ent' a).map (·.1) = (ent a).map (·.1)) :
    Body g ent' head A T U := by
  have he' : ∀ {a e}, ent a = some e → ∃ e', ent' a = some e' ∧ e'.1 = e.1 := by
    intro a e hae
    have := he a
    rw [hae] at this
    simpa using this
  refine h.frame { h.web with some_ent := ?_, no_ent := ?_, asc := ?_ } (fun _ => Iff.rfl) fun _ _ => rfl
  · intro a ha hn
    obtain ⟨e, h1⟩ := h.web.some_ent ha hn
    obtain ⟨e', h2, _⟩ := he' h1
    exact ⟨e', h2⟩
  · have := he head
    rw [h.web.no_ent] at this
    simpa using this
  · intro i a b ha hn hx
    obtain ⟨x, y, h1, h2, h3⟩ := h.web.asc ha hn hx
    obtain ⟨x', h4, h5⟩ := he' h1
    obtain ⟨y', h6, h7⟩ := he' h2
    exact ⟨x', y', h4, h6, by rw [h5, h7]; exact h3⟩

omit [LinearOrder K] in
theorem ents_swap {ent ent' : Addr → Option (K × V)} {b : Addr} {e e' : K × V} (hb : ent b = some e) (hb' : ent' b = some e')
    (ho : ∀ a, a ≠ b → ent' a = ent a) {L : List Addr} (hn : L.Nodup) (hm : b ∈ L) :
    ∃ rest, ents ent L = e ::ₘ rest ∧ ents ent' L = e' ::ₘ rest := by
  obtain ⟨X, Y, rfl⟩ := List.append_of_mem hm
  have hn' : (b :: (X ++ Y)).Nodup := (List.perm_middle.nodup_iff).1 hn
  refine ⟨ents ent (X ++ Y), ?_, ?_⟩
  · rw [ents_perm List.perm_middle, ents_cons hb]
  · rw [ents_perm List.perm_middle, ents_cons hb', ents_congr (ent := ent) fun a ha => ho a (by
      rintro rfl; exact (List.nodup_cons.1 hn').1 ha)]

theorem getMutP_web {s : SkipMap K V} {σ : Scattered K V} (h : WRel s σ) (key : K) (f : V → V) (b : Nat) :
    s.getMutP key f b = some (s, none) ∨ ∃ s' o σ', s.getMutP key f b = some (s', some o) ∧ WRel s' σ' ∧ σ.Answer key o ∧
      Scattered.Swap key (Scattered.one o) (Scattered.one (o.map fun e => (e.1, f e.2))) σ σ' := by
  obtain ⟨A, T, U, hh, rfl⟩ := h
  rcases lookup_web hh.body key hh.len (startHeight s.len) s.head (head_at hh) (.inl rfl) with
    ⟨a, e, h1, h2, h3, h4⟩ | ⟨h1, h2⟩
  · rcases lookupP_or b h1 with h5 | h5
    · left; simp [SkipMap.getMutP, h5]
    · right
      have h3' := h3
      unfold entryAt at h3
      cases hm : s.mem a with
      | none => simp [hm] at h3
      | some n =>
        obtain ⟨en, ls⟩ := n
        simp only [hm] at h3
        subst h3
        have hg : getLink (s.mem.put a ⟨some (e.1, f e.2), ls⟩) = getLink s.mem := by
          funext x j
          rw [getLink_put]
          split
          · rename_i hx; subst hx; simp [getLink, hm]
          · rfl
        have hother : ∀ x, x ≠ a → entryAt (s.mem.put a ⟨some (e.1, f e.2), ls⟩) x = entryAt s.mem x := by
          intro x hx; simp [entryAt, Heap.put, hx]
        have hat : entryAt (s.mem.put a ⟨some (e.1, f e.2), ls⟩) a = some (e.1, f e.2) := by simp [entryAt, Heap.put]
        have hb : Body (getLink (s.mem.put a ⟨some (e.1, f e.2), ls⟩)) (entryAt (s.mem.put a ⟨some (e.1, f e.2), ls⟩))
            s.head A T U := by
          rw [hg]
          refine hh.body.values fun x => ?_
          by_cases hx : x = a
          · subst hx; rw [hat, h3']; rfl
          · rw [hother x hx]
        have hnd := (List.nodup_cons.1 hh.body.nodup).2
        refine ⟨{ s with mem := s.mem.put a ⟨some (e.1, f e.2), ls⟩ }, some e, _, by simp [SkipMap.getMutP, h5, modifyAt, hm],
          ⟨A, T, U, ⟨hb, hh.len, hh.bump⟩, rfl⟩, answer_hit h2 h3' h4, ?_⟩
        rcases h2 with h2 | h2
        · obtain ⟨rest, r1, r2⟩ := ents_swap h3' hat hother (hnd.sublist (List.sublist_append_left _ _)) h2
          refine .inl ⟨rest, by simp [r1, Scattered.one, Multiset.singleton_add],
            by simp [r2, Scattered.one, Multiset.singleton_add], ?_⟩
          refine ents_congr fun x hx => hother x ?_
          rintro rfl
          exact (hh.body.disjoint hx) (List.mem_cons_of_mem _ h2)
        · obtain ⟨rest, r1, r2⟩ := ents_swap h3' hat hother (hnd.sublist (List.sublist_append_right _ _)) h2
          refine .inr ⟨⟨rest, by simp [r1, Scattered.one, Multiset.singleton_add],
            by simp [r2, Scattered.one, Multiset.singleton_add], ?_⟩, not_sound (e := e) (by simp [r1]) (le_of_eq h4)⟩
          refine ents_congr fun x hx => hother x ?_
          rintro rfl
          exact (hh.body.disjoint h2) (List.mem_cons_of_mem _ hx)
  · rcases lookupP_or b h1 with h5 | h5
    · left; simp [SkipMap.getMutP, h5]
    · right
      exact ⟨s, none, _, by simp [SkipMap.getMutP, h5], ⟨A, T, U, hh, rfl⟩, ⟨by simp, fun _ => h2⟩,
        .inl ⟨ents (entryAt s.mem) T, by simp [Scattered.one], by simp [Scattered.one], rfl⟩⟩

end Verif.Skip.Map.Torn
