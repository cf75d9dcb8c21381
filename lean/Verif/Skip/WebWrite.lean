/- `insert` and `remove` of a `SkipMap` after panics. -/
import Verif.Skip.WebOuter

namespace Verif.Skip.Map.Torn

open Verif.Spec Relation

variable {K V : Type} [LinearOrder K]

/-- The nodes of a map and its contents. -/
structure Holds (s : SkipMap K V) (A : Nat → Addr → Prop) (T U : List Addr) : Prop where
  body : Body (getLink s.mem) (entryAt s.mem) s.head A T U
  len : s.len = T.length + U.length
  bump : ∀ a, A 0 a → a < s.bump

/-- The map holds these entries. -/
def WRel (s : SkipMap K V) (σ : Scattered K V) : Prop :=
  ∃ A T U, Holds s A T U ∧ σ = ⟨ents (entryAt s.mem) T, ents (entryAt s.mem) U⟩

omit [LinearOrder K] in
theorem entryAt_of_shape_at {m m' : MHeap K V} {a : Addr} (h : shape m' a = shape m a) : entryAt m' a = entryAt m a := by
  unfold shape at h
  unfold entryAt
  cases hm : m a <;> cases hm' : m' a <;> simp_all

theorem ents_body {g : Links} {ent ent' : Addr → Option (K × V)} {head : Addr} {A : Nat → Addr → Prop} {T U : List Addr}
    (h : Body g ent head A T U) (he : ∀ a, A 0 a → ent' a = ent a) :
    ents ent' T = ents ent T ∧ ents ent' U = ents ent U :=
  ⟨ents_congr fun a ha => he a (h.memT ha).1, ents_congr fun a ha => he a (h.memU ha).1⟩

/-- The first level. -/
theorem part_start {g₀ : Links} {ent₀ : Addr → Option (K × V)} {head : Addr} {A₀ : Nat → Addr → Prop} {key : K}
    {new : Option Addr} {m : MHeap K V} (hg : getLink m = g₀) (he : entryAt m = ent₀) (hw : Web g₀ ent₀ head A₀) :
    Part g₀ ent₀ head A₀ key new maxHeight m head A₀ := by
  subst hg; subst he
  refine ⟨hw, rfl, fun _ _ _ => Iff.rfl, fun _ _ _ => rfl, hw.hd _ (Nat.le_refl _), .inl rfl, ?_, ?_⟩
  · intro x e hx
    have := hw.top hx
    omega
  · intro n _ hx
    have := hw.top hx
    omega

theorem not_sound {σ : Scattered K V} {k : K} {e : K × V} (h : e ∈ σ.lost) (hk : e.1 ≤ k) : ¬ σ.Sound k :=
  fun hs => absurd (hs e h) (not_lt.2 hk)

theorem removeP_web {s : SkipMap K V} {σ : Scattered K V} (h : WRel s σ) (key : K) (b : Nat) :
    (∃ s' j, s.removeP key b = some (s', .error j) ∧ WRel s' σ) ∨
    (∃ s' o σ', s.removeP key b = some (s', .ok o) ∧ WRel s' σ' ∧ σ.Answer key o ∧ Scattered.Swap key (Scattered.one o) 0 σ σ') := by
  classical
  obtain ⟨A₀, T, U, ⟨hb₀, hlen, hbump⟩, rfl⟩ := h
  have hs : Start (getLink s.mem) (entryAt s.mem) s.head A₀ key none :=
    ⟨by simp, by simp, by simp, by simp⟩
  have hf : (T ++ U).countP (fun a => ∃ e, entryAt s.mem a = some e ∧ e.1 < key) < s.len + 1 := by
    have := List.countP_le_length (p := fun a => decide (∃ e, entryAt s.mem a = some e ∧ e.1 < key)) (l := T ++ U)
    rw [List.length_append] at this
    omega
  have hlast : ∀ w, Mids (getLink s.mem) (entryAt s.mem) s.head A₀ key none s.len 0 w →
      ∃ w₁, removeLevel (s.len + 1) key 0 w = some w₁ ∧ ∃ s' o σ', s' = ⟨w₁.mem, s.head, w₁.len, s.bump⟩ ∧ o = w₁.ret ∧ WRel s' σ' ∧
      Scattered.Answer ⟨ents (entryAt s.mem) T, ents (entryAt s.mem) U⟩ key o ∧
      Scattered.Swap key (Scattered.one o) 0 ⟨ents (entryAt s.mem) T, ents (entryAt s.mem) U⟩ σ' := by
    rintro w ⟨⟨A, hp⟩, hr, hl⟩
    obtain ⟨m', c, l, A', T', U', w₁, k1, k2, k3, k4, k5, k6, k7, k8, k9⟩ := last_cut hs hp hb₀ _ hf hr (by omega)
    have hent : ∀ a, A' 0 a → entryAt w₁.mem a = entryAt s.mem a := fun a ha => by
      rw [entryAt_of_shape_at (k9 a ha), k1.ent]
    have hbody : Body (getLink w₁.mem) (entryAt w₁.mem) s.head A' T' U' :=
      k3.congr (fun {i a} ha => k8 a i (k3.web.zero ha)) (fun {a} ha => hent a ha)
    obtain ⟨e1, e2⟩ := ents_body k3 hent
    have hrel : WRel ⟨w₁.mem, s.head, w₁.len, s.bump⟩ ⟨ents (entryAt s.mem) T', ents (entryAt s.mem) U'⟩ := by
      refine ⟨A', T', U', ⟨hbody, k7, ?_⟩, by simp only [e1, e2]⟩
      intro a ha
      exact hbump a ((hp.low 0 (Nat.zero_le _) a).1 (k1.sub 0 a ha))
    refine ⟨w₁, k4, _, _, _, rfl, rfl, hrel, ?_⟩
    have hside := k3.side (k1.here)
    cases hret : w₁.ret with
    | none =>
      rw [hret] at k6
      obtain ⟨rfl, rfl, k6⟩ := k6
      refine ⟨⟨by simp, fun _ hsd e he => ?_⟩, .inl ⟨ents (entryAt s.mem) T', by simp [Scattered.one], by simp, rfl⟩⟩
      obtain ⟨x, hx, hxe⟩ := mem_ents.1 he
      refine k6 ?_ x hx e hxe
      refine hside.resolve_right fun hcU => ?_
      rcases k1.below with rfl | ⟨e', h1, h2⟩
      · exact (k3.memU hcU).2 rfl
      · exact absurd (hsd e' (mem_ents.2 ⟨c, hcU, h1⟩)) (not_lt.2 (le_of_lt h2))
    | some e =>
      rw [hret] at k6
      obtain ⟨r1, b, r2, -, r3⟩ := k6
      rcases r3 with ⟨_, r4, rfl⟩ | ⟨_, r4, rfl⟩
      · have hse : ents (entryAt s.mem) T = e ::ₘ ents (entryAt s.mem) T' := by rw [ents_perm r4, ents_cons r2]
        refine ⟨⟨fun x hx => ?_, by simp⟩, .inl ⟨ents (entryAt s.mem) T', ?_, by simp, rfl⟩⟩
        · obtain rfl : e = x := by simpa using hx
          exact ⟨r1, .inl (by simp [hse])⟩
        · simp [hse, Scattered.one, Multiset.singleton_add]
      · have hse : ents (entryAt s.mem) U = e ::ₘ ents (entryAt s.mem) U' := by rw [ents_perm r4, ents_cons r2]
        have hns : ¬ Scattered.Sound ⟨ents (entryAt s.mem) T', ents (entryAt s.mem) U⟩ key :=
          not_sound (e := e) (by simp [hse]) (le_of_eq r1)
        refine ⟨⟨fun x hx => ?_, by simp⟩, .inr ⟨⟨ents (entryAt s.mem) U', ?_, by simp, rfl⟩, hns⟩⟩
        · obtain rfl : e = x := by simpa using hx
          exact ⟨r1, .inr ⟨by simp [hse], hns⟩⟩
        · simp [hse, Scattered.one, Multiset.singleton_add]
  rcases downFromP_inv (body := removeLevel (s.len + 1) key) (bodyP := removeLevelP (s.len + 1) key)
    (Mids (getLink s.mem) (entryAt s.mem) s.head A₀ key none s.len)
    (fun w₁ => ∃ s' o σ', s' = ⟨w₁.mem, s.head, w₁.len, s.bump⟩ ∧ o = w₁.ret ∧ WRel s' σ' ∧
      Scattered.Answer ⟨ents (entryAt s.mem) T, ents (entryAt s.mem) U⟩ key o ∧
      Scattered.Swap key (Scattered.one o) 0 ⟨ents (entryAt s.mem) T, ents (entryAt s.mem) U⟩ σ')
    (fun i b w w₁ => removeLevelP_or i b w w₁) (fun i w hw => remove_next hs hb₀ _ hf hw) hlast maxHeight b
    ⟨s.mem, s.head, none, s.len⟩ ⟨⟨A₀, part_start rfl rfl hb₀.web⟩, rfl, rfl⟩ with ⟨j, w₁, h1, ⟨A, hp⟩, h2, h3⟩ | ⟨b', w₁, h1, h2⟩
  · left
    refine ⟨⟨w₁.mem, s.head, w₁.len, s.bump⟩, j, by simp [SkipMap.removeP, h1, Except.map], A, T, U, ⟨?_, ?_, ?_⟩, ?_⟩
    · simp only [hp.ent]; exact hp.body hb₀
    · simp only; omega
    · intro a ha; exact hbump a ((hp.low 0 (Nat.zero_le _) a).1 ha)
    · simp only [hp.ent]
  · right
    obtain ⟨s', o, σ', rfl, rfl, h3, h4, h5⟩ := h2
    exact ⟨_, w₁.ret, σ', by simp [SkipMap.removeP, h1, Except.map], h3, h4, h5⟩

/-- The memory at the start of `insert`. -/
theorem insert_start {s : SkipMap K V} {A : Nat → Addr → Prop} {T U : List Addr} (h : Holds s A T U) (key : K) (v : V)
    {nh : Nat} (hnh : nh ≤ maxHeight) (off : Nat) :
    let m := s.mem.put (s.bump + off) ⟨some (key, v), List.replicate (nh + 1) none⟩
    let A₀ := fun j a => A j a ∨ a = s.bump + off ∧ j ≤ nh
    Body (getLink m) (entryAt m) s.head A₀ T ((s.bump + off) :: U) ∧
      Start (getLink m) (entryAt m) s.head A₀ key (some (s.bump + off)) ∧ (∀ j, A₀ j (s.bump + off) ↔ j ≤ nh) ∧
      entryAt m (s.bump + off) = some (key, v) ∧ (∀ a, A 0 a → entryAt m a = entryAt s.mem a) := by
  intro m A₀
  obtain ⟨hb, hlen, hbump⟩ := h
  have hn : ¬ A 0 (s.bump + off) := fun ha => absurd (hbump _ ha) (Nat.not_lt.2 (Nat.le_add_right _ _))
  have hne : ∀ {a}, A 0 a → a ≠ s.bump + off := by rintro a ha rfl; exact hn ha
  have hent : ∀ a, A 0 a → entryAt m a = entryAt s.mem a := by
    intro a ha
    apply entryAt_of_shape_at
    rw [shape_put, if_neg (hne ha)]
  have hb1 : Body (getLink m) (entryAt m) s.head A T U :=
    hb.congr (fun {i a} ha => by rw [getLink_put, if_neg (hne (hb.web.zero ha))]) (fun {a} ha => hent a ha)
  have hnew : entryAt m (s.bump + off) = some (key, v) := by simp [m, entryAt, Heap.put]
  have hg : ∀ j ≤ nh, getLink m (s.bump + off) j = some none := by
    intro j hj
    rw [getLink_put, if_pos rfl]
    simp [List.getElem?_replicate]; omega
  have hA : ∀ j, A₀ j (s.bump + off) ↔ j ≤ nh := by
    intro j
    constructor
    · rintro (h1 | h1)
      · exact absurd (hb.web.zero h1) hn
      · exact h1.2
    · intro hj; exact .inr ⟨rfl, hj⟩
  refine ⟨hb1.add hn hnh hg ⟨_, hnew⟩, ⟨?_, ?_, ?_, ?_⟩, hA, hnew, hent⟩
  · intro n hn'
    obtain rfl : s.bump + off = n := by simpa using hn'
    exact (hne (hb.web.hd 0 (Nat.zero_le _))).symm
  · intro n hn'
    obtain rfl : s.bump + off = n := by simpa using hn'
    exact ⟨_, hnew, rfl⟩
  · intro n hn' j hj
    obtain rfl : s.bump + off = n := by simpa using hn'
    exact hg j ((hA j).1 hj)
  · intro n hn' j a ha hx
    obtain rfl : s.bump + off = n := by simpa using hn'
    rcases ha with ha | ⟨rfl, hj⟩
    · exact hn (hb1.web.zero (hb1.web.step ha hx).1)
    · unfold Nx at hx
      rw [hg j hj] at hx
      simp at hx

/-- The bottom level of `insert`, as far as the contents are concerned. -/
theorem insert_contents {ent : Addr → Option (K × V)} {head new c : Addr} {key : K} {v : V} {T U T' U' T'' U'' : List Addr}
    {o : Option (K × V)} (hent : ent new = some (key, v)) (hhU : head ∉ U)
    (hdis : ∀ a ∈ U', a ∉ head :: T') (hcn : c ≠ new) (hside : c ∈ head :: T' ∨ c ∈ U')
    (hbel : c = head ∨ ∃ e, ent c = some e ∧ e.1 < key)
    (hr : Removed ent head key (some new) c T (new :: U) T' U' o)
    (hp : (c ∈ head :: T' ∧ T''.Perm (new :: T') ∧ U'.Perm (new :: U'')) ∨ (c ∈ U' ∧ T'' = T' ∧ U'' = U')) :
    Scattered.Answer ⟨ents ent T, ents ent U⟩ key o ∧
      Scattered.Swap key (Scattered.one o) {(key, v)} ⟨ents ent T, ents ent U⟩ ⟨ents ent T'', ents ent U''⟩ := by
  have hlow : c ∈ U → ¬ Scattered.Sound ⟨ents ent T, ents ent U⟩ key := by
    intro hc hsd
    rcases hbel with rfl | ⟨e', h1, h2⟩
    · exact hhU hc
    · exact absurd (hsd e' (mem_ents.2 ⟨c, hc, h1⟩)) (not_lt.2 (le_of_lt h2))
  cases o with
  | none =>
    obtain ⟨rfl, rfl, hno⟩ := hr
    refine ⟨⟨by simp, fun _ hsd e he => ?_⟩, ?_⟩
    · obtain ⟨x, hx, hxe⟩ := mem_ents.1 he
      refine hno ?_ x hx e hxe
      refine hside.resolve_right fun hcU => ?_
      exact hlow ((List.mem_cons.1 hcU).resolve_left hcn) hsd
    · rcases hp with ⟨_, p1, p2⟩ | ⟨p0, rfl, rfl⟩
      · refine .inl ⟨ents ent T', by simp [Scattered.one], ?_, ?_⟩
        · simp [ents_perm p1, ents_cons hent, Multiset.singleton_add]
        · simp only
          exact ents_perm ((List.perm_cons new).1 p2).symm
      · refine .inr ⟨⟨ents ent U, by simp [Scattered.one], ?_, rfl⟩, hlow ((List.mem_cons.1 p0).resolve_left hcn)⟩
        simp [ents_cons hent, Multiset.singleton_add]
  | some e =>
    obtain ⟨r1, b, r2, r3, r4⟩ := hr
    have hbn : b ≠ new := fun q => r3 (by rw [q])
    rcases r4 with ⟨q1, q2, rfl⟩ | ⟨q1, q2, rfl⟩
    · have hse : ents ent T = e ::ₘ ents ent T' := by rw [ents_perm q2, ents_cons r2]
      refine ⟨⟨fun x hx => ?_, by simp⟩, ?_⟩
      · obtain rfl : e = x := by simpa using hx
        exact ⟨r1, .inl (by simp [hse])⟩
      · rcases hp with ⟨_, p1, p2⟩ | ⟨p0, _, _⟩
        · refine .inl ⟨ents ent T', by simp [hse, Scattered.one, Multiset.singleton_add], ?_, ?_⟩
          · simp [ents_perm p1, ents_cons hent, Multiset.singleton_add]
          · simp only
            exact ents_perm ((List.perm_cons new).1 p2).symm
        · exact absurd q1 (hdis c p0)
    · have hnU : new ∈ U' := by
        have : new ∈ b :: U' := q2.mem_iff.1 (by simp)
        exact (List.mem_cons.1 this).resolve_left (Ne.symm hbn)
      obtain ⟨X, Y, rfl⟩ := List.append_of_mem hnU
      have hp2 : U.Perm (b :: (X ++ Y)) := by
        refine (List.perm_cons new).1 (q2.trans ?_)
        exact (List.perm_middle.cons b).trans (List.Perm.swap _ _ _)
      have hse : ents ent U = e ::ₘ ents ent (X ++ Y) := by rw [ents_perm hp2, ents_cons r2]
      have hns : ¬ Scattered.Sound ⟨ents ent T', ents ent U⟩ key :=
        not_sound (e := e) (by simp [hse]) (le_of_eq r1)
      refine ⟨⟨fun x hx => ?_, by simp⟩, ?_⟩
      · obtain rfl : e = x := by simpa using hx
        exact ⟨r1, .inr ⟨by simp [hse], hns⟩⟩
      · rcases hp with ⟨p0, _, _⟩ | ⟨_, rfl, rfl⟩
        · exact absurd p0 (hdis c q1)
        · refine .inr ⟨⟨ents ent (X ++ Y), by simp [hse, Scattered.one, Multiset.singleton_add], ?_, rfl⟩, hns⟩
          simp [ents_perm (ent := ent) (List.perm_middle (a := new) (l₁ := X) (l₂ := Y)), ents_cons hent, Multiset.singleton_add]

theorem insertP_web {s : SkipMap K V} {σ : Scattered K V} (h : WRel s σ) (key : K) (v : V) {nh : Nat}
    (hnh : nh ≤ maxHeight) (off b : Nat) :
    (∃ s' j, s.insertP key v nh off b = some (s', .error j) ∧ WRel s' ⟨σ.seen, (key, v) ::ₘ σ.lost⟩) ∨
    (∃ s' o σ', s.insertP key v nh off b = some (s', .ok o) ∧ WRel s' σ' ∧ σ.Answer key o ∧
      Scattered.Swap key (Scattered.one o) {(key, v)} σ σ') := by
  classical
  obtain ⟨A, T, U, hh, rfl⟩ := h
  obtain ⟨hb₀, hs, hA₀, hnew, hold⟩ := insert_start hh key v hnh off
  obtain ⟨hb, hlen, hbump⟩ := hh
  obtain ⟨o1, o2⟩ := ents_body hb hold
  rw [← o1, ← o2]
  have hhU : s.head ∉ U := fun q => (hb.memU q).2 rfl
  generalize hm₀ : s.mem.put (s.bump + off) ⟨some (key, v), List.replicate (nh + 1) none⟩ = m₀ at *
  generalize hA : (fun j a => A j a ∨ a = s.bump + off ∧ j ≤ nh) = A₀ at *
  have hbump' : ∀ a, A₀ 0 a → a < s.bump + off + 1 := by
    intro a ha
    rw [← hA] at ha
    rcases ha with ha | ⟨rfl, -⟩
    · exact Nat.lt_of_lt_of_le (hbump a ha) (by omega)
    · exact Nat.lt_succ_self _
  have hf : (T ++ (s.bump + off) :: U).countP (fun a => ∃ e, entryAt m₀ a = some e ∧ e.1 < key) < s.len + 1 := by
    rw [List.countP_append, List.countP_cons_of_neg (by simp [hnew])]
    have h1 := List.countP_le_length (p := fun a => decide (∃ e, entryAt m₀ a = some e ∧ e.1 < key)) (l := T)
    have h2 := List.countP_le_length (p := fun a => decide (∃ e, entryAt m₀ a = some e ∧ e.1 < key)) (l := U)
    omega
  have hlast : ∀ w, Mids (getLink m₀) (entryAt m₀) s.head A₀ key (some (s.bump + off)) (s.len + 1) 0 w →
      ∃ w₁, insertLevel (s.len + 1) (s.bump + off) nh key 0 w = some w₁ ∧ ∃ s' o σ',
        s' = ⟨w₁.mem, s.head, w₁.len, s.bump + off + 1⟩ ∧ o = w₁.ret ∧ WRel s' σ' ∧
        Scattered.Answer ⟨ents (entryAt m₀) T, ents (entryAt m₀) U⟩ key o ∧
        Scattered.Swap key (Scattered.one o) {(key, v)} ⟨ents (entryAt m₀) T, ents (entryAt m₀) U⟩ σ' := by
    rintro w ⟨⟨A, hp⟩, hr, hl⟩
    obtain ⟨m', c, l, A', T', U', w₁, k1, k2, k3, k4, k5, k6, k7, k8, k9⟩ := last_cut hs hp hb₀ _ hf hr (by
      rw [List.length_cons]; omega)
    have hA0 : A 0 (s.bump + off) := (hp.low 0 (Nat.le_refl _) _).2 ((hA₀ 0).2 (Nat.zero_le _))
    have hA0' : A' 0 (s.bump + off) := (k1.new_same _ rfl).2 hA0
    obtain ⟨m₁, m₂, s1, s2, s3, s4, s5, s6⟩ := k1.linked hs hp hA0
    have hnU' : s.bump + off ∈ U' := by
      refine (k3.side hA0').resolve_left fun q => ?_
      obtain ⟨x, hx, h2⟩ := k3.chn.pred ((List.mem_cons.1 q).resolve_left (hs.ne _ rfl))
      refine (k1.new_free _ rfl hA0).2 x ((k3.cover x).2 ?_) h2
      rcases List.mem_cons.1 hx with h3 | h3
      · exact .inl h3
      · exact .inr (.inl h3)
    rw [s5] at s6
    obtain ⟨T'', U'', hb2, hcase⟩ := k3.put k1.here k1.link hnU' s6
    rw [← s5] at hb2
    have hc1 : getLink w₁.mem c 0 = some l := by rw [k8 c 0 k1.here]; exact k1.link
    obtain ⟨n₁, t1, t2, t3⟩ := setLink_web hc1 (some (s.bump + off))
    have hc2 : getLink n₁ (s.bump + off) 0 = some none := by
      rw [t2, relinked_other (fun q => s4 q.1.symm), k8 _ 0 hA0']
      exact (k1.new_free _ rfl hA0).1
    obtain ⟨n₂, u1, u2, u3⟩ := setLink_web hc2 l
    have hent : ∀ a, A' 0 a → entryAt n₂ a = entryAt m₀ a := fun a ha => by
      rw [entryAt_of_shape_at (m := m') (by rw [u3, t3, k9 a ha]), k1.ent]
    have hbody : Body (getLink n₂) (entryAt n₂) s.head A' T'' U'' := by
      refine hb2.congr (fun {i a} ha => ?_) (fun {a} ha => hent a ha)
      rw [u2, t2, s5]
      simp only [relinked]
      split
      · rfl
      · split
        · rfl
        · exact k8 a i (k3.web.zero ha)
    obtain ⟨e1, e2⟩ := ents_body hb2 hent
    have hcont := insert_contents (ent := entryAt m₀) (T'' := T'') (U'' := U'') hnew hhU (fun a ha => k3.disjoint ha) s4
      (k3.side k1.here) k1.below k6 hcase
    refine ⟨{ w₁ with mem := n₂ }, ?_, _, _, ⟨ents (entryAt m₀) T'', ents (entryAt m₀) U''⟩, rfl, rfl,
      ⟨A', T'', U'', ⟨hbody, ?_, ?_⟩, ?_⟩, hcont.1, hcont.2⟩
    · rw [insertLevel_eq, k4]
      simp [linkNew, k5, hc1, t1, u1]
    · simp only [k7]
      rcases hcase with ⟨_, p1, p2⟩ | ⟨_, rfl, rfl⟩
      · rw [p1.length_eq, p2.length_eq]; simp only [List.length_cons]; omega
      · rfl
    · intro a ha
      exact hbump' a ((hp.low 0 (Nat.zero_le _) a).1 (k1.sub 0 a ha))
    · simp only [e1, e2]
  rcases downFromP_inv (body := insertLevel (s.len + 1) (s.bump + off) nh key)
    (bodyP := insertLevelP (s.len + 1) (s.bump + off) nh key)
    (Mids (getLink m₀) (entryAt m₀) s.head A₀ key (some (s.bump + off)) (s.len + 1)) _
    (fun i b w w₁ => insertLevelP_or i b w w₁) (fun i w hw => insert_next hs hA₀ hb₀ _ hf hw) hlast maxHeight b
    ⟨m₀, s.head, none, s.len + 1⟩ ⟨⟨A₀, part_start rfl rfl hb₀.web⟩, rfl, rfl⟩ with ⟨j, w₁, h1, ⟨A, hp⟩, h2, h3⟩ | ⟨b', w₁, h1, h2⟩
  · left
    refine ⟨⟨w₁.mem, s.head, w₁.len, s.bump + off + 1⟩, j, by simp [SkipMap.insertP, hm₀, h1, Except.map], A, T,
      (s.bump + off) :: U, ⟨?_, ?_, ?_⟩, ?_⟩
    · simp only [hp.ent]; exact hp.body hb₀
    · simp only [List.length_cons]; omega
    · intro a ha; exact hbump' a ((hp.low 0 (Nat.zero_le _) a).1 ha)
    · simp only [hp.ent, ents_cons hnew]
  · right
    obtain ⟨s', o, σ', rfl, rfl, h3, h4, h5⟩ := h2
    exact ⟨_, w₁.ret, σ', by simp [SkipMap.insertP, hm₀, h1, Except.map], h3, h4, h5⟩

end Verif.Skip.Map.Torn
