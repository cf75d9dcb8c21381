/- The contents of a `SkipMap` on the links of a `Web`: what iteration shows, and what it does not show. -/
import Verif.Skip.WebLevels
import Verif.Spec.Scattered

namespace Verif.Skip.Map.Torn

open Verif.Spec Relation

variable {K V : Type}

/-- The nodes after `a` at the bottom level. -/
def Chn (g : Links) : Addr → List Addr → Prop
  | a, [] => g a 0 = some none
  | a, b :: T => g a 0 = some (some b) ∧ Chn g b T

theorem Chn.frame {g g' : Links} {a : Addr} {T : List Addr} (h : Chn g a T) (hg : ∀ x ∈ a :: T, g' x 0 = g x 0) :
    Chn g' a T := by
  induction T generalizing a with
  | nil => simp only [Chn] at h ⊢; rw [hg a (by simp)]; exact h
  | cons b T ih =>
    obtain ⟨h1, h2⟩ := h
    refine ⟨by rw [hg a (by simp)]; exact h1, ih h2 fun x hx => hg x (List.mem_cons_of_mem _ hx)⟩

theorem Chn.pred {g : Links} {a : Addr} {T : List Addr} (h : Chn g a T) {b : Addr} (hb : b ∈ T) :
    ∃ x ∈ a :: T, Nx g 0 x b := by
  induction T generalizing a with
  | nil => simp at hb
  | cons c T ih =>
    obtain ⟨h1, h2⟩ := h
    rcases List.mem_cons.1 hb with rfl | hb
    · exact ⟨a, by simp, h1⟩
    · obtain ⟨x, hx, h3⟩ := ih h2 hb
      exact ⟨x, List.mem_cons_of_mem _ hx, h3⟩

theorem Chn.path {g : Links} {a : Addr} {T : List Addr} (h : Chn g a T) {b : Addr} (hb : b ∈ T) : Path g 0 a b := by
  induction T generalizing a with
  | nil => simp at hb
  | cons c T ih =>
    obtain ⟨h1, h2⟩ := h
    rcases List.mem_cons.1 hb with rfl | hb
    · exact .single h1
    · exact .head h1 (ih h2 hb)

theorem Chn.pairwise {g : Links} {a : Addr} {T : List Addr} (h : Chn g a T) : T.Pairwise (Path g 0) := by
  induction T generalizing a with
  | nil => exact .nil
  | cons c T ih => exact List.pairwise_cons.2 ⟨fun b hb => h.2.path hb, ih h.2⟩

/-- The successor of a shown node is shown. -/
theorem Chn.next {g : Links} {a : Addr} {T : List Addr} (h : Chn g a T) {c b : Addr} (hc : c ∈ a :: T)
    (hb : Nx g 0 c b) : b ∈ T := by
  induction T generalizing a with
  | nil =>
    obtain rfl : c = a := by simpa using hc
    unfold Nx at hb
    rw [show g c 0 = some none from h] at hb
    simp at hb
  | cons d T ih =>
    rcases List.mem_cons.1 hc with rfl | hc
    · have : d = b := nx_fun h.1 hb
      simp [this]
    · exact List.mem_cons_of_mem _ (ih h.2 hc)

theorem Chn.cut {g : Links} {a : Addr} {T : List Addr} (h : Chn g a T) (hn : (a :: T).Nodup) {c b : Addr}
    {l : Option Addr} (hc : c ∈ a :: T) (hb : Nx g 0 c b) (hl : g b 0 = some l) :
    ∃ T', Chn (relinked g c 0 l) a T' ∧ T.Perm (b :: T') ∧ c ∈ a :: T' := by
  induction T generalizing a with
  | nil =>
    obtain rfl : c = a := by simpa using hc
    unfold Nx at hb
    rw [show g c 0 = some none from h] at hb
    simp at hb
  | cons d T ih =>
    obtain ⟨h1, h2⟩ := h
    by_cases hac : c = a
    · subst hac
      obtain rfl : d = b := by unfold Nx at hb; rw [h1] at hb; simpa using hb
      have hnc : c ∉ d :: T := (List.nodup_cons.1 hn).1
      refine ⟨T, ?_, .refl _, by simp⟩
      cases T with
      | nil =>
        have h3 : g d 0 = some none := h2
        rw [h3] at hl
        simp only [Chn, relinked, and_self, if_true]
        rw [hl]
      | cons x T =>
        obtain ⟨h3, h4⟩ := h2
        rw [h3] at hl
        refine ⟨by simp only [relinked, and_self, if_true]; rw [hl], h4.frame fun y hy => ?_⟩
        rw [relinked_other]
        rintro ⟨rfl, -⟩
        exact hnc (List.mem_cons_of_mem _ hy)
    · obtain ⟨T', i1, i2, i3⟩ := ih h2 (List.nodup_cons.1 hn).2 ((List.mem_cons.1 hc).resolve_left hac)
      refine ⟨d :: T', ⟨by rw [relinked_other (fun q => hac q.1.symm)]; exact h1, i1⟩, ?_, List.mem_cons_of_mem _ i3⟩
      exact (i2.cons d).trans (List.Perm.swap _ _ _)

theorem Chn.put {g : Links} {a : Addr} {T : List Addr} (h : Chn g a T) (hn : (a :: T).Nodup) {c new : Addr}
    {l : Option Addr} (hc : c ∈ a :: T) (hl : g c 0 = some l) (hnew : new ∉ a :: T) :
    ∃ T', Chn (relinked (relinked g c 0 (some new)) new 0 l) a T' ∧ T'.Perm (new :: T) := by
  induction T generalizing a with
  | nil =>
    obtain rfl : c = a := by simpa using hc
    have h1 : g c 0 = some none := h
    have hcn : c ≠ new := by rintro rfl; simp at hnew
    rw [h1] at hl
    refine ⟨[new], ⟨by simp [relinked, hcn], by simp only [Chn, relinked, and_self, if_true]; rw [hl]⟩, .refl _⟩
  | cons d T ih =>
    obtain ⟨h1, h2⟩ := h
    by_cases hac : c = a
    · subst hac
      have hcn : c ≠ new := by rintro rfl; simp at hnew
      have hnc : c ∉ d :: T := (List.nodup_cons.1 hn).1
      rw [h1] at hl
      refine ⟨new :: d :: T, ⟨by simp [relinked, hcn], by simp only [relinked, and_self, if_true]; rw [hl], h2.frame fun y hy => ?_⟩,
        .refl _⟩
      rw [relinked_other, relinked_other]
      · rintro ⟨rfl, -⟩; exact hnc hy
      · rintro ⟨rfl, -⟩; exact hnew (List.mem_cons_of_mem _ hy)
    · obtain ⟨T', i1, i2⟩ := ih h2 (List.nodup_cons.1 hn).2 ((List.mem_cons.1 hc).resolve_left hac)
        (fun q => hnew (List.mem_cons_of_mem _ q))
      have han : a ≠ new := by rintro rfl; simp at hnew
      refine ⟨d :: T', ⟨?_, i1⟩, (i2.cons d).trans (List.Perm.swap _ _ _)⟩
      rw [relinked_other (fun q => han q.1), relinked_other (fun q => hac q.1.symm)]
      exact h1

variable [LinearOrder K]

/-- The nodes of the map: those of the bottom level, which iteration shows, and others. -/
structure Body (g : Links) (ent : Addr → Option (K × V)) (head : Addr) (A : Nat → Addr → Prop) (T U : List Addr) :
    Prop where
  web : Web g ent head A
  cover : ∀ a, A 0 a ↔ a = head ∨ a ∈ T ∨ a ∈ U
  nodup : (head :: (T ++ U)).Nodup
  chn : Chn g head T

namespace Body

variable {g : Links} {ent : Addr → Option (K × V)} {head : Addr} {A : Nat → Addr → Prop} {T U : List Addr}

theorem nodupT (h : Body g ent head A T U) : (head :: T).Nodup :=
  h.nodup.sublist (List.Sublist.cons_cons _ (List.sublist_append_left _ _))

theorem disjoint (h : Body g ent head A T U) {a : Addr} (hU : a ∈ U) : a ∉ head :: T := by
  have h1 := h.nodup
  rw [← List.cons_append] at h1
  intro hT
  exact (List.disjoint_of_nodup_append h1) hT hU

theorem side (h : Body g ent head A T U) {a : Addr} (ha : A 0 a) : a ∈ head :: T ∨ a ∈ U := by
  rcases (h.cover a).1 ha with h1 | h1 | h1
  · exact .inl (by simp [h1])
  · exact .inl (List.mem_cons_of_mem _ h1)
  · exact .inr h1

theorem memT (h : Body g ent head A T U) {a : Addr} (ha : a ∈ T) : A 0 a ∧ a ≠ head := by
  refine ⟨(h.cover a).2 (.inr (.inl ha)), ?_⟩
  rintro rfl
  exact (List.nodup_cons.1 h.nodupT).1 ha

theorem memU (h : Body g ent head A T U) {a : Addr} (ha : a ∈ U) : A 0 a ∧ a ≠ head := by
  refine ⟨(h.cover a).2 (.inr (.inr ha)), ?_⟩
  rintro rfl
  exact h.disjoint ha (by simp)

/-- Only the bottom links of the nodes that iteration shows matter. -/
theorem frame (h : Body g ent head A T U) {g' : Links} {ent' : Addr → Option (K × V)} {A' : Nat → Addr → Prop}
    (hw : Web g' ent' head A') (hA : ∀ a, A' 0 a ↔ A 0 a) (hg : ∀ a ∈ head :: T, g' a 0 = g a 0) :
    Body g' ent' head A' T U :=
  ⟨hw, fun a => (hA a).trans (h.cover a), h.nodup, h.chn.frame hg⟩

/-- A node is unlinked at the bottom level. -/
theorem cut (h : Body g ent head A T U) {c b : Addr} {l : Option Addr} (hc : A 0 c) (hb : Nx g 0 c b)
    (hl : g b 0 = some l) (hw : Web (relinked g c 0 l) ent head (without A 0 b)) :
    ∃ T' U', Body (relinked g c 0 l) ent head (without A 0 b) T' U' ∧
      ((c ∈ head :: T ∧ T.Perm (b :: T') ∧ U' = U ∧ c ∈ head :: T') ∨ (c ∈ U ∧ U.Perm (b :: U') ∧ T' = T ∧ c ∈ U')) := by
  have hbA := h.web.step hc hb
  have hcb : c ≠ b := by
    rintro rfl
    exact h.web.path_irrefl hc (.single hb)
  have mk : ∀ T' U', (T ++ U).Perm (b :: (T' ++ U')) → Chn (relinked g c 0 l) head T' →
      Body (relinked g c 0 l) ent head (without A 0 b) T' U' := by
    intro T' U' hp hch
    have hn : (head :: b :: (T' ++ U')).Nodup := (hp.cons head).nodup_iff.1 h.nodup
    refine ⟨hw, fun a => ?_, ?_, hch⟩
    · have h1 : a ∈ T ∨ a ∈ U ↔ a = b ∨ a ∈ T' ∨ a ∈ U' := by
        rw [← List.mem_append, hp.mem_iff]; simp
      have h2 : b ∉ T' ++ U' := (List.nodup_cons.1 (List.nodup_cons.1 hn).2).1
      unfold without
      rw [h.cover, h1]
      constructor
      · rintro ⟨h3 | h3 | h3, h4⟩
        · exact .inl h3
        · exact absurd ⟨rfl, h3⟩ h4
        · exact .inr h3
      · intro h3
        refine ⟨by tauto, ?_⟩
        rintro ⟨-, rfl⟩
        rcases h3 with h3 | h3
        · exact hbA.2 h3
        · exact h2 (List.mem_append.2 h3)
    · exact hn.sublist (List.Sublist.cons_cons _ (List.sublist_cons_self _ _))
  rcases h.side hc with hcT | hcU
  · obtain ⟨T', h1, h2, h3⟩ := h.chn.cut h.nodupT hcT hb hl
    exact ⟨T', U, mk T' U ((h2.append_right U).trans (by simp)) h1, .inl ⟨hcT, h2, rfl, h3⟩⟩
  · have hbU : b ∈ U := by
      rcases h.side hbA.1 with h1 | h1
      · exfalso
        obtain ⟨x, hx, h2⟩ := h.chn.pred ((List.mem_cons.1 h1).resolve_left hbA.2)
        have hxA : A 0 x := by
          rcases List.mem_cons.1 hx with rfl | hx
          · exact h.web.hd 0 (by decide)
          · exact (h.memT hx).1
        obtain rfl := h.web.inj hc hxA hb h2
        exact h.disjoint hcU hx
      · exact h1
    obtain ⟨U₁, U₂, rfl⟩ := List.append_of_mem hbU
    refine ⟨T, U₁ ++ U₂, mk T (U₁ ++ U₂) ?_ (h.chn.frame fun x hx => ?_), .inr ⟨hcU, List.perm_middle, rfl, ?_⟩⟩
    · refine (List.Perm.append_left T List.perm_middle).trans ?_
      exact List.perm_middle
    · rw [relinked_other]
      rintro ⟨rfl, -⟩
      exact h.disjoint hcU hx
    · simp only [List.mem_append, List.mem_cons] at hcU ⊢
      rcases hcU with h1 | h1 | h1
      · exact .inl h1
      · exact absurd h1 hcb
      · exact .inr h1

/-- A node that iteration does not show is linked at the bottom level. -/
theorem put (h : Body g ent head A T U) {c new : Addr} {l : Option Addr} (hc : A 0 c) (hl : g c 0 = some l)
    (hnU : new ∈ U) (hw : Web (relinked (relinked g c 0 (some new)) new 0 l) ent head A) :
    ∃ T' U', Body (relinked (relinked g c 0 (some new)) new 0 l) ent head A T' U' ∧
      ((c ∈ head :: T ∧ T'.Perm (new :: T) ∧ U.Perm (new :: U')) ∨ (c ∈ U ∧ T' = T ∧ U' = U)) := by
  have hnT := h.disjoint hnU
  rcases h.side hc with hcT | hcU
  · obtain ⟨T', h1, h2⟩ := h.chn.put h.nodupT hcT hl hnT
    obtain ⟨U₁, U₂, rfl⟩ := List.append_of_mem hnU
    have hp : (T ++ (U₁ ++ new :: U₂)).Perm (T' ++ (U₁ ++ U₂)) := by
      refine ((List.Perm.append_left T List.perm_middle).trans List.perm_middle).trans ?_
      exact (h2.append_right _).symm
    refine ⟨T', U₁ ++ U₂, ⟨hw, fun a => ?_, (hp.cons head).nodup_iff.1 h.nodup, h1⟩, .inl ⟨hcT, h2, List.perm_middle⟩⟩
    rw [h.cover, ← List.mem_append, hp.mem_iff, List.mem_append]
  · refine ⟨T, U, h.frame hw (fun _ => Iff.rfl) fun x hx => ?_, .inr ⟨hcU, rfl, rfl⟩⟩
    rw [relinked_other, relinked_other]
    · rintro ⟨rfl, -⟩; exact h.disjoint hcU hx
    · rintro ⟨rfl, -⟩; exact hnT hx

/-- A new node that is not linked anywhere. -/
theorem add (h : Body g ent head A T U) {new nh : Nat} (hn : ¬ A 0 new) (hnh : nh ≤ maxHeight)
    (hg : ∀ j ≤ nh, g new j = some none) (he : ∃ e, ent new = some e) :
    Body g ent head (fun j a => A j a ∨ a = new ∧ j ≤ nh) T (new :: U) := by
  have hnA : ∀ {j}, ¬ A j new := fun ha => hn (h.web.zero ha)
  have hne : new ≠ head := by rintro rfl; exact hn (h.web.hd 0 (by decide))
  have no : ∀ {j b}, j ≤ nh → ¬ Nx g j new b := by
    intro j b hj; unfold Nx; rw [hg j hj]; simp
  refine ⟨⟨fun i hi => .inl (h.web.hd i hi), ?_, ?_, ?_, ?_, h.web.no_ent, ?_, ?_, ?_, ?_⟩, ?_, ?_, h.chn⟩
  · rintro i a (ha | ⟨-, hj⟩)
    · exact h.web.top ha
    · omega
  · rintro i a (ha | ⟨rfl, hj⟩)
    · exact .inl (h.web.down ha)
    · exact .inr ⟨rfl, by omega⟩
  · rintro i a (ha | ⟨rfl, hj⟩)
    · exact h.web.link ha
    · exact ⟨_, hg i hj⟩
  · rintro a (ha | ⟨rfl, -⟩) h1
    · exact h.web.some_ent ha h1
    · exact he
  · rintro i a b (ha | ⟨rfl, hj⟩) h1
    · have := h.web.step ha h1
      exact ⟨.inl this.1, this.2⟩
    · exact absurd h1 (no hj)
  · rintro i a a' b (ha | ⟨rfl, hj⟩) (ha' | ⟨rfl, hj'⟩) h1 h2
    · exact h.web.inj ha ha' h1 h2
    · exact absurd h2 (no hj')
    · exact absurd h1 (no hj)
    · rfl
  · rintro i a b (ha | ⟨rfl, hj⟩) h1 h2
    · exact h.web.asc ha h1 h2
    · exact absurd h2 (no hj)
  · rintro i a b (ha | ⟨rfl, hj⟩) hb h1
    · rcases hb with hb | ⟨rfl, -⟩
      · exact h.web.nest ha hb h1
      · exact absurd (h.web.path (h.web.down ha) h1).1 hnA
    · rcases TransGen.head'_iff.1 h1 with ⟨y, h2, _⟩
      exact absurd h2 (no (by omega))
  · intro a
    simp only [h.cover a, List.mem_cons]
    have : 0 ≤ nh := Nat.zero_le _
    tauto
  · have h1 : (new :: (head :: (T ++ U))).Nodup := by
      refine List.nodup_cons.2 ⟨?_, h.nodup⟩
      intro hm
      refine hn ((h.cover new).2 ?_)
      simpa using hm
    have hp : (head :: (T ++ new :: U)).Perm (new :: (head :: (T ++ U))) :=
      (List.perm_middle.cons head).trans (List.Perm.swap _ _ _)
    exact hp.nodup_iff.2 h1

/-! ### What searches find -/

/-- Nothing that iteration shows lies between a node of the bottom level and the next. -/
theorem between (h : Body g ent head A T U) {c x : Addr} {nxt : Option Addr} (hc : c ∈ head :: T)
    (hl : g c 0 = some nxt) (hx : x ∈ T) :
    x = c ∨ (c ≠ head ∧ Lt ent x c) ∨ ∃ b, nxt = some b ∧ b ∈ T ∧ (x = b ∨ Lt ent b x) := by
  have h1 : ReflTransGen (Nx g 0) head c := by
    rcases List.mem_cons.1 hc with rfl | hc
    · exact .refl
    · exact (h.chn.path hc).to_reflTransGen
  have h2 := (h.chn.path hx).to_reflTransGen
  have hxA := h.memT hx
  have hcA : A 0 c := by
    rcases List.mem_cons.1 hc with rfl | hc
    · exact h.web.hd 0 (by decide)
    · exact (h.memT hc).1
  have hu : Relator.RightUnique (Nx g 0) := fun _ _ _ a b => nx_fun a b
  rcases ReflTransGen.total_of_right_unique hu h1 h2 with h3 | h3
  · rcases reflTransGen_iff_eq_or_transGen.1 h3 with h4 | h4
    · exact .inl h4
    · rcases TransGen.head'_iff.1 h4 with ⟨b, h5, h6⟩
      have hb := h.web.step hcA h5
      refine .inr (.inr ⟨b, ?_, ?_, ?_⟩)
      · unfold Nx at h5; rw [hl] at h5; simpa using h5
      · rcases h.side hb.1 with h7 | h7
        · exact (List.mem_cons.1 h7).resolve_left hb.2
        · exfalso
          exact h.disjoint h7 (List.mem_cons_of_mem _ (h.chn.next hc h5))
      · rcases reflTransGen_iff_eq_or_transGen.1 h6 with h7 | h7
        · exact .inl h7
        · exact .inr (h.web.path_lt hb.1 hb.2 h7)
  · rcases reflTransGen_iff_eq_or_transGen.1 h3 with h4 | h4
    · exact .inl h4.symm
    · refine .inr (.inl ⟨?_, h.web.path_lt hxA.1 hxA.2 h4⟩)
      exact (h.web.path hxA.1 h4).2

end Body

omit [LinearOrder K] in
/-- The entries of nodes. -/
def ents (ent : Addr → Option (K × V)) (L : List Addr) : Multiset (K × V) := (L.filterMap ent : List (K × V))

omit [LinearOrder K] in
theorem ents_perm {ent : Addr → Option (K × V)} {L L' : List Addr} (h : L.Perm L') : ents ent L = ents ent L' :=
  Multiset.coe_eq_coe.2 (h.filterMap ent)

omit [LinearOrder K] in
theorem ents_cons {ent : Addr → Option (K × V)} {a : Addr} {e : K × V} (h : ent a = some e) (L : List Addr) :
    ents ent (a :: L) = e ::ₘ ents ent L := by simp [ents, h]

omit [LinearOrder K] in
theorem mem_ents {ent : Addr → Option (K × V)} {L : List Addr} {e : K × V} : e ∈ ents ent L ↔ ∃ a ∈ L, ent a = some e := by
  simp [ents]

omit [LinearOrder K] in
theorem ents_congr {ent ent' : Addr → Option (K × V)} {L : List Addr} (h : ∀ a ∈ L, ent' a = ent a) :
    ents ent' L = ents ent L := by
  unfold ents
  rw [List.filterMap_congr h]

omit [LinearOrder K] in
theorem card_ents {ent : Addr → Option (K × V)} {L : List Addr} (h : ∀ a ∈ L, ∃ e, ent a = some e) :
    Multiset.card (ents ent L) = L.length := by
  induction L with
  | nil => rfl
  | cons a L ih =>
    obtain ⟨e, he⟩ := h a (by simp)
    rw [ents_cons he, Multiset.card_cons, ih fun x hx => h x (List.mem_cons_of_mem _ hx), List.length_cons]

theorem Body.ascending {g : Links} {ent : Addr → Option (K × V)} {head : Addr} {A : Nat → Addr → Prop} {T U : List Addr}
    (h : Body g ent head A T U) : (T.filterMap ent).Pairwise fun a b => a.1 < b.1 := by
  rw [List.pairwise_filterMap]
  refine h.chn.pairwise.imp_of_mem ?_
  intro a b ha hb hp e he e' he'
  have := h.memT ha
  obtain ⟨x, y, h1, h2, h3⟩ := h.web.path_lt this.1 this.2 hp
  rw [h1] at he; rw [h2] at he'
  cases he; cases he'
  exact h3

end Verif.Skip.Map.Torn
