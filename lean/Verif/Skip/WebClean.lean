/- The results of set operations as maps after panics: nothing is out of sight. -/
import Verif.Skip.WebFrame

namespace Verif.Skip.Map.Torn

open Verif.Spec Verif.SL Relation

variable {K V : Type}

/-- The level-`i` links as bottom links. -/
def at' (g : Links) (i : Nat) : Links := fun a _ => g a i

theorem chn_of_chain {m : MHeap K V} {i : Nat} {a : Addr} {T : List Addr} (h : Chain (lk m i) a T) :
    Chn (at' (getLink m) i) a T := by
  induction T generalizing a with
  | nil => exact h
  | cons b T ih => exact ⟨h.1, ih h.2⟩

theorem chn_zero {g : Links} {a : Addr} {T : List Addr} (h : Chn (at' g 0) a T) : Chn g a T := by
  induction T generalizing a with
  | nil => exact h
  | cons b T ih => exact ⟨h.1, ih h.2⟩

theorem Chn.rel {g : Links} {R : Addr → Addr → Prop} {a : Addr} {T : List Addr} (h : Chn g a T) (hR : T.Pairwise R)
    {x y : Addr} (hx : x ∈ T) (hn : (a :: T).Nodup) (hxy : Nx g 0 x y) : R x y := by
  induction T generalizing a with
  | nil => simp at hx
  | cons b T ih =>
    obtain ⟨h1, h2⟩ := h
    rcases List.mem_cons.1 hx with rfl | hx
    · exact (List.pairwise_cons.1 hR).1 y (h2.next (by simp) hxy)
    · exact ih h2 (List.pairwise_cons.1 hR).2 hx (List.nodup_cons.1 hn).2

theorem Chn.link {g : Links} {a : Addr} {T : List Addr} (h : Chn g a T) {x : Addr} (hx : x ∈ a :: T) : ∃ l, g x 0 = some l := by
  induction T generalizing a with
  | nil => obtain rfl : x = a := by simpa using hx
           exact ⟨_, h⟩
  | cons b T ih =>
    rcases List.mem_cons.1 hx with rfl | hx
    · exact ⟨_, h.1⟩
    · exact ih h.2 hx

theorem Chn.path_rel {g : Links} {R : Addr → Addr → Prop} (hT : ∀ x y z, R x y → R y z → R x z) {a : Addr} {T : List Addr}
    (h : Chn g a T) (hR : T.Pairwise R) (hn : (a :: T).Nodup) {x y : Addr} (hx : x ∈ T) (hxy : Path g 0 x y) :
    R x y ∧ y ∈ T := by
  induction hxy with
  | single h1 => exact ⟨h.rel hR hx hn h1, h.next (List.mem_cons_of_mem _ hx) h1⟩
  | tail _ h1 ih => exact ⟨hT _ _ _ ih.1 (h.rel hR ih.2 hn h1), h.next (List.mem_cons_of_mem _ ih.2) h1⟩

theorem Chn.linear {g : Links} {a : Addr} {T : List Addr} (h : Chn g a T) {x y : Addr} (hx : x ∈ T) (hy : y ∈ T)
    (hne : x ≠ y) : Path g 0 x y ∨ Path g 0 y x := by
  induction T generalizing a with
  | nil => simp at hx
  | cons b T ih =>
    rcases List.mem_cons.1 hx with rfl | hx'
    · exact .inl (h.2.path ((List.mem_cons.1 hy).resolve_left (Ne.symm hne)))
    · rcases List.mem_cons.1 hy with rfl | hy'
      · exact .inr (h.2.path hx')
      · exact ih h.2 hx' hy'

variable [LinearOrder K]

/-- A map with a chain of ascending keys at every level, in a memory that holds other nodes besides. -/
theorem wrel_of_wgood {s : SkipMap K V} {C : Nat → List Addr} {E : List (K × V)} (h : WGood s C E) (hs : Sorted E)
    (F : MHeap K V) : WRel { s with mem := over F s.mem } ⟨E, 0⟩ := by
  set m := over F s.mem with hm
  have hent : ∀ a ∈ C 0, ∃ e, entryAt s.mem a = some e ∧ entryAt m a = some e := by
    intro a ha
    have : entryAt s.mem a ∈ (C 0).map (entryAt s.mem) := List.mem_map.2 ⟨a, ha, rfl⟩
    rw [h.ents] at this
    obtain ⟨e, -, he⟩ := List.mem_map.1 this
    exact ⟨e, he.symm, entryAt_over he.symm⟩
  have hch : ∀ i ≤ maxHeight, Chain (lk m i) s.head (C i) := by
    intro i hi
    have hc := h.chain i hi
    refine chain_frame hc fun x hx => ?_
    obtain ⟨l, hl⟩ := (chn_of_chain hc).link hx
    have hl : getLink s.mem x i = some l := hl
    show getLink m x i = getLink s.mem x i
    rw [hl]
    exact getLink_over hl
  have hcn : ∀ i ≤ maxHeight, Chn (at' (getLink m) i) s.head (C i) := fun i hi => chn_of_chain (hch i hi)
  have hnd : ∀ i ≤ maxHeight, (s.head :: C i).Nodup := fun i hi =>
    h.lev.nodup.sublist ((h.lev.sub0 hi).cons_cons _)
  have hsub : ∀ i ≤ maxHeight, ∀ a ∈ C i, a ∈ C 0 := fun i hi a ha => (h.lev.sub0 hi).mem ha
  have hlt0 : (C 0).Pairwise (Lt (entryAt m)) := by
    have h1 : ((C 0).map (entryAt s.mem)).Pairwise fun x y => ∃ e e' : K × V, x = some e ∧ y = some e' ∧ e.1 < e'.1 := by
      rw [h.ents]
      refine List.pairwise_map.2 (hs.imp fun {a b} hab => ⟨a, b, rfl, rfl, hab⟩)
    refine (List.pairwise_map.1 h1).imp fun {a b} hab => ?_
    obtain ⟨e, e', h2, h3, h4⟩ := hab
    exact ⟨e, e', entryAt_over h2, entryAt_over h3, h4⟩
  have hlt : ∀ i ≤ maxHeight, (C i).Pairwise (Lt (entryAt m)) := fun i hi => hlt0.sublist (h.lev.sub0 hi)
  have hnext : ∀ {i a b}, i ≤ maxHeight → a ∈ s.head :: C i → Nx (getLink m) i a b → b ∈ C i := by
    intro i a b hi ha hx
    exact (hcn i hi).next ha hx
  have hpath : ∀ {i a b}, i ≤ maxHeight → a ∈ C i → Path (getLink m) i a b → Lt (entryAt m) a b ∧ b ∈ C i := by
    intro i a b hi ha hp
    exact (hcn i hi).path_rel (R := Lt (entryAt m)) (fun _ _ _ => Lt.trans) (hlt i hi) (hnd i hi) ha hp
  have hlin : ∀ {i a b}, i ≤ maxHeight → a ∈ C i → b ∈ C i → a ≠ b → Path (getLink m) i a b ∨ Path (getLink m) i b a := by
    intro i a b hi ha hb hne
    exact (hcn i hi).linear ha hb hne
  have hfrom : ∀ {i b}, i ≤ maxHeight → b ∈ C i → Path (getLink m) i s.head b := by
    intro i b hi hb
    exact (hcn i hi).path hb
  have hhd : ∀ i ≤ maxHeight, s.head ∉ C i := fun i hi => (List.nodup_cons.1 (hnd i hi)).1
  have no_ent : entryAt m s.head = none := by
    obtain ⟨ls, h1, -⟩ := shape_eq h.lev.hd
    simp [entryAt, hm, over_some h1]
  have web : Web (getLink m) (entryAt m) s.head (fun i a => i ≤ maxHeight ∧ a ∈ s.head :: C i) := by
    refine ⟨fun i hi => ⟨hi, by simp⟩, fun h => h.1, ?_, ?_, ?_, no_ent, ?_, ?_, ?_, ?_⟩
    · rintro i a ⟨hi, ha⟩
      refine ⟨by omega, ?_⟩
      rcases List.mem_cons.1 ha with rfl | ha
      · simp
      · exact List.mem_cons_of_mem _ ((h.lev.sub i (by omega)).mem ha)
    · rintro i a ⟨hi, ha⟩
      exact (hcn i hi).link ha
    · rintro a ⟨_, ha⟩ hne
      obtain ⟨e, -, he⟩ := hent a ((List.mem_cons.1 ha).resolve_left hne)
      exact ⟨e, he⟩
    · rintro i a b ⟨hi, ha⟩ hx
      have hb := hnext hi ha hx
      exact ⟨⟨hi, List.mem_cons_of_mem _ hb⟩, by rintro rfl; exact hhd i hi hb⟩
    · rintro i a a' b ⟨hi, ha⟩ ⟨_, ha'⟩ hx hx'
      by_contra hne
      have hb := hnext hi ha hx
      have key : ∀ {a a'}, a' ∈ C i → Nx (getLink m) i a b → Nx (getLink m) i a' b → Path (getLink m) i a a' → False := by
        intro a a' ha' hx hx' hp
        have hl := (hpath hi ha' (.single hx')).1
        rcases path_first hx hp with rfl | h1
        · exact hl.irrefl
        · exact ((hpath hi hb h1).1.trans hl).irrefl
      rcases List.mem_cons.1 ha with rfl | ha
      · have ha' := (List.mem_cons.1 ha').resolve_left (Ne.symm hne)
        exact key ha' hx hx' (hfrom hi ha')
      · rcases List.mem_cons.1 ha' with rfl | ha'
        · exact key ha hx' hx (hfrom hi ha)
        · rcases hlin hi ha ha' hne with h1 | h1
          · exact key ha' hx hx' h1
          · exact key ha hx' hx h1
    · rintro i a b ⟨hi, ha⟩ hne hx
      exact (hpath hi ((List.mem_cons.1 ha).resolve_left hne) (.single hx)).1
    · rintro i a b ⟨hi, ha⟩ ⟨_, hb⟩ hp
      rcases List.mem_cons.1 ha with rfl | ha
      · refine hfrom hi ((List.mem_cons.1 hb).resolve_left ?_)
        rintro rfl
        have h2 : ∀ {x}, ReflTransGen (Nx (getLink m) i) s.head x → x ∈ s.head :: C i := by
          intro x hr
          induction hr with
          | refl => simp
          | tail _ h3 ih => exact List.mem_cons_of_mem _ (hnext (by omega) ih h3)
        obtain ⟨c, h3, h4⟩ := TransGen.tail'_iff.1 hp
        exact hhd i (by omega) (hnext (by omega) (h2 h3) h4)
      · have ha0 := (h.lev.sub i (by omega)).mem ha
        obtain ⟨h1, h2⟩ := hpath (by omega) ha0 hp
        have hbC : b ∈ C (i + 1) := (List.mem_cons.1 hb).resolve_left (by rintro rfl; exact hhd i (by omega) h2)
        rcases hlin hi ha hbC (by rintro rfl; exact h1.irrefl) with h3 | h3
        · exact h3
        · exact absurd (h1.trans (hpath hi hbC h3).1) (fun h => h.irrefl)
  refine ⟨_, C 0, [], ⟨⟨web, ?_, ?_, ?_⟩, ?_, ?_⟩, ?_⟩
  · intro a; simp
  · simpa using h.lev.nodup
  · exact chn_zero (hcn 0 (Nat.zero_le _))
  · simpa using h.len_eq
  · rintro a ⟨_, ha⟩
    by_contra hlt
    have hn : s.mem a = none := h.bump a (Nat.le_of_not_lt hlt)
    rcases List.mem_cons.1 ha with rfl | ha
    · have := h.lev.hd
      simp [shape, hn] at this
    · obtain ⟨e, he, -⟩ := hent a ha
      simp [entryAt, hn] at he
  · have h1 : (C 0).filterMap (entryAt m) = E := by
      have h2 : (C 0).map (entryAt m) = E.map some := by
        rw [← h.ents]
        refine List.map_congr_left fun a ha => ?_
        obtain ⟨e, h3, h4⟩ := hent a ha
        rw [h3, h4]
      have h3 : ((C 0).map (entryAt m)).filterMap id = E := by rw [h2]; simp [List.filterMap_map]
      rwa [List.filterMap_map] at h3
    simp only [ents, h1, List.filterMap_nil, Multiset.coe_nil]

end Verif.Skip.Map.Torn
