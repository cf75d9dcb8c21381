/-
Model of `LeveledStrategy` (src/lsm_tree/compaction/leveled.rs), and what one compaction does.
-/
import Verif.Lsm.SizeTiered

namespace Verif.Lsm.Leveled

open Verif Verif.Spec
open Verif.Lsm.SizeTiered (ver_append ver_perm in_map_entries)

variable {K V : Type}

/-- A level: a `BTreeMap` from the greatest key of a table to the table, in the order of its iteration. -/
abbrev Level (K V : Type) := List (K × Table K V)

/-- `LeveledMetadata` (leveled.rs:25-38): `sstables` and `levels`. -/
structure Meta (K V : Type) where
  l0 : List (Table K V)
  levels : List (Level K V)

/-- The parameters of the strategy (leveled.rs:29-33). -/
structure Params where
  maxCount : Nat
  maxSize : Nat
  initCount : Nat
  growth : Nat

/-- The tables of a level. -/
abbrev tabsOf (l : Level K V) : List (Table K V) := l.map (·.2)

/-- The tables of some levels. -/
abbrev tabsL (ls : List (Level K V)) : List (Table K V) := ls.flatMap tabsOf

/-- The entries of a level, one table after the other: what `get_next_level_entry` (leveled.rs:704-719) yields. -/
abbrev entriesOf (l : Level K V) : List (Ent K V) := l.flatMap (·.2.entries)

/-- leveled.rs:331-349 and 404-425: write the merged entries to tables, without the tombstones if `drop`, starting
a new table whenever the size of one exceeds `max_sstable_size`. -/
def split (z : Sizes K V) (bs maxSize : Nat) (drop : Bool) :
    List (Ent K V) → Builder K V → Nat → Option (List (Table K V))
  | [], b, f => if b.range.isSome then (b.flush f).map ([·]) else some []
  | e :: es, b, f =>
    let b := if !drop || e.2.data.isSome then b.append z e else b
    if maxSize < b.size then
      match b.flush f with
      | none => none
      | some t => (split z bs maxSize drop es (Builder.new bs) (f + 1)).map (t :: ·)
    else split z bs maxSize drop es b f

/-- leveled.rs:366-373: the table with the greatest ratio of tombstones; the last one of these (`max_by`). -/
def pickTable : Level K V → Option (K × Table K V)
  | [] => none
  | e :: l => some (l.foldl (fun x y => if y.2.tombCount * x.2.entryCount < x.2.tombCount * y.2.entryCount then x else y) e)

variable [LinearOrder K]

/-- leveled.rs:66-75 `insert_sstable`, in the level. -/
def insertTable (l : Level K V) (t : Table K V) : Level K V := SL.ins t.range.2 t l

/-- leveled.rs:364-426: one round of the inner loop: a table of the level `cur` moves to the next level (`rest` are
the deeper levels).  The result is the two parts and the tables written. -/
def sink (c : Cfg K V) (p : Params) (hint : Nat) (cur : Level K V) (rest : List (Level K V)) (f : Nat) :
    Option (Level K V × List (Level K V) × List (Table K V)) :=
  match pickTable cur with
  | none => none
  | some e =>
    match SL.find e.2.range.2 cur with
    | none => none
    | some x =>
      let cur := SL.del e.2.range.2 cur
      match rest with
      | [] => some (cur, [insertTable [] x.2], [])
      | next :: deeper =>
        let old := next.filter fun y => isIntersecting x.2.range y.2.range
        let kept := next.filter fun y => !isIntersecting x.2.range y.2.range
        match split c.sizes (c.block hint) p.maxSize deeper.isEmpty (mergeRuns [x.2.entries, entriesOf old])
            (Builder.new (c.block hint)) f with
        | none => none
        | some out => some (cur, out.foldl insertTable kept :: deeper, out)

/-- leveled.rs:364-426: the inner loop for a level with the limit `lim`; the first argument bounds the rounds. -/
def drain (c : Cfg K V) (p : Params) (hint lim : Nat) : Nat → Level K V → List (Level K V) → Nat →
    Option (Level K V × List (Level K V) × List (Table K V))
  | 0, cur, rest, _ => if cur.length ≤ lim then some (cur, rest, []) else none
  | n + 1, cur, rest, f =>
    if cur.length ≤ lim then some (cur, rest, [])
    else match sink c p hint cur rest f with
      | none => none
      | some (cur, rest, out) =>
        match drain c p hint lim n cur rest (f + out.length) with
        | none => none
        | some (cur, rest, new) => some (cur, rest, out ++ new)

/-- leveled.rs:357-362 `should_merge`: the greatest number of tables of a level.  (`pow` and the product may
overflow in the code; the model has no bound.) -/
def limit (p : Params) (index : Nat) : Nat := p.initCount * p.growth ^ index

/-- leveled.rs:352-427: the outer loop, from the level `index` on; the first argument bounds the rounds. -/
def down (c : Cfg K V) (p : Params) (hint : Nat) : Nat → Nat → List (Level K V) → Nat →
    Option (List (Level K V) × List (Table K V))
  | _, _, [], _ => some ([], [])
  | 0, _, _ :: _, _ => none
  | n + 1, index, cur :: rest, f =>
    match drain c p hint (limit p index) cur.length cur rest f with
    | none => none
    | some (cur, rest, out) =>
      match down c p hint n (index + 1) rest (f + out.length) with
      | none => none
      | some (ls, new) => some (cur :: ls, out ++ new)

/-- leveled.rs:307-309: the first level and the others. -/
def firstLevel : List (Level K V) → Level K V × List (Level K V)
  | [] => ([], [])
  | l :: ls => (l, ls)

/-- leveled.rs:312-325: `entry_count_hint`. -/
def hintOf (m : Meta K V) : Nat :=
  (firstLevel m.levels).1.foldl (fun h e => max h e.2.entryCount) (m.l0.map (·.entryCount)).sum

/-- leveled.rs:307-349: the first part of a compaction: the tables outside the levels and the first level become
the new first level.  The result is the tables written. -/
def compact0 (c : Cfg K V) (p : Params) (m : Meta K V) (f : Nat) : Option (List (Table K V)) :=
  split c.sizes (c.block (hintOf m)) p.maxSize (firstLevel m.levels).2.isEmpty
    (mergeRuns (m.l0.map (·.entries) ++ [entriesOf (firstLevel m.levels).1])) (Builder.new (c.block (hintOf m))) f

/-- leveled.rs:294-435 `compact`, with a bound on the number of levels. -/
def compactN (c : Cfg K V) (p : Params) (n : Nat) (m : Meta K V) (f : Nat) :
    Option (Meta K V × List (Table K V)) :=
  match compact0 c p m f with
  | none => none
  | some out =>
    match down c p (hintOf m) n 0 (out.foldl insertTable [] :: (firstLevel m.levels).2) (f + out.length) with
    | none => none
    | some (ls, new) => some (⟨[], ls⟩, out ++ new)

/-- The number of entries in some tables. -/
def size (ts : List (Table K V)) : Nat := (ts.map (·.entries.length)).sum

/-- leveled.rs:294-435 `compact`.  The bound is large enough: see `compact_total`. -/
def compact (c : Cfg K V) (p : Params) (m : Meta K V) (f : Nat) : Option (Meta K V × List (Table K V)) :=
  compactN c p (m.levels.length + size (m.l0 ++ tabsL m.levels) + 1) m f

/-- leveled.rs:502-504: whether to start a compaction. -/
def plan (p : Params) (m : Meta K V) : Option (Meta K V) := if p.maxCount < m.l0.length then some m else none

/-- leveled.rs:249-269: the metadata after taking over `next`. -/
def replace (cur next : Meta K V) : Meta K V :=
  ⟨next.l0 ++ cur.l0.filter (fun t => optLt (endTime (tabsL next.levels)) (some t.times.1)), next.levels⟩

/-- leveled.rs:551-556: the lookup in a level. -/
def levelGet (l : Level K V) (k : K) : Option (Val V) := (SL.ceil k l).bind fun e => e.2.get k

/-- leveled.rs:528-564 `get`. -/
def get (m : Meta K V) (k : K) : Option (Val V) :=
  match SizeTiered.get m.l0 k with
  | some v => some v
  | none => m.levels.findSome? (levelGet · k)

/-- The strategy. -/
abbrev kind (c : Cfg K V) (p : Params) : Kind K V where
  M := Meta K V
  Job := Meta K V
  empty := ⟨[], []⟩
  tabs m := m.l0 ++ tabsL m.levels
  push m t := ⟨m.l0 ++ [t], m.levels⟩
  plan := plan p
  compact := compact c p
  replace := replace
  get := get
  runs m := m.l0.map (·.entries) ++ m.levels.map entriesOf

/-! ### Levels -/

/-- The tables of a level are filed under their greatest keys and have disjoint key ranges. -/
structure LevelOk (l : Level K V) : Prop where
  key : ∀ e ∈ l, e.1 = e.2.range.2
  ok : ∀ e ∈ l, e.2.Ok
  sorted : SL.Sorted l
  apart : ∀ e ∈ l, ∀ e' ∈ l, e.1 < e'.1 → e.1 < e'.2.range.1

theorem LevelOk.sub {l l' : Level K V} (h : LevelOk l) (hs : l'.Sublist l) : LevelOk l' :=
  ⟨fun e he => h.key e (hs.subset he), fun e he => h.ok e (hs.subset he), List.Pairwise.sublist hs h.sorted,
    fun e he e' he' => h.apart e (hs.subset he) e' (hs.subset he')⟩

theorem levelOk_nil : LevelOk ([] : Level K V) := ⟨by simp, by simp, List.Pairwise.nil, by simp⟩

theorem LevelOk.eq_of_fst {l : Level K V} (h : LevelOk l) {e e'} (he : e ∈ l) (he' : e' ∈ l) (hk : e.1 = e'.1) :
    e = e' := by
  have h1 := SL.find_of_mem h.sorted he
  have h2 := SL.find_of_mem h.sorted he'
  rw [hk, h2] at h1
  exact (Option.some.inj h1).symm

/-- A key is in at most one table of a level. -/
theorem LevelOk.eq_of_key {l : Level K V} (h : LevelOk l) {e e'} (he : e ∈ l) (he' : e' ∈ l) {k : K} {v v' : Val V}
    (hk : (k, v) ∈ e.2.entries) (hk' : (k, v') ∈ e'.2.entries) : e = e' := by
  have a1 := (h.ok e he).lo_le hk
  have a2 := (h.ok e he).le_hi hk
  have b1 := (h.ok e' he').lo_le hk'
  have b2 := (h.ok e' he').le_hi hk'
  rw [← h.key e he] at a2
  rw [← h.key e' he'] at b2
  simp only at a1 a2 b1 b2
  rcases lt_trichotomy e.1 e'.1 with hl | hl | hl
  · exact absurd ((h.apart e he e' he' hl).trans_le (b1.trans a2)) (lt_irrefl _)
  · exact h.eq_of_fst he he' hl
  · exact absurd ((h.apart e' he' e he hl).trans_le (a1.trans b2)) (lt_irrefl _)

theorem mem_tabsOf {l : Level K V} {t : Table K V} : t ∈ tabsOf l ↔ ∃ e ∈ l, e.2 = t := by simp [tabsOf]

theorem ver_tabsOf {l : Level K V} {k : K} {v : Val V} : Ver (tabsOf l) k v ↔ ∃ e ∈ l, (k, v) ∈ e.2.entries := by
  simp only [Ver, mem_tabsOf]
  constructor
  · rintro ⟨t, ⟨e, he, rfl⟩, h⟩; exact ⟨e, he, h⟩
  · rintro ⟨e, he, h⟩; exact ⟨_, ⟨e, he, rfl⟩, h⟩

theorem mem_entriesOf {l : Level K V} {e : Ent K V} : e ∈ entriesOf l ↔ Ver (tabsOf l) e.1 e.2 := by
  simp only [entriesOf, List.mem_flatMap, ver_tabsOf]

theorem entriesOf_sorted : ∀ {l : Level K V}, LevelOk l → SL.Sorted (entriesOf l)
  | [], _ => List.Pairwise.nil
  | x :: l, h => by
    have ih := entriesOf_sorted (h.sub (List.sublist_cons_self x l))
    simp only [entriesOf, List.flatMap_cons]
    refine List.pairwise_append.2 ⟨(h.ok x (by simp)).sorted, ih, ?_⟩
    intro a ha b hb
    obtain ⟨y, hy, hyb⟩ := List.mem_flatMap.1 hb
    have h1 : x.1 < y.1 := (List.pairwise_cons.1 h.sorted).1 y hy
    have h2 := h.apart x (by simp) y (by simp [hy]) h1
    have h3 := (h.ok x (by simp)).le_hi ha
    have h4 := (h.ok y (by simp [hy])).lo_le hyb
    rw [← h.key x (by simp)] at h3
    exact (h3.trans_lt h2).trans_le h4

/-- The lookup in a level finds the version of the key that the level has. -/
theorem levelGet_some {l : Level K V} (h : LevelOk l) {k : K} {v : Val V} :
    levelGet l k = some v ↔ Ver (tabsOf l) k v := by
  rw [ver_tabsOf]
  unfold levelGet
  constructor
  · intro hg
    simp only [Option.bind_eq_some_iff] at hg
    obtain ⟨e, he, hv⟩ := hg
    have hm : e ∈ l := List.mem_of_find?_eq_some he
    exact ⟨e, hm, (h.ok e hm).get_some.1 hv⟩
  · rintro ⟨e, he, hv⟩
    simp only [Option.bind_eq_some_iff]
    refine ⟨e, ?_, (h.ok e he).get_some.2 hv⟩
    have h1 := (h.ok e he).lo_le hv
    have h2 := (h.ok e he).le_hi hv
    rw [← h.key e he] at h2
    simp only at h1 h2
    cases hc : SL.ceil k l with
    | none =>
      unfold SL.ceil at hc
      rw [List.find?_eq_none] at hc
      exact absurd (by simpa using h2) (hc e he)
    | some x =>
      have hx : x ∈ l := List.mem_of_find?_eq_some hc
      have hkx : k ≤ x.1 := by
        unfold SL.ceil at hc
        simpa using List.find?_some hc
      -- `x` is the first table that ends at or after `k`
      rcases lt_trichotomy x.1 e.1 with hl | hl | hl
      · have := h.apart x hx e he hl
        exact absurd (this.trans_le (h1.trans hkx)) (lt_irrefl _)
      · rw [h.eq_of_fst hx he hl]
      · exfalso
        unfold SL.ceil at hc
        rw [List.find?_eq_some_iff_append] at hc
        obtain ⟨_, as, bs, rfl, hab⟩ := hc
        rcases List.mem_append.1 he with he' | he'
        · have := hab e he'
          simp only [Bool.not_eq_eq_eq_not, Bool.not_true, decide_eq_false_iff_not] at this
          exact this h2
        · have hs := (List.pairwise_append.1 h.sorted).2.1
          rcases List.mem_cons.1 he' with rfl | he'
          · exact lt_irrefl _ hl
          · exact lt_asymm hl ((List.pairwise_cons.1 hs).1 e he')

theorem ins_perm {A : Type} {k : K} {v : A} : ∀ {l : List (K × A)}, (∀ e ∈ l, e.1 ≠ k) → (SL.ins k v l).Perm ((k, v) :: l)
  | [], _ => List.Perm.refl _
  | (x, w) :: l, h => by
    unfold SL.ins
    split
    · exact List.Perm.refl _
    · split
      · exact ((ins_perm fun e he => h e (List.mem_cons_of_mem _ he)).cons _).trans (List.Perm.swap _ _ _)
      · rename_i h1 h2
        exact absurd (le_antisymm (not_lt.1 h1) (not_lt.1 h2)) (h (x, w) (by simp))

theorem del_perm {A : Type} : ∀ {l : List (K × A)}, SL.Sorted l → ∀ {e}, e ∈ l → l.Perm (e :: SL.del e.1 l)
  | [], _, _, he => by simp at he
  | (x, w) :: l, hs, e, he => by
    obtain ⟨h1, h2⟩ := SL.sorted_cons.1 hs
    rw [SL.del_cons]
    rcases List.mem_cons.1 he with rfl | he
    · rw [if_pos rfl, SL.del_of_all_lt h1]
    · have := h1 e he
      rw [if_neg (ne_of_lt this)]
      exact ((del_perm h2 he).cons _).trans (List.Perm.swap _ _ _)

/-- Two closed key ranges do not meet. -/
def Apart (r s : K × K) : Prop := r.2 < s.1 ∨ s.2 < r.1

theorem insertTable_ok {l : Level K V} (h : LevelOk l) {t : Table K V} (ht : t.Ok)
    (ha : ∀ e ∈ l, Apart e.2.range t.range) :
    LevelOk (insertTable l t) ∧ (insertTable l t).Perm ((t.range.2, t) :: l) := by
  have hne : ∀ e ∈ l, e.1 ≠ t.range.2 := by
    intro e he heq
    rw [h.key e he] at heq
    rcases ha e he with h1 | h1
    · exact absurd (heq ▸ h1.trans_le ht.range_le) (lt_irrefl _)
    · exact absurd (heq ▸ h1.trans_le (h.ok e he).range_le) (lt_irrefl _)
  have hp : (insertTable l t).Perm ((t.range.2, t) :: l) := ins_perm hne
  refine ⟨⟨?_, ?_, SL.sorted_ins h.sorted, ?_⟩, hp⟩
  · intro e he
    rcases List.mem_cons.1 (hp.mem_iff.1 he) with rfl | he
    · rfl
    · exact h.key e he
  · intro e he
    rcases List.mem_cons.1 (hp.mem_iff.1 he) with rfl | he
    · exact ht
    · exact h.ok e he
  · intro e he e' he' hlt
    rcases List.mem_cons.1 (hp.mem_iff.1 he) with rfl | he <;> rcases List.mem_cons.1 (hp.mem_iff.1 he') with rfl | he'
    · exact absurd hlt (lt_irrefl _)
    · simp only at hlt ⊢
      rcases ha e' he' with h1 | h1
      · rw [h.key e' he'] at hlt
        exact absurd (h1.trans_le (ht.range_le.trans hlt.le)) (lt_irrefl _)
      · exact h1
    · simp only at hlt ⊢
      rw [h.key e he] at hlt ⊢
      rcases ha e he with h1 | h1
      · exact h1
      · exact absurd (hlt.trans (h1.trans_le (h.ok e he).range_le)) (lt_irrefl _)
    · exact h.apart e he e' he' hlt

/-- Filing tables with ascending entries that keep away from the tables of the level. -/
theorem insertAll_ok : ∀ {out : List (Table K V)} {l : Level K V}, LevelOk l → (∀ t ∈ out, t.Ok) →
    SL.Sorted (out.flatMap (·.entries)) → (∀ t ∈ out, ∀ e ∈ l, Apart e.2.range t.range) →
    LevelOk (out.foldl insertTable l) ∧ (tabsOf (out.foldl insertTable l)).Perm (out ++ tabsOf l)
  | [], l, h, _, _, _ => ⟨h, List.Perm.refl _⟩
  | t :: out, l, h, ho, hs, ha => by
    obtain ⟨h1, h2⟩ := insertTable_ok h (ho t (by simp)) (ha t (by simp))
    simp only [List.flatMap_cons] at hs
    obtain ⟨s1, s2, s3⟩ := List.pairwise_append.1 hs
    have ht := ho t (by simp)
    obtain ⟨h3, h4⟩ := insertAll_ok h1 (fun u hu => ho u (List.mem_cons_of_mem _ hu)) s2 (by
      intro u hu e he
      rcases List.mem_cons.1 (h2.mem_iff.1 he) with rfl | he
      · left
        obtain ⟨a, ha, ha'⟩ := ht.hi_mem
        obtain ⟨b, hb, hb'⟩ := (ho u (List.mem_cons_of_mem _ hu)).lo_mem
        have := s3 a ha b (List.mem_flatMap.2 ⟨u, hu, hb⟩)
        rw [ha', hb'] at this
        exact this
      · exact ha u (List.mem_cons_of_mem _ hu) e he)
    refine ⟨h3, ?_⟩
    simp only [List.foldl_cons]
    refine h4.trans ?_
    refine (List.Perm.append_left _ (h2.map (·.2))).trans ?_
    simp only [List.map_cons, List.cons_append]
    exact List.perm_middle

/-! ### Writing merged entries to tables -/

theorem split_spec {z : Sizes K V} {bs maxSize : Nat} {drop : Bool} : ∀ (es : List (Ent K V)) (b : Builder K V) (f : Nat),
    b.Ok → SL.Sorted (b.entries ++ es) → (b.entries = [] → b.size = 0) →
    ∃ ts, split z bs maxSize drop es b f = some ts ∧ (∀ t ∈ ts, t.Ok) ∧ ts.map (·.id) = List.range' f ts.length ∧
      ts.flatMap (·.entries) = b.entries ++ es.filter fun e => !drop || e.2.data.isSome
  | [], b, f, hb, hs, hz => by
    unfold split
    by_cases hn : b.entries = []
    · have h1 := hb.first
      rw [hn] at h1
      have : b.range = none := by simpa using h1
      rw [this, hn]
      exact ⟨[], by simp⟩
    · obtain ⟨t, h1, h2, h3⟩ := Builder.flush_some hb hn f
      rw [List.append_nil] at hs
      have h4 := (Builder.flush_ok hb hs h1).1
      have h5 : b.range.isSome = true := by
        have h6 := hb.first
        cases hr : b.range with
        | some _ => rfl
        | none => rw [hr] at h6; cases hl : b.entries <;> simp [hl] at h6 hn
      rw [h5, h1]
      exact ⟨[t], by simp, by simpa using h4, by simp [h3], by simp [h2]⟩
  | e :: es, b, f, hb, hs, hz => by
    unfold split
    generalize hb' : (if (!drop || e.2.data.isSome) = true then b.append z e else b) = b'
    simp only
    have key : b'.Ok ∧ SL.Sorted (b'.entries ++ es) ∧ (b'.entries = [] → b'.size = 0) ∧
        b'.entries ++ (es.filter fun e => !drop || e.2.data.isSome) =
          b.entries ++ ((e :: es).filter fun e => !drop || e.2.data.isSome) := by
      rw [← hb']
      by_cases hd : (!drop || e.2.data.isSome) = true
      · rw [if_pos hd]
        refine ⟨Builder.ok_append hb e, ?_, ?_, ?_⟩
        · rw [Builder.append_entries, List.append_assoc]; exact hs
        · rw [Builder.append_entries]; simp
        · rw [Builder.append_entries, List.append_assoc, List.filter_cons, if_pos hd]; rfl
      · rw [if_neg hd]
        refine ⟨hb, List.Pairwise.sublist ?_ hs, hz, by rw [List.filter_cons, if_neg hd]⟩
        exact List.Sublist.append_left (List.sublist_cons_self _ _) _
    obtain ⟨k1, k2, k3, k4⟩ := key
    by_cases hm : maxSize < b'.size
    · rw [if_pos hm]
      have hne : b'.entries ≠ [] := fun h => by have := k3 h; omega
      obtain ⟨t, h1, h2, h3⟩ := Builder.flush_some k1 hne f
      have h4 := (Builder.flush_ok k1 (List.pairwise_append.1 k2).1 h1).1
      obtain ⟨ts, h5, h6, h7, h8⟩ := split_spec (z := z) (bs := bs) (maxSize := maxSize) (drop := drop) es
        (Builder.new bs) (f + 1) (Builder.ok_new bs) (by
          show SL.Sorted ([] ++ es)
          exact (List.pairwise_append.1 k2).2.1) (fun _ => rfl)
      rw [h1, h5]
      refine ⟨t :: ts, rfl, ?_, ?_, ?_⟩
      · intro u hu
        rcases List.mem_cons.1 hu with rfl | hu
        · exact h4
        · exact h6 u hu
      · simp [h3, h7, List.range'_succ]
      · rw [List.flatMap_cons, h2, h8, ← k4]; rfl
    · rw [if_neg hm]
      obtain ⟨ts, h5, h6, h7, h8⟩ := split_spec (z := z) (bs := bs) (maxSize := maxSize) (drop := drop) es b' f k1 k2 k3
      exact ⟨ts, h5, h6, h7, by rw [h8, k4]⟩

/-- What merging runs and writing the result to tables gives. -/
structure Rewritten (runs : List (List (Ent K V))) (drop : Bool) (f : Nat) (out : List (Table K V)) : Prop where
  ok : ∀ t ∈ out, t.Ok
  ids : out.map (·.id) = List.range' f out.length
  sorted : SL.Sorted (out.flatMap (·.entries))
  sub : ∀ k v, Ver out k v → In runs (k, v)
  newest : ∀ k v, Ver out k v → ∀ v', In runs (k, v') → v'.time ≤ v.time
  keep : ∀ k v, In runs (k, v) → (∀ v', In runs (k, v') → v'.time < v.time ∨ v' = v) →
    (v.data.isSome = true ∨ drop = false) → Ver out k v
  some : drop = true → ∀ k v, Ver out k v → v.data.isSome = true
  size : size out ≤ total runs

theorem size_flatMap (ts : List (Table K V)) : size ts = (ts.flatMap (·.entries)).length := by
  simp [size, List.length_flatMap]

theorem rewrite_spec {z : Sizes K V} {bs maxSize : Nat} {drop : Bool} {runs : List (List (Ent K V))} (f : Nat)
    (hs : ∀ r ∈ runs, SL.Sorted r) :
    ∃ out, split z bs maxSize drop (mergeRuns runs) (Builder.new bs) f = some out ∧ Rewritten runs drop f out := by
  have hm := mergeRuns_merged hs
  obtain ⟨out, h1, h2, h3, h4⟩ := split_spec (z := z) (bs := bs) (maxSize := maxSize) (drop := drop) (mergeRuns runs)
    (Builder.new bs) f (Builder.ok_new bs) hm.sorted (fun _ => rfl)
  have h4' : out.flatMap (·.entries) = (mergeRuns runs).filter fun e => !drop || e.2.data.isSome := h4
  have hv : ∀ k v, Ver out k v ↔ (k, v) ∈ mergeRuns runs ∧ (!drop || v.data.isSome) = true := by
    intro k v
    have : Ver out k v ↔ (k, v) ∈ out.flatMap (·.entries) := by simp [Ver, List.mem_flatMap]
    rw [this, h4', List.mem_filter]
  refine ⟨out, h1, h2, h3, ?_, ?_, ?_, ?_, ?_, ?_⟩
  · rw [h4']; exact List.Pairwise.filter _ hm.sorted
  · exact fun k v h => hm.sub _ ((hv k v).1 h).1
  · exact fun k v h v' h' => hm.newest _ ((hv k v).1 h).1 (k, v') h' rfl
  · intro k v h hn hd
    rw [hv]
    obtain ⟨⟨k', v'⟩, h5, h6⟩ := hm.all (k, v) h
    simp only at h6
    subst h6
    have h8 := hm.newest _ h5 (k', v) h rfl
    have : v' = v := by
      rcases hn v' (hm.sub _ h5) with h9 | h9
      · simp only at h8; omega
      · exact h9
    subst this
    refine ⟨h5, ?_⟩
    rcases hd with hd | hd <;> simp [hd]
  · intro hd k v h
    simpa [hd] using ((hv k v).1 h).2
  · rw [size_flatMap, h4']
    exact (List.length_filter_le _ _).trans (mergeRuns_length hs)

end Verif.Lsm.Leveled
