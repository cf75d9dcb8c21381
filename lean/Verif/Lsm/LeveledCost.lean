/-
How many levels a leveled map has, and how many tables a lookup asks (C85).
-/
import Verif.Lsm.LeveledOverflow
import Mathlib.Data.Nat.Log

namespace Verif.Lsm.Leveled

open Verif Verif.Spec

variable {K V : Type} [LinearOrder K]

/-- leveled.rs:551-561: the lookup in the levels, with the list of the tables whose `get` is called. -/
def askLevels (k : K) : List (Level K V) → List (Table K V) × Option (Val V)
  | [] => ([], none)
  | l :: ls =>
    match SL.ceil k l with
    | none => askLevels k ls
    | some e =>
      match e.2.get k with
      | some v => ([e.2], some v)
      | none => (e.2 :: (askLevels k ls).1, (askLevels k ls).2)

/-- leveled.rs:528-564 `get`, with the list of the tables whose `get` is called. -/
def ask (m : Meta K V) (k : K) : List (Table K V) × Option (Val V) :=
  match SizeTiered.get m.l0 k with
  | some v => (m.l0, some v)
  | none => (m.l0 ++ (askLevels k m.levels).1, (askLevels k m.levels).2)

theorem ceil_map (k : K) (g : Table K V → Table K V) : ∀ l : Level K V,
    SL.ceil k (l.map fun e => (e.1, g e.2)) = (SL.ceil k l).map fun e => (e.1, g e.2) := by
  intro l
  rw [SL.ceil, SL.ceil, List.find?_map]
  rfl

theorem askLevels_frame (k : K) (g : Table K V → Table K V) : ∀ {ls : List (Level K V)},
    (∀ t ∈ (askLevels k ls).1, g t = t) →
    (ls.map fun l => l.map fun e => (e.1, g e.2)).findSome? (levelGet · k) = ls.findSome? (levelGet · k) := by
  intro ls
  induction ls with
  | nil => intro _; rfl
  | cons l ls ih =>
    intro h
    rw [List.map_cons, List.findSome?_cons, List.findSome?_cons, levelGet, levelGet, ceil_map]
    rw [askLevels] at h
    cases hc : SL.ceil k l with
    | none =>
      simp only [hc] at h ⊢
      exact ih h
    | some e =>
      simp only [hc] at h ⊢
      cases hv : e.2.get k with
      | some v =>
        simp only [hv] at h ⊢
        simp [h e.2 (by simp), hv]
      | none =>
        simp only [hv] at h ⊢
        simp only [Option.map_some, Option.bind_some, h e.2 (by simp), hv]
        exact ih fun t ht => h t (by simp [ht])

theorem askLevels_val (k : K) : ∀ ls : List (Level K V), (askLevels k ls).2 = ls.findSome? (levelGet · k)
  | [] => rfl
  | l :: ls => by
    have ih := askLevels_val k ls
    rw [List.findSome?_cons, ← ih]
    simp only [askLevels, levelGet]
    cases SL.ceil k l with
    | none => rfl
    | some e =>
      simp only [Option.bind_some]
      cases e.2.get k with
      | none => rfl
      | some v => rfl

/-- `ask` is `get`. -/
theorem ask_val (m : Meta K V) (k : K) : (ask m k).2 = get m k := by
  unfold ask get
  cases SizeTiered.get m.l0 k with
  | some v => rfl
  | none => exact askLevels_val k m.levels

/-- At most one table per level is asked, the one of which the key may be in the range. -/
theorem askLevels_one (k : K) : ∀ {ls : List (Level K V)}, (∀ l ∈ ls, LevelOk l) →
    (askLevels k ls).1.length ≤ ls.length ∧
      List.Sublist (askLevels k ls).1 (ls.flatMap fun l => (tabsOf l).filter fun t => decide (k ≤ t.range.2) &&
        (tabsOf l).all fun u => !decide (k ≤ u.range.2) || decide (t.range.2 ≤ u.range.2))
  | [], _ => ⟨le_rfl, List.Sublist.refl _⟩
  | l :: ls, h => by
    obtain ⟨h1, h2⟩ := askLevels_one k (ls := ls) fun l' hl' => h l' (by simp [hl'])
    have hl := h l (by simp)
    simp only [askLevels, List.length_cons, List.flatMap_cons]
    cases hc : SL.ceil k l with
    | none =>
      simp only
      exact ⟨by omega, h2.trans (List.sublist_append_right _ _)⟩
    | some e =>
      have hm : e ∈ l := List.mem_of_find?_eq_some hc
      have hk : k ≤ e.1 := by
        unfold SL.ceil at hc
        simpa using List.find?_some hc
      have hmin : ∀ x ∈ l, k ≤ x.1 → e.1 ≤ x.1 := by
        intro x hx hkx
        unfold SL.ceil at hc
        rw [List.find?_eq_some_iff_append] at hc
        obtain ⟨_, as, bs, rfl, hab⟩ := hc
        rcases List.mem_append.1 hx with hx | hx
        · have := hab x hx
          simp only [Bool.not_eq_eq_eq_not, Bool.not_true, decide_eq_false_iff_not] at this
          exact absurd hkx this
        · rcases List.mem_cons.1 hx with rfl | hx
          · exact le_rfl
          · exact ((List.pairwise_cons.1 (List.pairwise_append.1 hl.sorted).2.1).1 x hx).le
      have hin : e.2 ∈ (tabsOf l).filter fun t => decide (k ≤ t.range.2) &&
          (tabsOf l).all fun u => !decide (k ≤ u.range.2) || decide (t.range.2 ≤ u.range.2) := by
        rw [List.mem_filter]
        refine ⟨mem_tabsOf.2 ⟨e, hm, rfl⟩, ?_⟩
        rw [Bool.and_eq_true]
        refine ⟨by rw [← hl.key e hm]; simpa using hk, ?_⟩
        rw [List.all_eq_true]
        intro u hu
        obtain ⟨x, hx, rfl⟩ := mem_tabsOf.1 hu
        rw [← hl.key e hm, ← hl.key x hx]
        by_cases hkx : k ≤ x.1
        · simp [hmin x hx hkx]
        · simp [hkx]
      simp only
      cases e.2.get k with
      | some v =>
        exact ⟨by simp, (List.singleton_sublist.2 hin).trans (List.sublist_append_left _ _)⟩
      | none =>
        exact ⟨by simpa using h1, (List.singleton_sublist.2 hin).append h2⟩

omit [LinearOrder K] in
theorem levels_log {p : Params} (h1 : 1 ≤ p.initCount) (h2 : 2 ≤ p.growth) {B : Nat} {ls : List (Level K V)}
    (h : Bound p B 0 ls) : ls.length ≤ Nat.log p.growth B + 2 := by
  by_contra hc
  have h3 := h (Nat.log p.growth B + 1) (by omega)
  rw [Nat.zero_add] at h3
  have h4 := pow_le_limit (p := p) h1 (Nat.log p.growth B + 1)
  have h5 : B < p.growth ^ (Nat.log p.growth B + 1) := Nat.lt_pow_succ_log_self (by omega) B
  omega

end Verif.Lsm.Leveled

namespace Verif.Lsm

open Verif Verif.Spec Store

variable {K V : Type} [LinearOrder K] [DecidableEq V]

/-- The histories of a leveled map that write only the keys `ks`. -/
theorem leveled_bound (c : Cfg K V) (p : Leveled.Params) (ks : List K) (ops : List (KvOp K V × Nat))
    (hk : ∀ k, ((∃ v, KvOp.insert k v ∈ ops.map (·.1)) ∨ KvOp.remove k ∈ ops.map (·.1)) → k ∈ ks)
    {s : Store (Leveled.kind c p)} {rs : List (KvRes K V)} (hr : run c (new (Leveled.kind c p)) ops = some (s, rs)) :
    (Leveled.lawsBound c p ks).inv s.cur := by
  have hg : GoodRun (Leveled.lawsBound c p ks).good c (new (Leveled.kind c p)) ops := by
    refine goodRun_keys ops (new _) (by intro e he; simp [new] at he) ?_
    rintro op ho k (⟨v, rfl⟩ | rfl)
    · exact hk k (.inl ⟨v, ho⟩)
    · exact hk k (.inr ho)
  obtain ⟨W, hi, -⟩ := inv_reach hg hr
  exact hi.inv

/-- C85: with a positive `max_initial_level_count` and a `growth_factor` of at least 2, after every history and whatever
the compaction thread does, the number of levels is at most 2 plus the logarithm, to the base `growth_factor`, of the
number of different keys that were ever written. -/
theorem C85_levels (c : Cfg K V) (p : Leveled.Params) (h1 : 1 ≤ p.initCount) (h2 : 2 ≤ p.growth) (ks : List K)
    (ops : List (KvOp K V × Nat))
    (hk : ∀ k, ((∃ v, KvOp.insert k v ∈ ops.map (·.1)) ∨ KvOp.remove k ∈ ops.map (·.1)) → k ∈ ks)
    {s : Store (Leveled.kind c p)} {rs : List (KvRes K V)} (hr : run c (new (Leveled.kind c p)) ops = some (s, rs)) :
    s.cur.levels.length ≤ Nat.log p.growth ks.length + 2 :=
  Leveled.levels_log h1 h2 (leveled_bound c p ks ops hk hr).2.2

/-- C85: a lookup asks every table outside the levels once and at most one table per level, namely the one whose greatest
key is the least that is not less than the key; it asks no other table. -/
theorem C85_asked (c : Cfg K V) (p : Leveled.Params) (ops : List (KvOp K V × Nat)) {s : Store (Leveled.kind c p)}
    {rs : List (KvRes K V)} (hr : run c (new (Leveled.kind c p)) ops = some (s, rs)) (k : K) :
    (Leveled.ask s.cur k).2 = Leveled.get s.cur k ∧
      (Leveled.ask s.cur k).1.length ≤ s.cur.l0.length + s.cur.levels.length ∧
      ∃ ts, (Leveled.ask s.cur k).1 = s.cur.l0 ++ ts ∧
        ts.Sublist (s.cur.levels.flatMap fun l => (Leveled.tabsOf l).filter fun t => decide (k ≤ t.range.2) &&
          (Leveled.tabsOf l).all fun u => !decide (k ≤ u.range.2) || decide (t.range.2 ≤ u.range.2)) := by
  obtain ⟨W, hi, -⟩ := inv_reach (L := Leveled.laws c p) (goodRun_true (fun _ => trivial) ops (new _)) hr
  have hinv : Leveled.Inv s.cur := hi.inv
  obtain ⟨a1, a2⟩ := Leveled.askLevels_one k hinv.levels.level
  refine ⟨Leveled.ask_val _ _, ?_⟩
  unfold Leveled.ask
  cases SizeTiered.get s.cur.l0 k with
  | some v => exact ⟨by simp, [], by simp, List.nil_sublist _⟩
  | none => exact ⟨by simpa using a1, _, rfl, a2⟩

omit [DecidableEq V] in
/-- C85: the list of the tables asked is complete: if the tables that a lookup does not ask are replaced by others, with
the greatest keys under which the levels list them unchanged, the answer stays the same. -/
theorem C85_frame (m : Leveled.Meta K V) (k : K) (g : Table K V → Table K V) (hg : ∀ t ∈ (Leveled.ask m k).1, g t = t) :
    Leveled.get { m with l0 := m.l0.map g, levels := m.levels.map fun l => l.map fun e => (e.1, g e.2) } k =
      Leveled.get m k := by
  have h0 : ∀ t ∈ m.l0, g t = t := fun t ht => hg t (by
    unfold Leveled.ask
    cases SizeTiered.get m.l0 k with
    | some v => exact ht
    | none => exact List.mem_append_left _ ht)
  rw [Leveled.get, Leveled.get]
  simp only
  rw [List.map_congr_left h0, List.map_id']
  cases hs : SizeTiered.get m.l0 k with
  | some v => rfl
  | none =>
    refine Leveled.askLevels_frame k g fun t ht => hg t ?_
    rw [Leveled.ask, hs]
    exact List.mem_append_right _ ht

/-- C85: both together. -/
theorem C85_lookup (c : Cfg K V) (p : Leveled.Params) (h1 : 1 ≤ p.initCount) (h2 : 2 ≤ p.growth) (ks : List K)
    (ops : List (KvOp K V × Nat))
    (hk : ∀ k, ((∃ v, KvOp.insert k v ∈ ops.map (·.1)) ∨ KvOp.remove k ∈ ops.map (·.1)) → k ∈ ks)
    {s : Store (Leveled.kind c p)} {rs : List (KvRes K V)} (hr : run c (new (Leveled.kind c p)) ops = some (s, rs)) (k : K) :
    (Leveled.ask s.cur k).1.length ≤ s.cur.l0.length + Nat.log p.growth ks.length + 2 := by
  have a1 := (C85_asked c p ops hr k).2.1
  have a2 := C85_levels c p h1 h2 ks ops hk hr
  omega

/-- A history with three levels (the bound is 2 + log₂ 7 = 4), and the tables that some lookups ask. -/
example : ((run Example.small (new (Leveled.kind Example.small ⟨0, 20, 1, 2⟩)) (Example.ops ++ [(.flush, 0)])).map fun q =>
    (q.1.cur.l0.length, q.1.cur.levels.map List.length,
      [0, 1, 2, 3, 4, 5, 6, 7].map fun k => (Leveled.ask q.1.cur k).1.length)) = some (0, [1, 2, 2], [3, 1, 1, 2, 1, 1, 1, 0]) := by
  decide +kernel

end Verif.Lsm
