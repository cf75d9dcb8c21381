/-
When the leveled compaction ends, for the parameters for which not every compaction does: the rest of C45.
-/
import Verif.Lsm.Durable

namespace Verif.Lsm.Leveled

open Verif Verif.Spec
open Verif.Lsm.SizeTiered (ver_append ver_perm in_map_entries)

variable {K V : Type} [LinearOrder K]

/-- The parameters for which no level but the first may have a table. -/
def Flat (p : Params) : Prop := p.initCount = 0 ∨ p.growth = 0

theorem limit_flat {p : Params} (h : Flat p) (i : Nat) : limit p (i + 1) = 0 := by
  rcases h with h | h <;> simp [limit, h]

theorem limit_zero (p : Params) : limit p 0 = p.initCount := by simp [limit]

/-- With levels that may not have tables, the outer loop does not end once a live version has sunk. -/
theorem down_flat {c : Cfg K V} {p : Params} (hp : Flat p) {hint n index f : Nat} {ls ls' : List (Level K V)}
    {new : List (Table K V)} (h : LevelsOk ls) (hd : down c p hint n (index + 1) ls f = some (ls', new)) {k : K} {v : Val V}
    (hv : IsNewest (tabsL ls) k v) : v.data = none := by
  have b := down_spec n h hd
  rcases b.faith.keep k v hv with ⟨t, ht, -⟩ | h1
  · exfalso
    obtain ⟨l, hl, htl⟩ := List.mem_flatMap.1 ht
    obtain ⟨i, hi, rfl⟩ := List.getElem_of_mem hl
    have h1 := b.limit i hi
    have h2 : 0 < (tabsOf ls'[i]).length := List.length_pos_of_mem htl
    rw [show index + 1 + i = (index + i) + 1 by omega, limit_flat hp] at h1
    simp only [tabsOf, List.length_map] at h2
    omega
  · exact h1.1

omit [LinearOrder K] in
theorem firstLevel_flat {ls : List (Level K V)} (h : ls.length ≤ 1) : (firstLevel ls).2 = [] := by
  cases ls with
  | nil => rfl
  | cons l ls => cases ls with
    | nil => rfl
    | cons a b => simp at h

theorem insertAll_perm {c : Cfg K V} {p : Params} {m : Meta K V} (h : Inv m) {f : Nat} {out : List (Table K V)}
    (ho : compact0 c p m f = some out) : (tabsOf (out.foldl insertTable [])).Perm out ∧
      ((firstLevel m.levels).2 = [] → ∀ k v, Ver out k v → v.data.isSome = true) := by
  obtain ⟨f1, f2, f3⟩ := firstLevel_ok h.levels
  unfold compact0 at ho
  generalize (firstLevel m.levels).1 = first at f1 f2 ho
  generalize (firstLevel m.levels).2 = rest at f1 f2 f3 ho
  obtain ⟨g1, g2, g3⟩ := levelsOk_cons.1 f1
  obtain ⟨out', h1, h2⟩ := rewrite_spec (z := c.sizes) (bs := c.block (hintOf m)) (maxSize := p.maxSize)
    (drop := rest.isEmpty) (runs := m.l0.map (·.entries) ++ [entriesOf first]) f (by
      intro r hr
      rcases List.mem_append.1 hr with hr | hr
      · obtain ⟨t, ht, rfl⟩ := List.mem_map.1 hr
        exact (h.ok t ht).sorted
      · simp only [List.mem_singleton] at hr
        rw [hr]
        exact entriesOf_sorted g1)
  rw [h1] at ho
  cases ho
  obtain ⟨-, i2⟩ := insertAll_ok levelOk_nil h2.ok h2.sorted (by simp)
  rw [show tabsOf ([] : Level K V) = [] from rfl, List.append_nil] at i2
  exact ⟨i2, fun hr => h2.some (by rw [hr]; rfl)⟩

/-- The first part of a compaction of a map without deeper levels writes the live versions and nothing else. -/
theorem compact0_live {c : Cfg K V} {p : Params} {m : Meta K V} (h : Inv m) (hl : m.levels.length ≤ 1) {f : Nat}
    {out : List (Table K V)} (ho : compact0 c p m f = some out) :
    (∀ k v, IsNewest (m.l0 ++ tabsL m.levels) k v → (Ver out k v ↔ v.data.isSome = true)) ∧
      (∀ k v, Ver out k v → Ver (m.l0 ++ tabsL m.levels) k v ∧ v.data.isSome = true) ∧
      (tabsOf (out.foldl insertTable [])).Perm out ∧ LevelsOk [out.foldl insertTable []] := by
  obtain ⟨out', a1, a2, a3, -⟩ := compact0_spec (c := c) (p := p) h f
  rw [ho] at a1
  cases a1
  obtain ⟨i1, i2⟩ := insertAll_perm h ho
  have hf := firstLevel_flat hl
  rw [hf] at a2 a3
  have i3 := i2 hf
  have hperm : (tabsL [out.foldl insertTable []]).Perm out := by simpa [tabsL] using i1
  refine ⟨fun k v hv => ⟨i3 k v, fun hs => ?_⟩, fun k v hv => ⟨a3.sub k v ((ver_perm hperm).2 hv), i3 k v hv⟩, i1, a2⟩
  rcases a3.keep k v hv with h1 | ⟨h1, -⟩
  · exact (ver_perm hperm).1 h1
  · simp [h1] at hs

theorem drain_sublist {c : Cfg K V} {p : Params} {hint lim : Nat} : ∀ (n : Nat) {f : Nat} {cur cur' : Level K V}
    {rest rest' : List (Level K V)} {out : List (Table K V)},
    drain c p hint lim n cur rest f = some (cur', rest', out) → cur'.Sublist cur
  | 0, f, cur, cur', rest, rest', out, h => by
    unfold drain at h
    split at h
    · cases h; exact List.Sublist.refl _
    · cases h
  | n + 1, f, cur, cur', rest, rest', out, h => by
    unfold drain at h
    split at h
    · cases h; exact List.Sublist.refl _
    · cases hs : sink c p hint cur rest f with
      | none => rw [hs] at h; cases h
      | some r =>
        obtain ⟨c1, r1, o1⟩ := r
        rw [hs] at h
        simp only at h
        cases hd : drain c p hint lim n c1 r1 (f + o1.length) with
        | none => rw [hd] at h; cases h
        | some r =>
          obtain ⟨c2, r2, o2⟩ := r
          rw [hd] at h
          cases h
          refine (drain_sublist n hd).trans ?_
          unfold sink at hs
          split at hs
          · cases hs
          · split at hs
            · cases hs
            · simp only at hs
              split at hs
              · cases hs; exact List.filter_sublist
              · split at hs
                · cases hs
                · cases hs; exact List.filter_sublist

/-- The outer loop on a single level of live versions: it ends exactly if the level may have that many tables. -/
theorem down_single {c : Cfg K V} {p : Params} (hp : Flat p) {hint f : Nat} {lv : Level K V} (h : LevelsOk [lv])
    (hs : ∀ k v, Ver (tabsOf lv) k v → v.data.isSome = true) (n : Nat) :
    (lv.length ≤ p.initCount → down c p hint (n + 1) 0 [lv] f = some ([lv], [])) ∧
      (p.initCount < lv.length → down c p hint n 0 [lv] f = none) := by
  constructor
  · intro hl
    have hd : drain c p hint (limit p 0) lv.length lv [] f = some (lv, [], []) := by
      rw [limit_zero]
      cases lv with
      | nil => simp [drain]
      | cons a b => simp only [List.length_cons] at hl; simp only [List.length_cons, drain]; rw [if_pos hl]
    unfold down
    rw [hd]
    cases n <;> simp [down]
  · intro hl
    cases n with
    | zero => rfl
    | succ n =>
      obtain ⟨c1, r1, o1, e1, a1, a2, a3, a4, a5, a6, a7⟩ := drain_spec (c := c) (p := p) (hint := hint)
        (lim := limit p 0) lv.length (f := f) h (le_refl _)
      rw [limit_zero] at a6
      unfold down
      rw [e1]
      simp only
      cases hd : down c p hint n (0 + 1) r1 (f + o1.length) with
      | none => rfl
      | some r =>
        exfalso
        obtain ⟨ls, new⟩ := r
        have hsub := drain_sublist _ e1
        have ho := (levelsOk_cons.1 h).1
        obtain ⟨e, he, hne⟩ : ∃ e ∈ lv, e ∉ c1 := by
          by_contra hc
          push Not at hc
          have hnd : lv.Nodup := List.Pairwise.imp (fun {a b} hab => by rintro rfl; exact lt_irrefl _ hab) ho.sorted
          have := (List.subperm_of_subset hnd hc).length_le
          omega
        obtain ⟨⟨k, v⟩, l', hx⟩ := List.exists_cons_of_ne_nil (ho.ok e he).ne_nil
        have hx : (k, v) ∈ e.2.entries := by rw [hx]; simp
        have hv : Ver (tabsOf lv) k v := ver_tabsOf.2 ⟨e, he, hx⟩
        have hu : ∀ v', Ver (tabsOf lv) k v' → v' = v := by
          intro v' hv'
          obtain ⟨e', he', hx'⟩ := ver_tabsOf.1 hv'
          obtain rfl := ho.eq_of_key he he' hx hx'
          have h1 := SL.find_of_mem (ho.ok e he).sorted hx
          have h2 := SL.find_of_mem (ho.ok e he).sorted hx'
          simp only at h1 h2
          rw [h1] at h2
          cases h2
          rfl
        have hone : tabsL [lv] = tabsOf lv := by simp [tabsL]
        rw [hone] at a2
        have hsome := hs k v hv
        rcases a2.keep k v ⟨hv, fun v' hv' => .inr (hu v' hv')⟩ with h1 | ⟨h1, -⟩
        · have h1 : Ver (tabsOf c1 ++ tabsL r1) k v := h1
          rcases ver_append.1 h1 with h2 | h2
          · obtain ⟨e', he', hx'⟩ := ver_tabsOf.1 h2
            obtain rfl := ho.eq_of_key he (hsub.subset he') hx hx'
            exact hne he'
          · have h3 := down_flat hp (levelsOk_cons.1 a1).2.1 hd ⟨h2, fun v' hv' =>
              .inr (hu v' (a2.sub k v' (ver_append.2 (.inr hv'))))⟩
            simp [h3] at hsome
        · simp [h1] at hsome

/-- A whole compaction of a map without deeper levels. -/
theorem compactN_flat {c : Cfg K V} {p : Params} (hp : Flat p) {m : Meta K V} (h : Inv m) (hl : m.levels.length ≤ 1)
    {f : Nat} {out : List (Table K V)} (ho : compact0 c p m f = some out) (n : Nat) :
    (out.length ≤ p.initCount → compactN c p (n + 1) m f = some (⟨[], [out.foldl insertTable []]⟩, out)) ∧
      (p.initCount < out.length → compactN c p n m f = none) := by
  obtain ⟨-, h2, h3, h4⟩ := compact0_live h hl ho
  have hlen : (out.foldl insertTable []).length = out.length := by
    have := h3.length_eq
    simpa [tabsOf] using this
  have hd := down_single (c := c) (hint := hintOf m) (f := f + out.length) hp h4
    (fun k v hv => (h2 k v ((ver_perm h3).1 hv)).2) n
  rw [hlen] at hd
  refine ⟨fun hc => ?_, fun hc => ?_⟩
  · unfold compactN
    rw [ho, firstLevel_flat hl]
    simp [hd.1 hc]
  · unfold compactN
    rw [ho, firstLevel_flat hl]
    simp [hd.2 hc]

/-- The facts that hold in all histories, with those parameters. -/
def lawsFlat (c : Cfg K V) (p : Params) (hp : Flat p) : Laws (kind c p) true where
  good _ := True
  inv m := Inv m ∧ m.levels.length ≤ 1
  inv_empty := ⟨(laws c p).inv_empty, Nat.zero_le _⟩
  tabs_empty := rfl
  inv_ok h := (laws c p).inv_ok h.1
  inv_push := fun h1 h2 h3 h4 => ⟨(laws c p).inv_push h1.1 h2 h3 h4, h1.2⟩
  tabs_push := tabs_push c p
  compact_new h := (laws c p).compact_new h.1
  replace := by
    intro S j f C new cur W hi hpl hc he hcur hnd hnew hs
    obtain ⟨a1, a2⟩ := (laws c p).replace hi.1 hpl hc he hcur.1 hnd hnew hs
    refine ⟨⟨a1, ?_⟩, a2⟩
    have hj : j = S := by
      have hp' : plan p S = some j := hpl
      unfold plan at hp'
      split at hp'
      · exact (Option.some.inj hp').symm
      · simp at hp'
    subst hj
    have hc' : compactN c p (j.levels.length + size (j.l0 ++ tabsL j.levels) + 1) j f = some (C, new) := hc
    obtain ⟨out, ho, -⟩ := compact0_spec (c := c) (p := p) hi.1 f
    obtain ⟨b1, -⟩ := compactN_flat hp hi.1 hi.2 ho (j.levels.length + size (j.l0 ++ tabsL j.levels))
    obtain ⟨-, b2⟩ := compactN_flat hp hi.1 hi.2 ho (j.levels.length + size (j.l0 ++ tabsL j.levels) + 1)
    show C.levels.length ≤ 1
    rcases Nat.lt_or_ge p.initCount out.length with hlt | hge
    · rw [b2 hlt] at hc'; cases hc'
    · rw [b1 hge] at hc'; cases hc'; simp
  get_some h := (laws c p).get_some h.1
  get_none h := (laws c p).get_none h.1
  runs_sorted h := (laws c p).runs_sorted h.1
  runs_in h := (laws c p).runs_in h.1

end Verif.Lsm.Leveled

namespace Verif.Lsm

open Verif Verif.Spec Store

variable {K V : Type} [LinearOrder K] [DecidableEq V]

/-- C45, the other parameters: if `max_initial_level_count` or `growth_factor` is 0, then in every reachable state
the tables to be compacted are rewritten to some tables `out` that have the live versions and nothing else, and the
compaction ends exactly if these are at most `max_initial_level_count` tables: then the result is one level with
those tables, and otherwise no number of rounds ends it. -/
theorem C45_ends_exact (c : Cfg K V) (p : Leveled.Params) (hp : p.initCount = 0 ∨ p.growth = 0)
    (ops : List (KvOp K V × Nat)) {s : Store (Leveled.kind c p)} {rs : List (KvRes K V)}
    (hr : run c (new (Leveled.kind c p)) ops = some (s, rs)) (f : Nat) (m : Leveled.Meta K V)
    (hm : s.job = some m ∨ s.cur = m) :
    m.levels.length ≤ 1 ∧ ∃ out, Leveled.compact0 c p m f = some out ∧
      (∀ k v, Leveled.IsNewest (m.l0 ++ Leveled.tabsL m.levels) k v → (Ver out k v ↔ v.data.isSome = true)) ∧
      (∀ k v, Ver out k v → Ver (m.l0 ++ Leveled.tabsL m.levels) k v ∧ v.data.isSome = true) ∧
      (out.length ≤ p.initCount → ∃ l, (l.map (·.2)).Perm out ∧ Leveled.compact c p m f = some (⟨[], [l]⟩, out)) ∧
      (p.initCount < out.length → ∀ n, Leveled.compactN c p n m f = none) := by
  obtain ⟨W, hi, -, -⟩ := inv_reach (L := Leveled.lawsFlat c p hp) (goodRun_true (fun _ => trivial) ops (new _)) hr
  have key : Leveled.Inv m ∧ m.levels.length ≤ 1 := by
    rcases hm with hm | rfl
    · obtain ⟨-, -, S, k1, k2, k3⟩ := hi.job m hm
      have hp' : Leveled.plan p S = some m := k3
      unfold Leveled.plan at hp'
      split at hp'
      · cases hp'; exact k1
      · simp at hp'
    · exact hi.inv
  obtain ⟨out, ho, -⟩ := Leveled.compact0_spec (c := c) (p := p) key.1 f
  obtain ⟨h1, h2, h3, -⟩ := Leveled.compact0_live key.1 key.2 ho
  exact ⟨key.2, out, ho, h1, h2, fun hc => ⟨_, h3, (Leveled.compactN_flat hp key.1 key.2 ho _).1 hc⟩,
    fun hc n => (Leveled.compactN_flat hp key.1 key.2 ho n).2 hc⟩

/-- With `max_initial_level_count` 1 and `growth_factor` 0 a compaction to one table ends, also after a removal and a
restart; one to two tables does not, so that `flush` does not return. -/
example : (run Example.cfg (new (Leveled.kind Example.cfg ⟨0, 1000, 1, 0⟩)) [(.insert 1 10, 0), (.insert 2 20, 0), (.flush, 0),
      (.remove 1, 0), (.insert 3 30, 0), (.reopen, 0), (.iter, 0)]).map (fun q => (q.1.cur.levels.map List.length, q.2.getLast?)) =
      some ([1], some (.list [(2, 20), (3, 30)])) ∧
    (run Example.cfg (new (Leveled.kind Example.cfg ⟨0, 20, 1, 0⟩)) [(.insert 1 10, 0), (.flush, 0)]).isSome = true ∧
    (run Example.cfg (new (Leveled.kind Example.cfg ⟨0, 20, 1, 0⟩)) [(.insert 1 10, 0), (.insert 2 20, 0), (.insert 3 30, 0),
      (.flush, 0)]) = none := by
  refine ⟨?_, ?_, Option.isNone_iff_eq_none.1 ?_⟩ <;> decide +kernel

end Verif.Lsm
