/-
Leveled compaction with arbitrary limits of the levels: what a compaction does to the contents does not depend on the
limits, so it is right with checked and with wrapping 64-bit limits, whatever the parameters, if it ends.
-/
import Verif.Lsm.LeveledOverflow
import Verif.Lsm.Props

namespace Verif.Lsm.Leveled

open Verif Verif.Spec

variable {K V : Type} [LinearOrder K]

/-- What the outer loop does with the limits `lim`, if it ends. -/
theorem downG_spec {c : Cfg K V} {p : Params} {lim : Nat → Option Nat} {hint : Nat} : ∀ (n : Nat) {index f : Nat}
    {ls ls' : List (Level K V)} {new : List (Table K V)}, LevelsOk ls → downG c p lim hint n index ls f = some (ls', new) →
    LevelsOk ls' ∧ Faith (tabsL ls) (tabsL ls') ∧ new.map (·.id) = List.range' f new.length ∧
      (tabsL ls').Subperm (tabsL ls ++ new)
  | n, index, f, [], ls', new, h, hd => by
    cases n <;> (
      simp only [downG, Option.some.injEq, Prod.mk.injEq] at hd
      obtain ⟨rfl, rfl⟩ := hd
      exact ⟨h, Faith.refl _, rfl, List.Subperm.refl _⟩)
  | 0, index, f, cur :: rest, ls', new, h, hd => by simp [downG] at hd
  | n + 1, index, f, cur :: rest, ls', new, h, hd => by
    unfold downG at hd
    cases hl : lim index with
    | none => rw [hl] at hd; cases hd
    | some li =>
      rw [hl] at hd
      simp only at hd
      obtain ⟨c1, r1, o1, e1, a1, a2, a3, a4, a5, a6, a7⟩ := drain_spec (c := c) (p := p) (hint := hint)
        (lim := li) cur.length (f := f) h (le_refl _)
      rw [e1] at hd
      simp only at hd
      cases e2 : downG c p lim hint n (index + 1) r1 (f + o1.length) with
      | none => rw [e2] at hd; simp at hd
      | some r =>
        obtain ⟨ls2, n2⟩ := r
        rw [e2] at hd
        simp only [Option.some.injEq, Prod.mk.injEq] at hd
        obtain ⟨rfl, rfl⟩ := hd
        obtain ⟨b1, b2, b3⟩ := levelsOk_cons.1 a1
        obtain ⟨i1, i2, i3, i4⟩ := downG_spec n b2 e2
        refine ⟨levelsOk_cons.2 ⟨b1, i1, b3.mono (fun _ _ h => h) i2.sub⟩, a2.trans (faith_cons b3 i2), ?_,
          subperm_trans_new a4 ?_⟩
        · rw [List.map_append, a3, i3, List.length_append, List.range'_append_1]
        · show (tabsOf c1 ++ tabsL ls2).Subperm ((tabsOf c1 ++ tabsL r1) ++ n2)
          rw [List.append_assoc]
          exact (List.subperm_append_left _).2 i4

/-- Parameters whose limits the levels `ls` meet. -/
def wide (p : Params) (ls : List (Level K V)) : Params := { p with initCount := (ls.map List.length).sum, growth := 1 }

theorem wide_limit (p : Params) (ls : List (Level K V)) (i : Nat) (h : i < ls.length) : ls[i].length ≤ limit (wide p ls) i := by
  simp only [limit, wide, Nat.one_pow, Nat.mul_one]
  exact Store.le_sum (List.mem_map.2 ⟨_, List.getElem_mem h, rfl⟩)

theorem compactG_spec {c : Cfg K V} {p : Params} {lim : Nat → Option Nat} {n : Nat} {S C : Meta K V} {f : Nat}
    {new : List (Table K V)} (h : Inv S) (hc : compactG c p lim n S f = some (C, new)) :
    Compacted (wide p C.levels) S f C new := by
  obtain ⟨out, a1, a2, a3, a4, a5, a6⟩ := compact0_spec (c := c) (p := p) h f
  unfold compactG at hc
  rw [a1] at hc
  simp only at hc
  cases hd : downG c p lim (hintOf S) n 0 (out.foldl insertTable [] :: (firstLevel S.levels).2) (f + out.length) with
  | none => rw [hd] at hc; simp at hc
  | some r =>
    obtain ⟨ls, new'⟩ := r
    rw [hd] at hc
    simp only [Option.some.injEq, Prod.mk.injEq] at hc
    obtain ⟨rfl, rfl⟩ := hc
    obtain ⟨b1, b2, b3, b4⟩ := downG_spec n a2 hd
    refine ⟨rfl, b1, a3.trans b2, ?_, subperm_trans_new a5 b4, fun i hi => wide_limit p ls i hi⟩
    rw [List.map_append, a4, b3, List.length_append, List.range'_append_1]

/-- The strategy with the limits `lim`, and with a compaction that ends within `n m` levels from the metadata `m` or
not at all.  `kindG` is one of these. -/
abbrev kindR (c : Cfg K V) (p : Params) (lim : Nat → Option Nat) (n : Meta K V → Nat) : Kind K V :=
  (kind c p).withCompact fun m f => compactG c p lim (n m) m f

theorem ext_conv {c : Cfg K V} {p q : Params} {lim : Nat → Option Nat} {n : Meta K V → Nat} {good : List (Ent K V) → Prop} {S m : Meta K V}
    (h : Ext (kindR c p lim n) good S m) : Ext (kind c q) good S m := by
  have key : ∀ {S m : (kindR c p lim n).M}, Ext (kindR c p lim n) good S m → Ext (kind c q) good S m := by
    intro S m h
    induction h with
    | refl => exact .refl _
    | push _ h1 h2 h3 ih => exact .push ih h1 h2 h3
  exact key h

/-- The facts that hold in all histories, whatever the limits. -/
def lawsR (c : Cfg K V) (p : Params) (lim : Nat → Option Nat) (n : Meta K V → Nat) : Laws (kindR c p lim n) true where
  good _ := True
  inv m := Inv m
  inv_empty := (laws c p).inv_empty
  tabs_empty := rfl
  inv_ok := (laws c p).inv_ok
  inv_push := fun h1 h2 _ h4 => inv_push h1 h2 h4
  tabs_push := tabs_push c p
  compact_new := by
    intro S j f C new hi hp hc
    have hj : j = S := by
      have hp' : plan p S = some j := hp
      unfold plan at hp'
      split at hp'
      · exact (Option.some.inj hp').symm
      · simp at hp'
    subst hj
    have h := compactG_spec hi hc
    refine ⟨h.ids, fun t ht => ?_⟩
    have ht' : t ∈ C.l0 ++ tabsL C.levels := ht
    rw [h.l0] at ht'
    exact List.mem_append.1 (h.tabs.subset ht')
  replace := by
    intro S j f C new cur W hi hp hc he hcur hnd hnew hs
    have hj : j = S := by
      have hp' : plan p S = some j := hp
      unfold plan at hp'
      split at hp'
      · exact (Option.some.inj hp').symm
      · simp at hp'
    subst hj
    exact replace_spec (c := c) hi (ext_conv he) hcur (compactG_spec hi hc) hnd hnew hs
  get_some := (laws c p).get_some
  get_none := (laws c p).get_none
  runs_sorted := (laws c p).runs_sorted
  runs_in := (laws c p).runs_in

end Verif.Lsm.Leveled

namespace Verif.Lsm

open Verif Verif.Spec Store

variable {K V : Type} [LinearOrder K] [DecidableEq V]

/-- C36, whatever the arithmetic of the level limits: with every function `lim` for them (with `none` where computing
the limit panics, so in particular with checked and with wrapping 64-bit numbers), `get` and `contains_key` return and
are right after every history. -/
theorem C36_limits (c : Cfg K V) (p : Leveled.Params) (lim : Nat → Option Nat) (n : Leveled.Meta K V → Nat)
    (ops : List (KvOp K V × Nat)) {s : Store (Leveled.kindR c p lim n)} {rs : List (KvRes K V)}
    (hr : run c (new (Leveled.kindR c p lim n)) ops = some (s, rs)) (k : K) (d : Nat) :
    (∃ s', s.step c (.get k) d = some (s', .val (contents (ops.map (·.1)) k))) ∧
    ∃ s', s.step c (.containsKey k) d = some (s', .bool (contents (ops.map (·.1)) k).isSome) := by
  have hg := goodRun_true (kd := Leveled.kindR c p lim n) (good := (Leveled.lawsR c p lim n).good) (c := c)
    (fun _ => trivial) ops (new _)
  obtain ⟨W, h1, h2, h3⟩ := inv_reach (L := Leveled.lawsR c p lim n) hg hr
  obtain ⟨⟨s1, o, e1⟩, s2, b, e2⟩ := get_returns h1 k d
  have a1 := reads_exact (op := .get k) (L := Leveled.lawsR c p lim n) hg hr (fun _ _ => trivial) trivial e1
  have a2 := reads_exact (op := .containsKey k) (L := Leveled.lawsR c p lim n) hg hr (fun _ _ => trivial) trivial e2
  exact ⟨⟨s1, e1.trans (congrArg (fun r => some (s1, r)) a1)⟩, ⟨s2, e2.trans (congrArg (fun r => some (s2, r)) a2)⟩⟩

/-- C37, whatever the arithmetic of the level limits: `iter`, `len` and `is_empty` are exact, if they return. -/
theorem C37_limits (c : Cfg K V) (p : Leveled.Params) (lim : Nat → Option Nat) (n : Leveled.Meta K V → Nat)
    (ops : List (KvOp K V × Nat)) {s s' : Store (Leveled.kindR c p lim n)} {rs : List (KvRes K V)}
    (hr : run c (new (Leveled.kindR c p lim n)) ops = some (s, rs)) {op : KvOp K V} (hop : op.Reads)
    {d : Nat} {r : KvRes K V} (hs : s.step c op d = some (s', r)) : op.Answer (contents (ops.map (·.1))) r :=
  reads_exact (L := Leveled.lawsR c p lim n) (goodRun_true (fun _ => trivial) ops _) hr (fun _ _ => trivial) hop hs

/-- A history with the wrapping limits of `max_initial_level_count` 1 and `growth_factor` 2⁶³ + 1, whose limits are 1,
2⁶³ + 1, 1, 2⁶³ + 1, ...: two of the levels are in use in the end, and the answers are right. -/
example : (run Example.small (new (Leveled.kindR Example.small ⟨1, 60, 1, 2 ^ 63 + 1⟩ (Leveled.limitW ⟨1, 60, 1, 2 ^ 63 + 1⟩)
      fun _ => 10)) (Example.ops ++ [(.iter, 0), (.len, 0), (.get 2, 0)])).map (fun q => (q.1.cur.levels.length, q.2.drop 14))
    = some (2, [.list [(1, 11), (2, 21), (4, 40), (5, 50), (6, 60)], .num 5, .val (some 21)]) ∧
    (List.range 4).map (Leveled.limitW ⟨1, 60, 1, 2 ^ 63 + 1⟩) = [some 1, some (2 ^ 63 + 1), some 1, some (2 ^ 63 + 1)] := by
  decide +kernel

end Verif.Lsm
