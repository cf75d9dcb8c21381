/-
The leveled compaction keeps what the map needs; also the parts of C45 about single compactions.
-/
import Verif.Lsm.Leveled

namespace Verif.Lsm.Leveled

open Verif Verif.Spec
open Verif.Lsm.SizeTiered (ver_append ver_perm in_map_entries)

variable {K V : Type} [LinearOrder K]

/-- Every version of a key in `A` is newer than every version of it in `B`. -/
def Newer (A B : List (Table K V)) : Prop := ∀ k v v', Ver A k v → Ver B k v' → v'.time < v.time

/-- Each level is in order, and higher levels have the newer versions. -/
structure LevelsOk (ls : List (Level K V)) : Prop where
  level : ∀ l ∈ ls, LevelOk l
  newer : ls.Pairwise fun a b => Newer (tabsOf a) (tabsOf b)

theorem levelsOk_cons {l : Level K V} {ls : List (Level K V)} :
    LevelsOk (l :: ls) ↔ LevelOk l ∧ LevelsOk ls ∧ Newer (tabsOf l) (tabsL ls) := by
  constructor
  · intro h
    obtain ⟨h1, h2⟩ := List.pairwise_cons.1 h.newer
    refine ⟨h.level l (by simp), ⟨fun x hx => h.level x (List.mem_cons_of_mem _ hx), h2⟩, ?_⟩
    rintro k v v' hv ⟨t, ht, hm⟩
    obtain ⟨x, hx, hxt⟩ := List.mem_flatMap.1 ht
    exact h1 x hx k v v' hv ⟨t, hxt, hm⟩
  · rintro ⟨h1, h2, h3⟩
    refine ⟨?_, List.pairwise_cons.2 ⟨?_, h2.newer⟩⟩
    · intro x hx
      rcases List.mem_cons.1 hx with rfl | hx
      · exact h1
      · exact h2.level x hx
    · rintro x hx k v v' hv ⟨t, ht, hm⟩
      exact h3 k v v' hv ⟨t, List.mem_flatMap.2 ⟨x, hx, ht⟩, hm⟩

theorem levelsOk_nil : LevelsOk ([] : List (Level K V)) := ⟨by simp, List.Pairwise.nil⟩

theorem Newer.mono {A A' B B' : List (Table K V)} (h : Newer A B) (ha : ∀ k v, Ver A' k v → Ver A k v)
    (hb : ∀ k v, Ver B' k v → Ver B k v) : Newer A' B' :=
  fun k v v' h1 h2 => h k v v' (ha k v h1) (hb k v' h2)

/-- The newest version of a key. -/
def IsNewest (T : List (Table K V)) (k : K) (v : Val V) : Prop :=
  Ver T k v ∧ ∀ v', Ver T k v' → v'.time < v.time ∨ v' = v

/-- `C` has only versions of `S`; it has the newest version of every key, or that is a tombstone and `C` has no
version of the key. -/
structure Faith (S C : List (Table K V)) : Prop where
  sub : ∀ k v, Ver C k v → Ver S k v
  keep : ∀ k v, IsNewest S k v → Ver C k v ∨ (v.data = none ∧ ∀ v', ¬ Ver C k v')

theorem Faith.refl (S : List (Table K V)) : Faith S S := ⟨fun _ _ h => h, fun _ _ h => .inl h.1⟩

theorem Faith.trans {A B C : List (Table K V)} (h : Faith A B) (h' : Faith B C) : Faith A C := by
  refine ⟨fun k v hv => h.sub k v (h'.sub k v hv), fun k v hv => ?_⟩
  rcases h.keep k v hv with h1 | ⟨h1, h2⟩
  · exact h'.keep k v ⟨h1, fun v' hv' => hv.2 v' (h.sub k v' hv')⟩
  · exact .inr ⟨h1, fun v' hv' => h2 v' (h'.sub k v' hv')⟩

theorem Faith.of_perm {A A' B B' : List (Table K V)} (h : Faith A B) (ha : A.Perm A') (hb : B.Perm B') : Faith A' B' := by
  refine ⟨fun k v hv => (ver_perm ha).1 (h.sub k v ((ver_perm hb).2 hv)), fun k v hv => ?_⟩
  rcases h.keep k v ⟨(ver_perm ha).2 hv.1, fun v' hv' => hv.2 v' ((ver_perm ha).1 hv')⟩ with h1 | ⟨h1, h2⟩
  · exact .inl ((ver_perm hb).1 h1)
  · exact .inr ⟨h1, fun v' hv' => h2 v' ((ver_perm hb).2 hv')⟩

/-- A rewrite of some tables `X` to `out` while others, `Y`, stay.  If tombstones are dropped, no version in `Y` is
of a key of `X` and not newer. -/
theorem faith_rewrite {X Y out : List (Table K V)} {runs : List (List (Ent K V))} {drop : Bool} {f : Nat}
    (h : Rewritten runs drop f out) (hr : ∀ k v, In runs (k, v) ↔ Ver X k v)
    (hd : drop = true → ∀ k v v', Ver X k v → Ver Y k v' → v.time < v'.time) : Faith (X ++ Y) (out ++ Y) := by
  refine ⟨fun k v hv => ?_, fun k v hv => ?_⟩
  · rw [ver_append] at hv ⊢
    rcases hv with hv | hv
    · exact .inl ((hr k v).1 (h.sub k v hv))
    · exact .inr hv
  · obtain ⟨h1, h2⟩ := hv
    rw [ver_append] at h1 ⊢
    rcases h1 with h1 | h1
    · by_cases hk : v.data.isSome = true ∨ drop = false
      · exact .inl (.inl (h.keep k v ((hr k v).2 h1)
          (fun v' hv' => h2 v' (ver_append.2 (.inl ((hr k v').1 hv')))) hk))
      · rw [not_or] at hk
        have hdt : drop = true := by simpa using hk.2
        refine .inr ⟨by simpa using hk.1, fun v' hv' => ?_⟩
        rcases ver_append.1 hv' with hv' | hv'
        · have h3 := h.newest k v' hv' v ((hr k v).2 h1)
          rcases h2 v' (ver_append.2 (.inl ((hr k v').1 (h.sub k v' hv')))) with h4 | h4
          · omega
          · exact hk.1 (h4 ▸ h.some hdt k v' hv')
        · have h3 := hd hdt k v v' h1 hv'
          rcases h2 v' (ver_append.2 (.inr hv')) with h4 | h4
          · omega
          · rw [h4] at h3; omega
    · exact .inl (.inr h1)

/-! ### Bookkeeping of tables -/

theorem size_append (a b : List (Table K V)) : size (a ++ b) = size a + size b := by simp [size]

theorem size_perm {a b : List (Table K V)} (h : a.Perm b) : size a = size b := (h.map _).sum_nat

theorem size_cons (t : Table K V) (a : List (Table K V)) : size (t :: a) = t.entries.length + size a := by simp [size]

theorem subperm_trans_new {a b c n m : List (Table K V)} (h1 : b.Subperm (a ++ n)) (h2 : c.Subperm (b ++ m)) :
    c.Subperm (a ++ (n ++ m)) := by
  rw [← List.append_assoc]
  exact h2.trans ((List.subperm_append_right m).2 h1)

theorem pickTable_some {l : Level K V} (h : l ≠ []) : ∃ e ∈ l, pickTable l = some e := by
  cases l with
  | nil => exact absurd rfl h
  | cons a l =>
    have key : ∀ (l : Level K V) (a : K × Table K V), l.foldl (fun x y =>
        if y.2.tombCount * x.2.entryCount < x.2.tombCount * y.2.entryCount then x else y) a ∈ a :: l := by
      intro l
      induction l with
      | nil => intro a; simp
      | cons b l ih =>
        intro a
        simp only [List.foldl_cons]
        split
        · have := ih a
          rcases List.mem_cons.1 this with h | h
          · rw [h]; simp
          · simp [h]
        · exact List.mem_cons_of_mem _ (ih b)
    exact ⟨_, key l a, rfl⟩

/-- What one round of the inner loop does. -/
structure Sunk (cur : Level K V) (rest : List (Level K V)) (f : Nat) (cur' : Level K V) (rest' : List (Level K V))
    (out : List (Table K V)) : Prop where
  ok : LevelsOk (cur' :: rest')
  faith : Faith (tabsL (cur :: rest)) (tabsL (cur' :: rest'))
  ids : out.map (·.id) = List.range' f out.length
  tabs : (tabsL (cur' :: rest')).Subperm (tabsL (cur :: rest) ++ out)
  size : size (tabsL (cur' :: rest')) ≤ size (tabsL (cur :: rest))
  len : rest'.length = max 1 rest.length

theorem sink_spec {c : Cfg K V} {p : Params} {hint f : Nat} {cur : Level K V} {rest : List (Level K V)}
    (h : LevelsOk (cur :: rest)) (hn : cur ≠ []) : ∃ cur' rest' out, sink c p hint cur rest f = some (cur', rest', out) ∧
      Sunk cur rest f cur' rest' out ∧ cur'.length + 1 = cur.length := by
  obtain ⟨hc, hr, hcr⟩ := levelsOk_cons.1 h
  obtain ⟨x, hx, hp⟩ := pickTable_some hn
  have hk := hc.key x hx
  have hf : SL.find x.2.range.2 cur = some x := by rw [← hk]; exact SL.find_of_mem hc.sorted hx
  have hdel : cur.Perm (x :: SL.del x.2.range.2 cur) := by rw [← hk]; exact del_perm hc.sorted hx
  have hsubl : (SL.del x.2.range.2 cur).Sublist cur := List.filter_sublist
  have hxd : ∀ e ∈ SL.del x.2.range.2 cur, e.1 ≠ x.1 := by
    intro e he
    unfold SL.del at he
    rw [List.mem_filter] at he
    rw [hk]
    simpa using he.2
  unfold sink
  rw [hp]
  simp only
  rw [hf]
  simp only
  generalize hcu : SL.del x.2.range.2 cur = cur' at hdel hsubl hxd
  have hc' : LevelOk cur' := hc.sub hsubl
  have hlen : cur'.length + 1 = cur.length := by have := hdel.length_eq; simp at this; omega
  have htd : (tabsOf cur).Perm (x.2 :: tabsOf cur') := by simpa using hdel.map (·.2)
  have hox := hc.ok x hx
  -- no key of `x` is in `cur'`
  have hxc : ∀ k v v', (k, v) ∈ x.2.entries → ¬ Ver (tabsOf cur') k v' := by
    rintro k v v' h1 h2
    obtain ⟨e, he, hm⟩ := ver_tabsOf.1 h2
    exact hxd e he (congrArg Prod.fst (hc.eq_of_key (hsubl.subset he) hx hm h1))
  have hvx : ∀ k v, (k, v) ∈ x.2.entries → Ver (tabsOf cur) k v := fun k v hm => ver_tabsOf.2 ⟨x, hx, hm⟩
  have hvc : ∀ k v, Ver (tabsOf cur') k v → Ver (tabsOf cur) k v := by
    rintro k v ⟨t, ht, hm⟩
    exact ⟨t, (hsubl.map _).subset ht, hm⟩
  cases rest with
  | nil =>
    obtain ⟨i1, i2⟩ := insertTable_ok (levelOk_nil : LevelOk ([] : Level K V)) hox (by simp)
    refine ⟨cur', [insertTable [] x.2], [], rfl, ⟨?_, ?_, rfl, ?_, ?_, rfl⟩, hlen⟩
    · refine levelsOk_cons.2 ⟨hc', levelsOk_cons.2 ⟨i1, levelsOk_nil, ?_⟩, ?_⟩
      · rintro k v v' _ ⟨t, ht, _⟩; simp [tabsL] at ht
      · rintro k v v' h1 h2
        rw [show tabsL [insertTable [] x.2] = [x.2] from rfl] at h2
        obtain ⟨t, ht, hm⟩ := h2
        simp only [List.mem_singleton] at ht
        subst ht
        exact absurd h1 (hxc k v' v hm)
    · refine (Faith.refl (x.2 :: tabsOf cur')).of_perm ?_ ?_
      · simpa [tabsL] using htd.symm
      · show (x.2 :: tabsOf cur').Perm (tabsOf cur' ++ [x.2])
        exact List.perm_append_comm (l₁ := [x.2])
    · rw [List.append_nil]
      refine List.Perm.subperm ?_
      show (tabsOf cur' ++ [x.2]).Perm (tabsOf cur ++ [])
      rw [List.append_nil]
      exact (List.perm_append_comm (l₂ := [x.2])).trans htd.symm
    · refine le_of_eq (size_perm ?_)
      show (tabsOf cur' ++ [x.2]).Perm (tabsOf cur ++ [])
      rw [List.append_nil]
      exact (List.perm_append_comm (l₂ := [x.2])).trans htd.symm
  | cons next deeper =>
    obtain ⟨hl, hdp, hnd⟩ := levelsOk_cons.1 hr
    simp only
    generalize hold : next.filter (fun y => isIntersecting x.2.range y.2.range) = old
    generalize hkept : next.filter (fun y => !isIntersecting x.2.range y.2.range) = kept
    have so : old.Sublist next := hold ▸ List.filter_sublist
    have sk : kept.Sublist next := hkept ▸ List.filter_sublist
    have hnp : next.Perm (old ++ kept) := by
      rw [← hold, ← hkept]
      exact (List.filter_append_perm _ _).symm
    have hoi : ∀ y ∈ old, isIntersecting x.2.range y.2.range = true := by
      intro y hy; rw [← hold, List.mem_filter] at hy; exact hy.2
    have hki : ∀ y ∈ kept, isIntersecting x.2.range y.2.range = false := by
      intro y hy; rw [← hkept, List.mem_filter] at hy; simpa using hy.2
    have hko : ∀ y ∈ kept, ∀ z ∈ old, y ≠ z := by
      intro y hy z hz he
      have := hki y hy
      rw [he, hoi z hz] at this
      simp at this
    obtain ⟨out, h1, h2⟩ := rewrite_spec (z := c.sizes) (bs := c.block hint) (maxSize := p.maxSize)
      (drop := deeper.isEmpty) (runs := [x.2.entries, entriesOf old]) f (by
        intro r hr
        simp only [List.mem_cons, List.not_mem_nil, or_false] at hr
        rcases hr with rfl | rfl
        · exact hox.sorted
        · exact entriesOf_sorted (hl.sub so))
    rw [h1]
    simp only
    have hruns : ∀ k v, In [x.2.entries, entriesOf old] (k, v) ↔ Ver (x.2 :: tabsOf old) k v := by
      intro k v
      rw [show x.2 :: tabsOf old = [x.2] ++ tabsOf old from rfl, ver_append, ← mem_entriesOf (e := (k, v))]
      simp [In, Ver]
    have hruns' : ∀ k v, In [x.2.entries, entriesOf old] (k, v) ↔ (k, v) ∈ x.2.entries ∨ Ver (tabsOf old) k v := by
      intro k v
      rw [← mem_entriesOf (e := (k, v))]
      simp [In]
    have hvo : ∀ k v, Ver (tabsOf old) k v → Ver (tabsOf next) k v := by
      rintro k v ⟨t, ht, hm⟩; exact ⟨t, (so.map _).subset ht, hm⟩
    have hvk : ∀ k v, Ver (tabsOf kept) k v → Ver (tabsOf next) k v := by
      rintro k v ⟨t, ht, hm⟩; exact ⟨t, (sk.map _).subset ht, hm⟩
    have hcn : Newer (tabsOf cur) (tabsOf next) := by
      intro k v v' a b
      exact hcr k v v' a (ver_append.2 (.inl b))
    have hcd : Newer (tabsOf cur) (tabsL deeper) := by
      intro k v v' a b
      exact hcr k v v' a (ver_append.2 (.inr b))
    -- where the ranges of the kept tables are
    have hside : ∀ y ∈ kept, (∀ k v, In [x.2.entries, entriesOf old] (k, v) → y.2.range.2 < k) ∨
        (∀ k v, In [x.2.entries, entriesOf old] (k, v) → k < y.2.range.1) := by
      intro y hy
      have hyn := sk.subset hy
      have oy := hl.ok y hyn
      have hyx : ¬ (x.2.range.1 ≤ y.2.range.2 ∧ y.2.range.1 ≤ x.2.range.2) := by
        intro hh
        have := hki y hy
        have h3 : isIntersecting x.2.range y.2.range = true := by
          simp only [isIntersecting, decide_eq_true_eq, sup_le_iff, le_inf_iff]
          exact ⟨⟨hox.range_le, hh.2⟩, hh.1, oy.range_le⟩
        rw [h3] at this
        simp at this
      have hold' : ∀ z ∈ old, (z.2.range.2 < y.2.range.1 ∨ y.2.range.2 < z.2.range.1) ∧
          x.2.range.1 ≤ z.2.range.2 ∧ z.2.range.1 ≤ x.2.range.2 := by
        intro z hz
        have hzn := so.subset hz
        have h3 := hoi z hz
        simp only [isIntersecting, decide_eq_true_eq, sup_le_iff, le_inf_iff] at h3
        refine ⟨?_, h3.2.1, h3.1.2⟩
        rcases lt_trichotomy z.1 y.1 with hh | hh | hh
        · left; rw [← hl.key z hzn]; exact hl.apart z hzn y hyn hh
        · exact absurd (hl.eq_of_fst hyn hzn hh.symm) (hko y hy z hz)
        · right; rw [← hl.key y hyn]; exact hl.apart y hyn z hzn hh
      rcases lt_or_ge y.2.range.2 x.2.range.1 with hlt | hge
      · left
        intro k v hin
        rcases (hruns' k v).1 hin with hin | hin
        · exact hlt.trans_le (hox.lo_le hin)
        · obtain ⟨z, hz, hm⟩ := ver_tabsOf.1 hin
          obtain ⟨h3, h4, h5⟩ := hold' z hz
          have hzlo := (hl.ok z (so.subset hz)).lo_le hm
          rcases h3 with h3 | h3
          · exact absurd (h3.trans_le (oy.range_le.trans (hlt.le.trans h4))) (lt_irrefl _)
          · exact h3.trans_le hzlo
      · right
        have hgt : x.2.range.2 < y.2.range.1 := not_le.1 fun hh => hyx ⟨hge, hh⟩
        intro k v hin
        rcases (hruns' k v).1 hin with hin | hin
        · exact (hox.le_hi hin).trans_lt hgt
        · obtain ⟨z, hz, hm⟩ := ver_tabsOf.1 hin
          obtain ⟨h3, h4, h5⟩ := hold' z hz
          have hzhi := (hl.ok z (so.subset hz)).le_hi hm
          rcases h3 with h3 | h3
          · exact hzhi.trans_lt h3
          · exact absurd (h3.trans_le (h5.trans (hgt.le.trans oy.range_le))) (lt_irrefl _)
    obtain ⟨i1, i2⟩ := insertAll_ok (hl.sub sk) h2.ok h2.sorted (by
      intro t ht y hy
      obtain ⟨a, ha, ha'⟩ := (h2.ok t ht).lo_mem
      obtain ⟨b, hb, hb'⟩ := (h2.ok t ht).hi_mem
      have ia := h2.sub a.1 a.2 ⟨t, ht, ha⟩
      have ib := h2.sub b.1 b.2 ⟨t, ht, hb⟩
      rcases hside y hy with h3 | h3
      · left; rw [← ha']; exact h3 _ _ ia
      · right; rw [← hb']; exact h3 _ _ ib)
    generalize hnx : out.foldl insertTable kept = next' at i1 i2
    have hvn : ∀ k v, Ver (tabsOf next') k v ↔ Ver out k v ∨ Ver (tabsOf kept) k v := by
      intro k v; rw [ver_perm i2, ver_append]
    have hon : ∀ k v, Ver out k v → (k, v) ∈ x.2.entries ∨ Ver (tabsOf old) k v :=
      fun k v hv => (hruns' k v).1 (h2.sub k v hv)
    have p1 : (tabsL (cur :: next :: deeper)).Perm ((x.2 :: tabsOf old) ++ (tabsOf cur' ++ (tabsOf kept ++ tabsL deeper))) := by
      have h3 : (tabsOf next).Perm (tabsOf old ++ tabsOf kept) := by simpa using hnp.map (·.2)
      show (tabsOf cur ++ (tabsOf next ++ tabsL deeper)).Perm _
      refine (List.Perm.append htd (List.Perm.append_right _ h3)).trans ?_
      simp only [List.cons_append, List.append_assoc]
      refine List.Perm.cons _ ?_
      rw [← List.append_assoc, ← List.append_assoc (tabsOf old)]
      exact List.Perm.append_right _ List.perm_append_comm
    have p2 : (tabsL (cur' :: next' :: deeper)).Perm (out ++ (tabsOf cur' ++ (tabsOf kept ++ tabsL deeper))) := by
      show (tabsOf cur' ++ (tabsOf next' ++ tabsL deeper)).Perm _
      refine (List.Perm.append_left _ (List.Perm.append_right _ i2)).trans ?_
      rw [List.append_assoc, ← List.append_assoc, ← List.append_assoc out]
      exact List.Perm.append_right _ List.perm_append_comm
    refine ⟨cur', next' :: deeper, out, rfl, ⟨?_, ?_, h2.ids, ?_, ?_, ?_⟩, hlen⟩
    · refine levelsOk_cons.2 ⟨hc', levelsOk_cons.2 ⟨i1, hdp, ?_⟩, ?_⟩
      · intro k v v' a b
        rcases (hvn k v).1 a with a | a
        · rcases hon k v a with a | a
          · exact hcd k v v' (hvx k v a) b
          · exact hnd k v v' (hvo k v a) b
        · exact hnd k v v' (hvk k v a) b
      · intro k v v' a b
        rcases ver_append.1 (show Ver (tabsOf next' ++ tabsL deeper) k v' from b) with b | b
        · rcases (hvn k v').1 b with b | b
          · rcases hon k v' b with b | b
            · exact absurd a (hxc k v' v b)
            · exact hcn k v v' (hvc k v a) (hvo k v' b)
          · exact hcn k v v' (hvc k v a) (hvk k v' b)
        · exact hcd k v v' (hvc k v a) b
    · refine (faith_rewrite (Y := tabsOf cur' ++ (tabsOf kept ++ tabsL deeper)) h2 hruns ?_).of_perm p1.symm p2.symm
      intro hdrop k v v' a b
      have hde : deeper = [] := by simpa using hdrop
      have a' : (k, v) ∈ x.2.entries ∨ Ver (tabsOf old) k v := (hruns' k v).1 ((hruns k v).2 a)
      rcases ver_append.1 b with b | b
      · rcases a' with a' | a'
        · exact absurd b (hxc k v v' a')
        · exact hcn k v' v (hvc k v' b) (hvo k v a')
      · rw [hde] at b
        have b' : Ver (tabsOf kept) k v' := by simpa [tabsL] using b
        obtain ⟨y, hy, hm⟩ := ver_tabsOf.1 b'
        have hin := (hruns k v).2 a
        have oy := hl.ok y (sk.subset hy)
        rcases hside y hy with h3 | h3
        · exact absurd ((h3 k v hin).trans_le (oy.le_hi hm)) (lt_irrefl _)
        · exact absurd ((h3 k v hin).trans_le (oy.lo_le hm)) (lt_irrefl _)
    · refine p2.subperm.trans (List.Subperm.trans ?_ (p1.symm.append_right _).subperm)
      exact ((List.subperm_append_left out).2
        (List.sublist_append_right (x.2 :: tabsOf old) (tabsOf cur' ++ (tabsOf kept ++ tabsL deeper))).subperm).trans
        List.perm_append_comm.subperm
    · rw [size_perm p1, size_perm p2, size_append out, size_append (x.2 :: tabsOf old)]
      have h3 := h2.size
      have h4 : total [x.2.entries, entriesOf old] = size (x.2 :: tabsOf old) := by
        simp [total, size, entriesOf, List.length_flatMap, Function.comp_def]
      rw [h4] at h3
      omega
    · simp only [List.length_cons]; omega

/-- What the inner loop does, and that it ends. -/
theorem drain_spec {c : Cfg K V} {p : Params} {hint lim : Nat} : ∀ (n : Nat) {f : Nat} {cur : Level K V}
    {rest : List (Level K V)}, LevelsOk (cur :: rest) → cur.length ≤ n →
    ∃ cur' rest' out, drain c p hint lim n cur rest f = some (cur', rest', out) ∧
      LevelsOk (cur' :: rest') ∧ Faith (tabsL (cur :: rest)) (tabsL (cur' :: rest')) ∧
      out.map (·.id) = List.range' f out.length ∧
      (tabsL (cur' :: rest')).Subperm (tabsL (cur :: rest) ++ out) ∧
      size (tabsL (cur' :: rest')) ≤ size (tabsL (cur :: rest)) ∧ cur'.length ≤ lim ∧
      (rest' = rest ∧ cur' = cur ∨ rest'.length = max 1 rest.length ∧ cur'.length = lim)
  | 0, f, cur, rest, h, hn => by
    unfold drain
    rw [if_pos (by omega)]
    exact ⟨cur, rest, [], rfl, h, Faith.refl _, rfl, by rw [List.append_nil],
      le_refl _, by omega, .inl ⟨rfl, rfl⟩⟩
  | n + 1, f, cur, rest, h, hn => by
    unfold drain
    by_cases hl : cur.length ≤ lim
    · rw [if_pos hl]
      exact ⟨cur, rest, [], rfl, h, Faith.refl _, rfl, by rw [List.append_nil],
        le_refl _, hl, .inl ⟨rfl, rfl⟩⟩
    · rw [if_neg hl]
      obtain ⟨c1, r1, o1, e1, s1, l1⟩ := sink_spec (c := c) (p := p) (hint := hint) (f := f) h
        (by rintro rfl; simp at hl)
      obtain ⟨c2, r2, o2, e2, a1, a2, a3, a4, a5, a6, a7⟩ := drain_spec (c := c) (p := p) (hint := hint) (lim := lim) n
        (f := f + o1.length) s1.ok (by omega)
      rw [e1]
      simp only
      rw [e2]
      refine ⟨c2, r2, o1 ++ o2, rfl, a1, s1.faith.trans a2, ?_, subperm_trans_new s1.tabs a4, a5.trans s1.size, a6, .inr ?_⟩
      · rw [List.map_append, s1.ids, a3, List.length_append, List.range'_append_1]
      · have h1 := s1.len
        rcases a7 with ⟨rfl, rfl⟩ | ⟨h2, h3⟩
        · exact ⟨h1, by omega⟩
        · exact ⟨by omega, h3⟩

theorem ver_tabsL_cons {l : Level K V} {ls : List (Level K V)} {k : K} {v : Val V} :
    Ver (tabsL (l :: ls)) k v ↔ Ver (tabsOf l) k v ∨ Ver (tabsL ls) k v := ver_append

theorem faith_cons {l : Level K V} {ls ls' : List (Level K V)} (h : Newer (tabsOf l) (tabsL ls))
    (hf : Faith (tabsL ls) (tabsL ls')) : Faith (tabsL (l :: ls)) (tabsL (l :: ls')) := by
  refine ⟨fun k v hv => ?_, fun k v hv => ?_⟩
  · rw [ver_tabsL_cons] at hv ⊢
    exact hv.imp id (hf.sub k v)
  · obtain ⟨h1, h2⟩ := hv
    rw [ver_tabsL_cons] at h1 ⊢
    rcases h1 with h1 | h1
    · exact .inl (.inl h1)
    · rcases hf.keep k v ⟨h1, fun v' hv' => h2 v' (ver_tabsL_cons.2 (.inr hv'))⟩ with h3 | ⟨h3, h4⟩
      · exact .inl (.inr h3)
      · refine .inr ⟨h3, fun v' hv' => ?_⟩
        rcases ver_tabsL_cons.1 hv' with hv' | hv'
        · have h5 := h k v' v hv' h1
          rcases h2 v' (ver_tabsL_cons.2 (.inl hv')) with h6 | h6
          · omega
          · rw [h6] at h5; omega
        · exact h4 v' hv'

/-- The result of the outer loop. -/
structure Sorted (p : Params) (index : Nat) (ls : List (Level K V)) (f : Nat) (ls' : List (Level K V))
    (new : List (Table K V)) : Prop where
  ok : LevelsOk ls'
  faith : Faith (tabsL ls) (tabsL ls')
  ids : new.map (·.id) = List.range' f new.length
  tabs : (tabsL ls').Subperm (tabsL ls ++ new)
  limit : ∀ i (h : i < ls'.length), ls'[i].length ≤ limit p (index + i)

/-- What the outer loop does if it ends. -/
theorem down_spec {c : Cfg K V} {p : Params} {hint : Nat} : ∀ (n : Nat) {index f : Nat} {ls ls' : List (Level K V)}
    {new : List (Table K V)}, LevelsOk ls → down c p hint n index ls f = some (ls', new) → Sorted p index ls f ls' new
  | n, index, f, [], ls', new, h, hd => by
    cases n <;> (
      simp only [down, Option.some.injEq, Prod.mk.injEq] at hd
      obtain ⟨rfl, rfl⟩ := hd
      exact ⟨h, Faith.refl _, rfl, List.Subperm.refl _, by simp⟩)
  | 0, index, f, cur :: rest, ls', new, h, hd => by simp [down] at hd
  | n + 1, index, f, cur :: rest, ls', new, h, hd => by
    obtain ⟨c1, r1, o1, e1, a1, a2, a3, a4, a5, a6, a7⟩ := drain_spec (c := c) (p := p) (hint := hint)
      (lim := Leveled.limit p index) cur.length (f := f) h (le_refl _)
    unfold down at hd
    rw [e1] at hd
    simp only at hd
    cases e2 : down c p hint n (index + 1) r1 (f + o1.length) with
    | none => rw [e2] at hd; simp at hd
    | some r =>
      obtain ⟨ls2, n2⟩ := r
      rw [e2] at hd
      simp only [Option.some.injEq, Prod.mk.injEq] at hd
      obtain ⟨rfl, rfl⟩ := hd
      obtain ⟨b1, b2, b3⟩ := levelsOk_cons.1 a1
      have ih := down_spec n b2 e2
      refine ⟨levelsOk_cons.2 ⟨b1, ih.ok, b3.mono (fun _ _ h => h) ih.faith.sub⟩, a2.trans (faith_cons b3 ih.faith), ?_,
        subperm_trans_new a4 ?_, ?_⟩
      · rw [List.map_append, a3, ih.ids, List.length_append, List.range'_append_1]
      · show (tabsOf c1 ++ tabsL ls2).Subperm ((tabsOf c1 ++ tabsL r1) ++ n2)
        rw [List.append_assoc]
        exact (List.subperm_append_left _).2 ih.tabs
      · intro i hi
        cases i with
        | zero => simpa using a6
        | succ i =>
          have := ih.limit i (by simpa using hi)
          simp only [List.getElem_cons_succ]
          rw [show index + (i + 1) = index + 1 + i by omega]
          exact this

theorem length_le_size {l : Level K V} (h : LevelOk l) : l.length ≤ size (tabsOf l) := by
  induction l with
  | nil => simp
  | cons x l ih =>
    have h1 := ih (h.sub (List.sublist_cons_self _ _))
    have h2 := List.length_pos_iff.2 (h.ok x (by simp)).ne_nil
    simp only [tabsOf, List.map_cons, size_cons, List.length_cons] at h1 ⊢
    omega

/-- The outer loop ends if every level may have at least one table. -/
theorem down_isSome {c : Cfg K V} {p : Params} {hint : Nat} : ∀ (n : Nat) {index f : Nat} {ls : List (Level K V)},
    LevelsOk ls → (∀ i, 1 ≤ Leveled.limit p i) → ls.length + size (tabsL ls) ≤ n →
    ∃ r, down c p hint n index ls f = some r
  | n, index, f, [], h, hp, hn => by cases n <;> exact ⟨_, rfl⟩
  | 0, index, f, cur :: rest, h, hp, hn => by simp at hn
  | n + 1, index, f, cur :: rest, h, hp, hn => by
    obtain ⟨c1, r1, o1, e1, a1, a2, a3, a4, a5, a6, a7⟩ := drain_spec (c := c) (p := p) (hint := hint)
      (lim := Leveled.limit p index) cur.length (f := f) h (le_refl _)
    have hc1 := (levelsOk_cons.1 a1).1
    have hs := length_le_size hc1
    have e3 : size (tabsL (c1 :: r1)) = size (tabsOf c1) + size (tabsL r1) := size_append _ _
    have hlim := hp index
    obtain ⟨r, e2⟩ := down_isSome (c := c) (p := p) (hint := hint) n (index := index + 1) (f := f + o1.length)
      (levelsOk_cons.1 a1).2.1 hp (by
        simp only [List.length_cons] at hn
        rcases a7 with ⟨rfl, rfl⟩ | ⟨h1, h2⟩
        · omega
        · omega)
    unfold down
    rw [e1]
    simp only
    rw [e2]
    exact ⟨_, rfl⟩

/-! ### A whole compaction -/

/-- The invariant of the metadata. -/
structure Inv (m : Meta K V) : Prop where
  ok : ∀ t ∈ m.l0, t.Ok
  order : m.l0.Pairwise fun t u => t.times.2 < u.times.1
  levels : LevelsOk m.levels
  newer : ∀ t ∈ m.l0, ∀ u ∈ tabsL m.levels, u.times.2 < t.times.1

theorem levelsOk_tab {ls : List (Level K V)} (h : LevelsOk ls) : ∀ t ∈ tabsL ls, t.Ok := by
  intro t ht
  obtain ⟨l, hl, htl⟩ := List.mem_flatMap.1 ht
  obtain ⟨e, he, rfl⟩ := mem_tabsOf.1 htl
  exact (h.level l hl).ok e he

theorem firstLevel_ok {ls : List (Level K V)} (h : LevelsOk ls) :
    LevelsOk ((firstLevel ls).1 :: (firstLevel ls).2) ∧ tabsL ((firstLevel ls).1 :: (firstLevel ls).2) = tabsL ls ∧
      (firstLevel ls).2.length ≤ ls.length := by
  cases ls with
  | nil =>
    refine ⟨levelsOk_cons.2 ⟨levelOk_nil, levelsOk_nil, ?_⟩, rfl, le_refl _⟩
    rintro k v v' ⟨t, ht, _⟩; simp [firstLevel] at ht
  | cons l ls => exact ⟨h, rfl, by simp [firstLevel]⟩

/-- The first part of a compaction. -/
theorem compact0_spec {c : Cfg K V} {p : Params} {m : Meta K V} (h : Inv m) (f : Nat) :
    ∃ out, compact0 c p m f = some out ∧
      LevelsOk (out.foldl insertTable [] :: (firstLevel m.levels).2) ∧
      Faith (m.l0 ++ tabsL m.levels) (tabsL (out.foldl insertTable [] :: (firstLevel m.levels).2)) ∧
      out.map (·.id) = List.range' f out.length ∧
      (tabsL (out.foldl insertTable [] :: (firstLevel m.levels).2)).Subperm (m.l0 ++ tabsL m.levels ++ out) ∧
      size (tabsL (out.foldl insertTable [] :: (firstLevel m.levels).2)) ≤ size (m.l0 ++ tabsL m.levels) := by
  obtain ⟨f1, f2, f3⟩ := firstLevel_ok h.levels
  unfold compact0
  generalize (firstLevel m.levels).1 = first at f1 f2
  generalize (firstLevel m.levels).2 = rest at f1 f2 f3
  obtain ⟨g1, g2, g3⟩ := levelsOk_cons.1 f1
  obtain ⟨out, h1, h2⟩ := rewrite_spec (z := c.sizes) (bs := c.block (hintOf m)) (maxSize := p.maxSize)
    (drop := rest.isEmpty) (runs := m.l0.map (·.entries) ++ [entriesOf first]) f (by
      intro r hr
      rcases List.mem_append.1 hr with hr | hr
      · obtain ⟨t, ht, rfl⟩ := List.mem_map.1 hr
        exact (h.ok t ht).sorted
      · simp only [List.mem_singleton] at hr
        rw [hr]
        exact entriesOf_sorted g1)
  have hruns : ∀ k v, In (m.l0.map (·.entries) ++ [entriesOf first]) (k, v) ↔ Ver (m.l0 ++ tabsOf first) k v := by
    intro k v
    rw [ver_append, ← in_map_entries (e := (k, v)), ← mem_entriesOf (e := (k, v))]
    simp only [In, List.mem_append, List.mem_singleton]
    constructor
    · rintro ⟨r, hr | rfl, he⟩
      · exact .inl ⟨r, hr, he⟩
      · exact .inr he
    · rintro (⟨r, hr, he⟩ | he)
      · exact ⟨r, .inl hr, he⟩
      · exact ⟨_, .inr rfl, he⟩
  obtain ⟨i1, i2⟩ := insertAll_ok levelOk_nil h2.ok h2.sorted (by simp)
  rw [show tabsOf ([] : Level K V) = [] from rfl, List.append_nil] at i2
  refine ⟨out, h1, ?_⟩
  generalize out.foldl insertTable [] = lv at i1 i2 ⊢
  have hl0 : ∀ k v v', Ver m.l0 k v → Ver (tabsL rest) k v' → v'.time < v.time := by
    rintro k v v' ⟨t, ht, hm⟩ ⟨u, hu, hm'⟩
    have hu' : u ∈ tabsL m.levels := by rw [← f2]; exact List.mem_append_right _ hu
    have h3 := h.newer t ht u hu'
    have h4 := (h.ok t ht).timeLo _ hm
    have h5 := (levelsOk_tab h.levels u hu').timeHi _ hm'
    simp only at h4 h5
    omega
  have hnew : Newer (m.l0 ++ tabsOf first) (tabsL rest) := by
    intro k v v' a b
    rcases ver_append.1 a with a | a
    · exact hl0 k v v' a b
    · exact g3 k v v' a b
  have p1 : (m.l0 ++ tabsL m.levels) = (m.l0 ++ tabsOf first) ++ tabsL rest := by
    rw [← f2, List.append_assoc]; rfl
  have p2 : (tabsL (lv :: rest)).Perm (out ++ tabsL rest) := List.Perm.append_right _ i2
  refine ⟨?_, ?_, h2.ids, ?_, ?_⟩
  · refine levelsOk_cons.2 ⟨i1, g2, hnew.mono (fun k v hv => ?_) (fun _ _ h => h)⟩
    exact (hruns k v).1 (h2.sub k v ((ver_perm i2).1 hv))
  · rw [p1]
    refine (faith_rewrite (Y := tabsL rest) h2 hruns ?_).of_perm (List.Perm.refl _) p2.symm
    intro hd k v v' _ b
    have : rest = [] := by simpa using hd
    rw [this] at b
    simp [Ver] at b
  · rw [p1]
    refine p2.subperm.trans ?_
    refine List.Subperm.trans ?_ List.perm_append_comm.subperm
    exact (List.subperm_append_left out).2 (List.sublist_append_right _ _).subperm
  · rw [p1, size_perm p2, size_append, size_append (m.l0 ++ tabsOf first)]
    have h3 := h2.size
    have h4 : total (m.l0.map (·.entries) ++ [entriesOf first]) = size (m.l0 ++ tabsOf first) := by
      simp [total, size, entriesOf, List.length_flatMap, Function.comp_def]
    rw [h4] at h3
    omega

/-- The result of a compaction. -/
structure Compacted (p : Params) (S : Meta K V) (f : Nat) (C : Meta K V) (new : List (Table K V)) : Prop where
  l0 : C.l0 = []
  ok : LevelsOk C.levels
  faith : Faith (S.l0 ++ tabsL S.levels) (tabsL C.levels)
  ids : new.map (·.id) = List.range' f new.length
  tabs : (tabsL C.levels).Subperm (S.l0 ++ tabsL S.levels ++ new)
  limit : ∀ i (h : i < C.levels.length), C.levels[i].length ≤ Leveled.limit p i

theorem compactN_spec {c : Cfg K V} {p : Params} {n : Nat} {S C : Meta K V} {f : Nat} {new : List (Table K V)}
    (h : Inv S) (hc : compactN c p n S f = some (C, new)) : Compacted p S f C new := by
  obtain ⟨out, a1, a2, a3, a4, a5, a6⟩ := compact0_spec (c := c) (p := p) h f
  unfold compactN at hc
  rw [a1] at hc
  simp only at hc
  cases hd : down c p (hintOf S) n 0 (out.foldl insertTable [] :: (firstLevel S.levels).2) (f + out.length) with
  | none => rw [hd] at hc; simp at hc
  | some r =>
    obtain ⟨ls, new'⟩ := r
    rw [hd] at hc
    simp only [Option.some.injEq, Prod.mk.injEq] at hc
    obtain ⟨rfl, rfl⟩ := hc
    have b := down_spec n a2 hd
    refine ⟨rfl, b.ok, a3.trans b.faith, ?_, subperm_trans_new a5 b.tabs, ?_⟩
    · rw [List.map_append, a4, b.ids, List.length_append, List.range'_append_1]
    · intro i hi
      have := b.limit i hi
      rwa [Nat.zero_add] at this

theorem compact_total {c : Cfg K V} {p : Params} {S : Meta K V} (h : Inv S) (hp : ∀ i, 1 ≤ Leveled.limit p i) (f : Nat) :
    ∃ r, compact c p S f = some r := by
  obtain ⟨out, a1, a2, a3, a4, a5, a6⟩ := compact0_spec (c := c) (p := p) h f
  obtain ⟨f1, f2, f3⟩ := firstLevel_ok h.levels
  unfold compact compactN
  rw [a1]
  simp only
  obtain ⟨⟨ls, new⟩, hr⟩ := down_isSome (c := c) (p := p) (hint := hintOf S) (index := 0) (f := f + out.length)
    (S.levels.length + size (S.l0 ++ tabsL S.levels) + 1) a2 hp (by
      simp only [List.length_cons]; omega)
  rw [hr]
  exact ⟨_, rfl⟩

/-! ### Taking over a compaction -/

theorem ext_l0 {c : Cfg K V} {p : Params} {good : List (Ent K V) → Prop} {S cur : Meta K V}
    (h : Ext (kind c p) good S cur) : cur.levels = S.levels ∧ ∀ t ∈ S.l0, t ∈ cur.l0 := by
  have key : ∀ {S cur : (kind c p).M}, Ext (kind c p) good S cur →
      cur.levels = S.levels ∧ ∀ t ∈ S.l0, t ∈ cur.l0 := by
    intro S cur h
    induction h with
    | refl => exact ⟨rfl, fun t h => h⟩
    | push _ _ _ _ ih => exact ⟨ih.1, fun t h => List.mem_append_left _ (ih.2 t h)⟩
  exact key h

theorem tabs_push (c : Cfg K V) (p : Params) (m : Meta K V) (t : Table K V) :
    ((kind c p).tabs ((kind c p).push m t)).Perm (t :: (kind c p).tabs m) := by
  show ((m.l0 ++ [t]) ++ tabsL m.levels).Perm (t :: (m.l0 ++ tabsL m.levels))
  rw [List.append_assoc]
  exact List.perm_middle

theorem ext_split {c : Cfg K V} {p : Params} {good : List (Ent K V) → Prop} {S cur : Meta K V}
    (h : Ext (kind c p) good S cur) : ∀ t ∈ cur.l0 ++ tabsL cur.levels, t ∈ S.l0 ++ tabsL S.levels ∨
      (t.Ok ∧ ∀ u ∈ S.l0 ++ tabsL S.levels, u.times.2 < t.times.1) :=
  Ext.split (kd := kind c p) (tabs_push c p) h

theorem replace_spec {c : Cfg K V} {p : Params} {good : List (Ent K V) → Prop} {S cur C : Meta K V} {f : Nat}
    {new : List (Table K V)} {W : K → Option (Val V)} (hS : Inv S) (he : Ext (kind c p) good S cur) (hcur : Inv cur)
    (hc : Compacted p S f C new) (hnd : ((cur.l0 ++ tabsL cur.levels).map (·.id)).Nodup)
    (hnew : ∀ u ∈ new, u.id ∉ (cur.l0 ++ tabsL cur.levels).map (·.id))
    (hs : Sees true (cur.l0 ++ tabsL cur.levels) W) :
    Inv (replace cur C) ∧ Sees true ((replace cur C).l0 ++ tabsL (replace cur C).levels) W ∧
    (∀ k v, Ver ((replace cur C).l0 ++ tabsL (replace cur C).levels) k v → Ver (cur.l0 ++ tabsL cur.levels) k v) ∧
    (∀ t ∈ (replace cur C).l0 ++ tabsL (replace cur C).levels, t ∈ cur.l0 ++ tabsL cur.levels ∨ t ∈ new) ∧
    (((replace cur C).l0 ++ tabsL (replace cur C).levels).map (·.id)).Nodup := by
  obtain ⟨el, e0⟩ := ext_l0 he
  have hsub : ∀ t ∈ S.l0 ++ tabsL S.levels, t ∈ cur.l0 ++ tabsL cur.levels :=
    Ext.sub' (kd := kind c p) (tabs_push c p) he
  have hndS : ((S.l0 ++ tabsL S.levels).map (·.id)).Nodup := Ext.nodup (kd := kind c p) (tabs_push c p) he hnd
  have okS : ∀ t ∈ S.l0 ++ tabsL S.levels, t.Ok := by
    intro t ht
    rcases List.mem_append.1 ht with ht | ht
    · exact hS.ok t ht
    · exact levelsOk_tab hS.levels t ht
  have hvsub : ∀ k v, Ver (S.l0 ++ tabsL S.levels) k v → Ver (cur.l0 ++ tabsL cur.levels) k v :=
    fun k v ⟨t, ht, hm⟩ => ⟨t, hsub t ht, hm⟩
  generalize hkp : cur.l0.filter (fun t => optLt (endTime (tabsL C.levels)) (some t.times.1)) = kp
  have hkm : ∀ t, t ∈ kp ↔ t ∈ cur.l0 ∧ ∀ u ∈ tabsL C.levels, u.times.2 < t.times.1 := by
    intro t; rw [← hkp, List.mem_filter, optLt_endTime]
  have hrep : replace cur C = ⟨kp, C.levels⟩ := by
    unfold replace; rw [hkp, hc.l0]; rfl
  rw [hrep]
  simp only
  have skp : kp.Sublist cur.l0 := hkp ▸ List.filter_sublist
  -- the tables of the levels end no later than some table of the snapshot
  have hCS : ∀ u ∈ tabsL C.levels, ∃ w ∈ S.l0 ++ tabsL S.levels, u.times.2 ≤ w.times.2 := by
    intro u hu
    obtain ⟨⟨k, v⟩, hm, hmt⟩ := (levelsOk_tab hc.ok u hu).timeHiMem
    obtain ⟨w, hw, hwm⟩ := hc.faith.sub k v ⟨u, hu, hm⟩
    have := (okS w hw).timeHi _ hwm
    exact ⟨w, hw, by simp only at hmt this; omega⟩
  -- tables pushed after the snapshot stay
  have hN : ∀ t ∈ cur.l0 ++ tabsL cur.levels, t ∉ S.l0 ++ tabsL S.levels → t ∈ kp := by
    intro t ht hn
    have ht0 : t ∈ cur.l0 := by
      rcases List.mem_append.1 ht with ht | ht
      · exact ht
      · rw [el] at ht; exact absurd (List.mem_append_right _ ht) hn
    rw [hkm]
    refine ⟨ht0, fun u hu => ?_⟩
    rcases ext_split he t ht with h | ⟨_, h⟩
    · exact absurd h hn
    · obtain ⟨w, hw, hle⟩ := hCS u hu
      exact hle.trans_lt (h w hw)
  have hver : ∀ k v, Ver (kp ++ tabsL C.levels) k v → Ver (cur.l0 ++ tabsL cur.levels) k v := by
    intro k v hv
    rcases ver_append.1 hv with ⟨t, ht, hm⟩ | hv
    · exact ver_append.2 (.inl ⟨t, skp.subset ht, hm⟩)
    · exact hvsub k v (hc.faith.sub k v hv)
  have hmax : ∀ k w, W k = some w → ∀ v', Ver (cur.l0 ++ tabsL cur.levels) k v' → v'.time < w.time ∨ v' = w := by
    intro k w hw v' hv'
    obtain ⟨w', hw', h3⟩ := hs.old k v' hv'
    rw [hw] at hw'
    simp only [Option.some.injEq] at hw'
    subst hw'
    exact h3
  refine ⟨⟨fun t ht => hcur.ok t (skp.subset ht), hcur.order.sublist skp, hc.ok, fun t ht u hu => ((hkm t).1 ht).2 u hu⟩,
    ⟨fun k v hv => hs.old k v (hver k v hv), ?_, ?_⟩, hver, ?_, ?_⟩
  · intro k w hw hd
    obtain ⟨t, ht, hm⟩ := hs.live k w hw hd
    by_cases htS : t ∈ S.l0 ++ tabsL S.levels
    · rcases hc.faith.keep k w ⟨⟨t, htS, hm⟩, fun v' hv' => hmax k w hw v' (hvsub k v' hv')⟩ with h1 | ⟨h1, _⟩
      · exact ver_append.2 (.inr h1)
      · rw [h1] at hd; simp at hd
    · exact ver_append.2 (.inl ⟨t, hN t ht htS, hm⟩)
  · intro _ k w hw hd
    rcases hs.dead rfl k w hw hd with ⟨t, ht, hm⟩ | hno
    · by_cases htS : t ∈ S.l0 ++ tabsL S.levels
      · rcases hc.faith.keep k w ⟨⟨t, htS, hm⟩, fun v' hv' => hmax k w hw v' (hvsub k v' hv')⟩ with h1 | ⟨_, h2⟩
        · exact .inl (ver_append.2 (.inr h1))
        · by_cases htk : t ∈ kp
          · exact .inl (ver_append.2 (.inl ⟨t, htk, hm⟩))
          · right
            intro v hv
            rcases ver_append.1 hv with ⟨u, hu, hum⟩ | hv
            · have hu0 := ((hkm u).1 hu).1
              have hlt : w.time < v.time := by
                have hlo := (hcur.ok u hu0).timeLo _ hum
                have hhi := (okS t htS).timeHi _ hm
                simp only at hlo hhi
                have : t.times.2 < u.times.1 := by
                  rcases List.mem_append.1 htS with ht0 | htl
                  · have ht0' := e0 t ht0
                    have hne : t ≠ u := fun h => htk (h ▸ hu)
                    -- one of the two is before the other
                    by_contra hcon
                    have hord : u.times.2 < t.times.1 := by
                      have hp := hcur.order
                      have : ∀ {l : List (Table K V)}, l.Pairwise (fun a b => a.times.2 < b.times.1) → t ∈ l → u ∈ l →
                          t.times.2 < u.times.1 ∨ u.times.2 < t.times.1 := by
                        intro l hl h1 h2
                        induction l with
                        | nil => simp at h1
                        | cons x l ih =>
                          obtain ⟨q1, q2⟩ := List.pairwise_cons.1 hl
                          rcases List.mem_cons.1 h1 with h1 | h1 <;> rcases List.mem_cons.1 h2 with h2 | h2
                          · exact absurd (h1.trans h2.symm) hne
                          · exact .inl (h1 ▸ q1 u h2)
                          · exact .inr (h2 ▸ q1 t h1)
                          · exact ih q2 h1 h2
                      exact (this hp ht0' hu0).resolve_left hcon
                    refine htk ((hkm t).2 ⟨ht0', fun x hx => ?_⟩)
                    have h3 := ((hkm u).1 hu).2 x hx
                    obtain ⟨e, he, hee⟩ := (hcur.ok u hu0).timeLoMem
                    have h4 := (hcur.ok u hu0).timeHi e he
                    omega
                  · exact hcur.newer u hu0 t (el ▸ htl)
                omega
              rcases hmax k w hw v (ver_append.2 (.inl ⟨u, hu0, hum⟩)) with h6 | h6
              · omega
              · rw [h6] at hlt; omega
            · exact h2 v hv
      · exact .inl (ver_append.2 (.inl ⟨t, hN t ht htS, hm⟩))
    · exact .inr fun v hv => hno v (hver k v hv)
  · intro t ht
    rcases List.mem_append.1 ht with ht | ht
    · exact .inl (List.mem_append_left _ (skp.subset ht))
    · rcases List.mem_append.1 (hc.tabs.subset ht) with h1 | h1
      · exact .inl (hsub t h1)
      · exact .inr h1
  · rw [List.map_append]
    have hn1 : ((tabsL C.levels).map (·.id)).Nodup := by
      have hsp : ((tabsL C.levels).map (·.id)).Subperm ((S.l0 ++ tabsL S.levels ++ new).map (·.id)) := by
        obtain ⟨l, hl1, hl2⟩ := hc.tabs
        exact ⟨l.map (·.id), hl1.map _, hl2.map _⟩
      suffices hh : ((S.l0 ++ tabsL S.levels ++ new).map (·.id)).Nodup by
        obtain ⟨l, hl1, hl2⟩ := hsp
        exact hl1.nodup_iff.1 (hh.sublist hl2)
      rw [List.map_append]
      refine List.nodup_append.2 ⟨hndS, by rw [hc.ids]; exact List.nodup_range', ?_⟩
      intro i hi j hj hij
      obtain ⟨t, ht, rfl⟩ := List.mem_map.1 hi
      obtain ⟨u, hu, rfl⟩ := List.mem_map.1 hj
      exact hnew u hu (List.mem_map.2 ⟨t, hsub t ht, hij⟩)
    refine List.nodup_append.2 ⟨?_, hn1, ?_⟩
    · rw [List.map_append] at hnd
      exact (List.nodup_append.1 hnd).1.sublist (skp.map _)
    · intro i hi j hj hij
      obtain ⟨t, ht, rfl⟩ := List.mem_map.1 hi
      obtain ⟨u, hu, rfl⟩ := List.mem_map.1 hj
      have htc : t ∈ cur.l0 ++ tabsL cur.levels := List.mem_append_left _ (skp.subset ht)
      rcases List.mem_append.1 (hc.tabs.subset hu) with h1 | h1
      · have := List.inj_on_of_nodup_map hnd htc (hsub u h1) hij
        subst this
        have h2 := ((hkm t).1 ht).2 t hu
        obtain ⟨e, he, hee⟩ := (hcur.ok t (skp.subset ht)).timeLoMem
        have h3 := (hcur.ok t (skp.subset ht)).timeHi e he
        omega
      · exact hnew u h1 (List.mem_map.2 ⟨t, htc, hij⟩)

theorem inv_push {m : Meta K V} {t : Table K V} (h : Inv m) (ht : t.Ok)
    (hn : ∀ u ∈ m.l0 ++ tabsL m.levels, u.times.2 < t.times.1) : Inv ⟨m.l0 ++ [t], m.levels⟩ := by
  refine ⟨?_, ?_, h.levels, ?_⟩
  · intro u hu
    rcases List.mem_append.1 hu with hu | hu
    · exact h.ok u hu
    · simp only [List.mem_singleton] at hu; rw [hu]; exact ht
  · refine List.pairwise_append.2 ⟨h.order, List.pairwise_singleton _ _, ?_⟩
    intro a ha b hb
    simp only [List.mem_singleton] at hb
    subst hb
    exact hn a (List.mem_append_left _ ha)
  · intro u hu x hx
    rcases List.mem_append.1 hu with hu | hu
    · exact h.newer u hu x hx
    · simp only [List.mem_singleton] at hu
      subst hu
      exact hn x (List.mem_append_right _ hx)

theorem levels_get {ls : List (Level K V)} (h : LevelsOk ls) {k : K} {o : Option (Val V)}
    (hg : ls.findSome? (levelGet · k) = o) :
    (o = none → ∀ v, ¬ Ver (tabsL ls) k v) ∧
    (∀ v, o = some v → Ver (tabsL ls) k v ∧ ∀ v', Ver (tabsL ls) k v' → v'.time ≤ v.time) := by
  induction ls with
  | nil => subst hg; simp [Ver]
  | cons l ls ih =>
    obtain ⟨h1, h2, h3⟩ := levelsOk_cons.1 h
    rw [List.findSome?_cons] at hg
    cases hl : levelGet l k with
    | some v =>
      rw [hl] at hg
      simp only at hg
      subst hg
      have hv := (levelGet_some h1).1 hl
      refine ⟨by simp, fun v' hv' => ?_⟩
      simp only [Option.some.injEq] at hv'
      subst hv'
      refine ⟨ver_tabsL_cons.2 (.inl hv), fun v' hv' => ?_⟩
      rcases ver_tabsL_cons.1 hv' with h4 | h4
      · have := (levelGet_some h1).2 h4
        rw [hl] at this
        rw [Option.some.inj this]
      · exact (h3 k v v' hv h4).le
    | none =>
      rw [hl] at hg
      simp only at hg
      obtain ⟨i1, i2⟩ := ih h2 hg
      have hno : ∀ v, ¬ Ver (tabsOf l) k v := by
        intro v hv
        rw [(levelGet_some h1).2 hv] at hl
        simp at hl
      refine ⟨fun ho v hv => ?_, fun v hv => ?_⟩
      · rcases ver_tabsL_cons.1 hv with h4 | h4
        · exact hno v h4
        · exact i1 ho v h4
      · refine ⟨ver_tabsL_cons.2 (.inr (i2 v hv).1), fun v' hv' => ?_⟩
        rcases ver_tabsL_cons.1 hv' with h4 | h4
        · exact absurd h4 (hno v')
        · exact (i2 v hv).2 v' h4

theorem l0_newer {m : Meta K V} (h : Inv m) : Newer m.l0 (tabsL m.levels) := by
  rintro k v v' ⟨t, ht, hm⟩ ⟨u, hu, hm'⟩
  have h3 := h.newer t ht u hu
  have h4 := (h.ok t ht).timeLo _ hm
  have h5 := (levelsOk_tab h.levels u hu).timeHi _ hm'
  simp only at h4 h5
  omega

/-- The facts that hold in all histories. -/
def laws (c : Cfg K V) (p : Params) : Laws (kind c p) true where
  good _ := True
  inv m := Inv m
  inv_empty := ⟨by simp, List.Pairwise.nil, levelsOk_nil, by simp⟩
  tabs_empty := rfl
  inv_ok := by
    intro m h t ht
    rcases List.mem_append.1 ht with ht | ht
    · exact h.ok t ht
    · exact levelsOk_tab h.levels t ht
  inv_push := fun h1 h2 _ h4 => inv_push h1 h2 h4
  tabs_push := tabs_push c p
  compact_new := by
    intro S j f C new hi hp hc
    have hj : j = S := by
      have hp' : plan p S = some j := hp
      unfold plan at hp'
      split at hp'
      · exact (Option.some.inj hp').symm
      · simp at hp'
    subst hj
    have h := compactN_spec hi hc
    refine ⟨h.ids, fun t ht => ?_⟩
    have ht' : t ∈ C.l0 ++ tabsL C.levels := ht
    rw [h.l0] at ht'
    exact List.mem_append.1 (h.tabs.subset ht')
  replace := by
    intro S j f C new cur W hi hp hc he hcur hnd hnew hs
    have hj : j = S := by
      have hp' : plan p S = some j := hp
      unfold plan at hp'
      split at hp'
      · exact (Option.some.inj hp').symm
      · simp at hp'
    subst hj
    exact replace_spec hi he hcur (compactN_spec hi hc) hnd hnew hs
  get_some := by
    intro m k v hi hg
    have hg' : get m k = some v := hg
    unfold get at hg'
    cases h0 : SizeTiered.get m.l0 k with
    | some w =>
      rw [h0] at hg'
      simp only [Option.some.injEq] at hg'
      subst hg'
      obtain ⟨_, h2⟩ := SizeTiered.get_fold hi.ok k none h0
      obtain ⟨a, b, c⟩ := h2 w rfl
      have ha := a.resolve_left (by simp)
      refine ⟨ver_append.2 (.inl ha), fun v' hv' => ?_⟩
      rcases ver_append.1 hv' with h3 | h3
      · exact c v' h3
      · exact (l0_newer hi k w v' ha h3).le
    | none =>
      rw [h0] at hg'
      simp only at hg'
      obtain ⟨h1, _⟩ := SizeTiered.get_fold hi.ok k none h0
      obtain ⟨a, b⟩ := (levels_get hi.levels hg').2 v rfl
      refine ⟨ver_append.2 (.inr a), fun v' hv' => ?_⟩
      rcases ver_append.1 hv' with h3 | h3
      · exact absurd h3 ((h1 rfl).2 v')
      · exact b v' h3
  get_none := by
    intro m k hi hg v hv
    have hg' : get m k = none := hg
    unfold get at hg'
    cases h0 : SizeTiered.get m.l0 k with
    | some w => rw [h0] at hg'; simp at hg'
    | none =>
      rw [h0] at hg'
      simp only at hg'
      obtain ⟨h1, _⟩ := SizeTiered.get_fold hi.ok k none h0
      rcases ver_append.1 hv with h3 | h3
      · exact (h1 rfl).2 v h3
      · exact (levels_get hi.levels hg').1 rfl v h3
  runs_sorted := by
    intro m hi r hr
    rcases List.mem_append.1 hr with hr | hr
    · obtain ⟨t, ht, rfl⟩ := List.mem_map.1 hr
      exact (hi.ok t ht).sorted
    · obtain ⟨l, hl, rfl⟩ := List.mem_map.1 hr
      exact entriesOf_sorted (hi.levels.level l hl)
  runs_in := by
    intro m hi e
    constructor
    · rintro ⟨r, hr, he⟩
      rcases List.mem_append.1 hr with hr | hr
      · obtain ⟨t, ht, rfl⟩ := List.mem_map.1 hr
        exact ⟨t, List.mem_append_left _ ht, he⟩
      · obtain ⟨l, hl, rfl⟩ := List.mem_map.1 hr
        obtain ⟨t, ht, hm⟩ := mem_entriesOf.1 he
        exact ⟨t, List.mem_append_right _ (List.mem_flatMap.2 ⟨l, hl, ht⟩), hm⟩
    · rintro ⟨t, ht, hm⟩
      rcases List.mem_append.1 ht with ht | ht
      · exact ⟨_, List.mem_append_left _ (List.mem_map.2 ⟨t, ht, rfl⟩), hm⟩
      · obtain ⟨l, hl, htl⟩ := List.mem_flatMap.1 ht
        exact ⟨_, List.mem_append_right _ (List.mem_map.2 ⟨l, hl, rfl⟩), mem_entriesOf.2 ⟨t, htl, hm⟩⟩

theorem limit_pos {p : Params} (h1 : 1 ≤ p.initCount) (h2 : 1 ≤ p.growth) (i : Nat) : 1 ≤ Leveled.limit p i := by
  unfold Leveled.limit
  exact Nat.mul_pos h1 (Nat.pow_pos h2)

theorem laws_total (c : Cfg K V) (p : Params) (h1 : 1 ≤ p.initCount) (h2 : 1 ≤ p.growth) :
    (laws c p : Laws (kind c p) true).Total := by
  intro S j hi hp f
  have hj : j = S := by
    have hp' : plan p S = some j := hp
    unfold plan at hp'
    split at hp'
    · exact (Option.some.inj hp').symm
    · simp at hp'
  subst hj
  exact compact_total hi (limit_pos h1 h2) f

end Verif.Lsm.Leveled
