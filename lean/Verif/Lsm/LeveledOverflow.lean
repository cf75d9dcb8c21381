/-
The arithmetic of the level limits in 64 bits: leveled.rs:357-362 computes
`max_initial_level_count * growth_factor.pow(index)`, which may overflow.  With overflow checks the compaction thread
panics, and without them the result wraps around.  This file says when neither happens, and what happens if the limits
wrap around to 0.
-/
import Verif.Lsm.Swap
import Verif.Lsm.LeveledEnds

namespace Verif.Lsm.Leveled

open Verif Verif.Spec
open Verif.Lsm.SizeTiered (ver_append ver_perm in_map_entries)

variable {K V : Type}

/-- leveled.rs:359-360 with overflow checks (a debug build): `growth_factor.pow(index as u32)` and its product with
`max_initial_level_count`; `none` is a panic of the compaction thread. -/
def limitC (p : Params) (index : Nat) : Option Nat :=
  if p.growth ^ index < 2 ^ 64 then
    if p.initCount * p.growth ^ index < 2 ^ 64 then some (p.initCount * p.growth ^ index) else none
  else none

/-- leveled.rs:359-360 without overflow checks (a release build): both wrap around. -/
def limitW (p : Params) (index : Nat) : Option Nat :=
  some (p.initCount * (p.growth ^ index % 2 ^ 64) % 2 ^ 64)

variable [LinearOrder K]

/-- leveled.rs:352-427, as `down`, with the limits `lim`. -/
def downG (c : Cfg K V) (p : Params) (lim : Nat → Option Nat) (hint : Nat) : Nat → Nat → List (Level K V) → Nat →
    Option (List (Level K V) × List (Table K V))
  | _, _, [], _ => some ([], [])
  | 0, _, _ :: _, _ => none
  | n + 1, index, cur :: rest, f =>
    match lim index with
    | none => none
    | some li =>
      match drain c p hint li cur.length cur rest f with
      | none => none
      | some (cur, rest, out) =>
        match downG c p lim hint n (index + 1) rest (f + out.length) with
        | none => none
        | some (ls, new) => some (cur :: ls, out ++ new)

/-- leveled.rs:294-435 `compact`, as `compactN`, with the limits `lim`. -/
def compactG (c : Cfg K V) (p : Params) (lim : Nat → Option Nat) (n : Nat) (m : Meta K V) (f : Nat) :
    Option (Meta K V × List (Table K V)) :=
  match compact0 c p m f with
  | none => none
  | some out =>
    match downG c p lim (hintOf m) n 0 (out.foldl insertTable [] :: (firstLevel m.levels).2) (f + out.length) with
    | none => none
    | some (ls, new) => some (⟨[], ls⟩, out ++ new)

/-- leveled.rs:294-435 `compact` with the limits `lim`.  The number of levels that a compaction may go through is
bounded as in `compact`. -/
def compactL (c : Cfg K V) (p : Params) (lim : Nat → Option Nat) (m : Meta K V) (f : Nat) :
    Option (Meta K V × List (Table K V)) :=
  compactG c p lim (m.levels.length + size (m.l0 ++ tabsL m.levels) + 1) m f

/-- The strategy, with the limits `lim`. -/
abbrev kindG (c : Cfg K V) (p : Params) (lim : Nat → Option Nat) : Kind K V :=
  (kind c p).withCompact (compactL c p lim)

/-! ### Limits that agree -/

theorem down_length {c : Cfg K V} {p : Params} {hint : Nat} : ∀ (n : Nat) {index f : Nat} {ls ls' : List (Level K V)}
    {new : List (Table K V)}, down c p hint n index ls f = some (ls', new) → (ls = [] ↔ ls' = [])
  | n, _, _, [], ls', new, h => by
    cases n <;> (simp only [down, Option.some.injEq, Prod.mk.injEq] at h; simp [← h.1])
  | 0, _, _, _ :: _, _, _, h => by simp [down] at h
  | n + 1, index, f, cur :: rest, ls', new, h => by
    unfold down at h
    split at h
    · cases h
    · split at h
      · cases h
      · cases h; simp

/-- The outer loop with limits that agree with the ideal ones on the levels that there are at the end. -/
theorem downG_eq {c : Cfg K V} {p : Params} {lim : Nat → Option Nat} {hint : Nat} : ∀ (n : Nat) {index f : Nat}
    {ls ls' : List (Level K V)} {new : List (Table K V)}, down c p hint n index ls f = some (ls', new) →
    (∀ i, i < ls'.length → lim (index + i) = some (limit p (index + i))) →
    downG c p lim hint n index ls f = some (ls', new)
  | n, _, _, [], ls', new, h, _ => by cases n <;> exact h
  | 0, _, _, _ :: _, _, _, h, _ => by simp [down] at h
  | n + 1, index, f, cur :: rest, ls', new, h, hl => by
    unfold down at h
    cases hd : drain c p hint (limit p index) cur.length cur rest f with
    | none => rw [hd] at h; cases h
    | some r =>
      obtain ⟨c1, r1, o1⟩ := r
      rw [hd] at h
      simp only at h
      cases hr : down c p hint n (index + 1) r1 (f + o1.length) with
      | none => rw [hr] at h; cases h
      | some r =>
        obtain ⟨l2, n2⟩ := r
        rw [hr] at h
        cases h
        unfold downG
        have h0 := hl 0 (by simp)
        rw [Nat.add_zero] at h0
        rw [h0]
        simp only
        rw [hd]
        simp only
        rw [downG_eq n hr fun i hi => by
          have := hl (i + 1) (by simpa using hi)
          rwa [show index + (i + 1) = index + 1 + i by omega] at this]

theorem compactG_eq {c : Cfg K V} {p : Params} {lim : Nat → Option Nat} {n : Nat} {m C : Meta K V} {f : Nat}
    {new : List (Table K V)} (h : compactN c p n m f = some (C, new))
    (hl : ∀ i, i < C.levels.length → lim i = some (limit p i)) : compactG c p lim n m f = some (C, new) := by
  unfold compactN at h
  unfold compactG
  cases h0 : compact0 c p m f with
  | none => rw [h0] at h; cases h
  | some out =>
    rw [h0] at h
    simp only at h ⊢
    cases hd : down c p (hintOf m) n 0 (out.foldl insertTable [] :: (firstLevel m.levels).2) (f + out.length) with
    | none => rw [hd] at h; cases h
    | some r =>
      obtain ⟨ls, new'⟩ := r
      rw [hd] at h
      cases h
      rw [downG_eq n hd fun i hi => by rw [Nat.zero_add]; exact hl i hi]

/-! ### How many levels there are -/

/-- The tables of a level have different greatest keys. -/
theorem level_length_le {l : Level K V} (h : LevelOk l) {ks : List K}
    (hk : ∀ k v, Ver (tabsOf l) k v → k ∈ ks) : l.length ≤ ks.length := by
  have hnd : (l.map (·.1)).Nodup := by
    rw [List.Nodup, List.pairwise_map]
    exact h.sorted.imp fun hab => ne_of_lt hab
  have hsub : ∀ k ∈ l.map (·.1), k ∈ ks := by
    intro k hkm
    obtain ⟨e, he, rfl⟩ := List.mem_map.1 hkm
    obtain ⟨a, ha, ha'⟩ := (h.ok e he).hi_mem
    rw [h.key e he, ← ha']
    exact hk a.1 a.2 (ver_tabsOf.2 ⟨e, he, ha⟩)
  have := (List.subperm_of_subset hnd hsub).length_le
  simpa using this

/-- Every level but the last may have fewer tables than there are keys. -/
def Bound (p : Params) (B index : Nat) (ls : List (Level K V)) : Prop := ∀ i, i + 1 < ls.length → limit p (index + i) < B

theorem drain_same {c : Cfg K V} {p : Params} {hint lim n f : Nat} {cur : Level K V} {rest : List (Level K V)}
    (h : cur.length ≤ lim) : drain c p hint lim n cur rest f = some (cur, rest, []) := by
  cases n <;> (unfold drain; rw [if_pos h])

theorem down_bound {c : Cfg K V} {p : Params} {hint : Nat} {ks : List K} : ∀ (n : Nat) {index f : Nat}
    {ls ls' : List (Level K V)} {new : List (Table K V)}, LevelsOk ls → down c p hint n index ls f = some (ls', new) →
    (∀ k v, Ver (tabsL ls) k v → k ∈ ks) → Bound p ks.length index ls → Bound p ks.length index ls'
  | n, _, _, [], ls', new, _, h, _, _ => by
    cases n <;> (simp only [down, Option.some.injEq, Prod.mk.injEq] at h; intro i hi; simp [← h.1] at hi)
  | 0, _, _, _ :: _, _, _, _, h, _, _ => by simp [down] at h
  | n + 1, index, f, cur :: rest, ls', new, ho, h, hk, hb => by
    obtain ⟨c1, r1, o1, e1, a1, a2, a3, a4, a5, a6, a7⟩ := drain_spec (c := c) (p := p) (hint := hint)
      (lim := Leveled.limit p index) cur.length (f := f) ho (le_refl _)
    unfold down at h
    rw [e1] at h
    simp only at h
    cases hr : down c p hint n (index + 1) r1 (f + o1.length) with
    | none => rw [hr] at h; cases h
    | some r =>
      obtain ⟨l2, n2⟩ := r
      rw [hr] at h
      cases h
      obtain ⟨b1, b2, b3⟩ := levelsOk_cons.1 a1
      have ih := down_bound n b2 hr (fun k v hv => hk k v (a2.sub k v (ver_tabsL_cons.2 (.inr hv)))) (by
        intro i hi
        have hle : i + 1 < rest.length := by
          rcases a7 with ⟨rfl, -⟩ | ⟨h1, -⟩
          · exact hi
          · omega
        have := hb (i + 1) (by simpa using hle)
        rwa [show index + (i + 1) = index + 1 + i by omega] at this)
      intro i hi
      cases i with
      | zero =>
        by_cases hlt : cur.length ≤ limit p index
        · rw [drain_same hlt] at e1
          cases e1
          refine hb 0 ?_
          have : rest ≠ [] := by
            rintro rfl
            have := (down_length n hr).1 rfl
            simp [this] at hi
          have := List.length_pos_iff.2 this
          simpa using this
        · have := level_length_le (levelsOk_cons.1 ho).1 fun k v hv => hk k v (ver_tabsL_cons.2 (.inl hv))
          rw [Nat.add_zero]
          omega
      | succ i =>
        have := ih i (by simpa using hi)
        rwa [show index + (i + 1) = index + 1 + i by omega]

theorem compactN_bound {c : Cfg K V} {p : Params} {n : Nat} {S C : Meta K V} {f : Nat} {new : List (Table K V)}
    {ks : List K} (h : Inv S) (hc : compactN c p n S f = some (C, new))
    (hk : ∀ k v, Ver (S.l0 ++ tabsL S.levels) k v → k ∈ ks) (hb : Bound p ks.length 0 S.levels) :
    Bound p ks.length 0 C.levels := by
  obtain ⟨out, a1, a2, a3, a4, a5, a6⟩ := compact0_spec (c := c) (p := p) h f
  unfold compactN at hc
  rw [a1] at hc
  simp only at hc
  cases hd : down c p (hintOf S) n 0 (out.foldl insertTable [] :: (firstLevel S.levels).2) (f + out.length) with
  | none => rw [hd] at hc; cases hc
  | some r =>
    obtain ⟨ls, new'⟩ := r
    rw [hd] at hc
    cases hc
    refine down_bound n a2 hd (fun k v hv => hk k v (a3.sub k v hv)) ?_
    intro i hi
    refine hb i ?_
    cases hs : S.levels with
    | nil => rw [hs] at hi; simp [firstLevel] at hi
    | cons a b => rw [hs] at hi; simpa [firstLevel] using hi

/-- The facts that hold in all histories that write only the keys `ks`. -/
def lawsBound (c : Cfg K V) (p : Params) (ks : List K) : Laws (kind c p) true where
  good l := ∀ e ∈ l, e.1 ∈ ks
  inv m := Inv m ∧ (∀ k v, Ver (m.l0 ++ tabsL m.levels) k v → k ∈ ks) ∧ Bound p ks.length 0 m.levels
  inv_empty := ⟨(laws c p).inv_empty, by rintro k v ⟨t, ht, -⟩; simp at ht, by intro i hi; simp at hi⟩
  tabs_empty := rfl
  inv_ok h := (laws c p).inv_ok h.1
  inv_push := by
    intro m t h1 h2 h3 h4
    refine ⟨(laws c p).inv_push h1.1 h2 trivial h4, fun k v hv => ?_, h1.2.2⟩
    rcases (ver_perm (tabs_push c p m t)).1 hv with ⟨u, hu, hm⟩
    rcases List.mem_cons.1 hu with rfl | hu
    · exact h3 _ hm
    · exact h1.2.1 k v ⟨u, hu, hm⟩
  tabs_push := tabs_push c p
  compact_new h := (laws c p).compact_new h.1
  replace := by
    intro S j f C new cur W hi hpl hc he hcur hnd hnew hs
    have hj : j = S := by
      have hp' : plan p S = some j := hpl
      unfold plan at hp'
      split at hp'
      · exact (Option.some.inj hp').symm
      · simp at hp'
    subst hj
    obtain ⟨a1, a2, a3, a4⟩ := replace_spec hi.1 he hcur.1 (compactN_spec hi.1 hc) hnd hnew hs
    have b1 : Bound p ks.length 0 C.levels := compactN_bound hi.1 hc hi.2.1 hi.2.2
    exact ⟨⟨a1, fun k v hv => hcur.2.1 k v (a3 k v hv), b1⟩, a2, a3, a4⟩
  get_some h := (laws c p).get_some h.1
  get_none h := (laws c p).get_none h.1
  runs_sorted h := (laws c p).runs_sorted h.1
  runs_in h := (laws c p).runs_in h.1

omit [LinearOrder K] in
theorem pow_le_limit {p : Params} (h1 : 1 ≤ p.initCount) (i : Nat) : p.growth ^ i ≤ limit p i :=
  Nat.le_mul_of_pos_left _ h1

omit [LinearOrder K] in
/-- The limits of the levels that there can be fit in 64 bits. -/
theorem limit_fits {p : Params} {B : Nat} (h2 : p.initCount < 2 ^ 64) (h4 : p.growth * B ≤ 2 ^ 64) {ls : List (Level K V)}
    (hb : Bound p B 0 ls) {i : Nat} (hi : i < ls.length) (h3 : 1 ≤ p.growth) : limit p i < 2 ^ 64 := by
  cases i with
  | zero => rw [limit_zero]; exact h2
  | succ i =>
    have h5 := hb i hi
    rw [Nat.zero_add] at h5
    have h6 : limit p (i + 1) = p.growth * limit p i := by simp only [limit, Nat.pow_succ]; rw [Nat.mul_comm (p.growth ^ i), Nat.mul_left_comm]
    rw [h6]
    exact lt_of_lt_of_le (Nat.mul_lt_mul_of_pos_left h5 h3) h4

omit [LinearOrder K] in
theorem limits_agree {p : Params} {B : Nat} (h1 : 1 ≤ p.initCount) (h2 : p.initCount < 2 ^ 64) (h3 : 1 ≤ p.growth)
    (h4 : p.growth * B ≤ 2 ^ 64) {ls : List (Level K V)} (hb : Bound p B 0 ls) {i : Nat} (hi : i < ls.length) :
    limitC p i = some (limit p i) ∧ limitW p i = some (limit p i) := by
  have h5 := limit_fits h2 h4 hb hi h3
  have h6 := (pow_le_limit h1 i).trans_lt h5
  have h7 : p.initCount * p.growth ^ i < 2 ^ 64 := h5
  refine ⟨?_, ?_⟩
  · unfold limitC
    rw [if_pos h6, if_pos h7]
    rfl
  · unfold limitW
    rw [Nat.mod_eq_of_lt h6, Nat.mod_eq_of_lt h7]
    rfl

/-! ### Limits that wrap around to 0 -/

theorem limitW_zero {p : Params} (h1 : p.initCount < 2 ^ 64) (h2 : 2 ^ 64 ∣ p.initCount * p.growth) (i : Nat) :
    limitW p i = some (limit { p with growth := 0 } i) := by
  unfold limitW limit
  cases i with
  | zero => simp [Nat.mod_eq_of_lt h1]
  | succ i =>
    simp only [Nat.pow_succ, Nat.mul_zero, Option.some.injEq]
    rw [Nat.mul_mod, Nat.mod_mod, ← Nat.mul_mod]
    refine Nat.mod_eq_zero_of_dvd ?_
    rw [Nat.mul_comm (p.growth ^ i), ← Nat.mul_assoc]
    exact Nat.dvd_mul_right_of_dvd h2 _

theorem downG_limit {c : Cfg K V} {p q : Params} (hm : p.maxSize = q.maxSize) {lim : Nat → Option Nat}
    (hl : ∀ i, lim i = some (limit q i)) {hint : Nat} : ∀ (n index f : Nat) (ls : List (Level K V)),
    downG c p lim hint n index ls f = down c q hint n index ls f := by
  have hsk : ∀ cur (rest : List (Level K V)) f, sink c p hint cur rest f = sink c q hint cur rest f := by
    intro cur rest f; unfold sink; rw [hm]
  have hdr : ∀ li n cur (rest : List (Level K V)) f, drain c p hint li n cur rest f = drain c q hint li n cur rest f := by
    intro li n
    induction n with
    | zero => intro cur rest f; rfl
    | succ n ih =>
      intro cur rest f
      unfold drain
      rw [hsk]
      split
      · rfl
      · cases sink c q hint cur rest f with
        | none => rfl
        | some r => obtain ⟨a, b, d⟩ := r; simp only; rw [ih]
  intro n
  induction n with
  | zero => intro index f ls; cases ls <;> rfl
  | succ n ih =>
    intro index f ls
    cases ls with
    | nil => rfl
    | cons cur rest =>
      unfold downG down
      rw [hl index]
      simp only
      rw [hdr]
      cases drain c q hint (limit q index) cur.length cur rest f with
      | none => rfl
      | some r =>
        obtain ⟨a, b, d⟩ := r
        simp only
        rw [ih]
        cases down c q hint n (index + 1) b (f + d.length) <;> rfl

theorem compactG_limit {c : Cfg K V} {p q : Params} (hm : p.maxSize = q.maxSize) {lim : Nat → Option Nat}
    (hl : ∀ i, lim i = some (limit q i)) (n : Nat) (m : Meta K V) (f : Nat) :
    compactG c p lim n m f = compactN c q n m f := by
  unfold compactG compactN
  rw [show compact0 c p m f = compact0 c q m f by unfold compact0; rw [hm]]
  cases compact0 c q m f with
  | none => rfl
  | some out =>
    simp only
    rw [downG_limit hm hl]
    cases down c q (hintOf m) n 0 (out.foldl insertTable [] :: (firstLevel m.levels).2) (f + out.length) <;> rfl

theorem downG_mono {c : Cfg K V} {p : Params} {lim lim' : Nat → Option Nat} (hl : ∀ i l, lim i = some l → lim' i = some l)
    {hint : Nat} : ∀ (n : Nat) {index f : Nat} {ls : List (Level K V)} {r}, downG c p lim hint n index ls f = some r →
    downG c p lim' hint n index ls f = some r
  | n, _, _, [], r, h => by cases n <;> exact h
  | 0, _, _, _ :: _, r, h => by cases h
  | n + 1, index, f, cur :: rest, r, h => by
    unfold downG at h
    cases h0 : lim index with
    | none => rw [h0] at h; cases h
    | some li =>
      rw [h0] at h
      simp only at h
      cases hd : drain c p hint li cur.length cur rest f with
      | none => rw [hd] at h; cases h
      | some q =>
        obtain ⟨c1, r1, o1⟩ := q
        rw [hd] at h
        simp only at h
        cases hr : downG c p lim hint n (index + 1) r1 (f + o1.length) with
        | none => rw [hr] at h; cases h
        | some q =>
          obtain ⟨l2, n2⟩ := q
          rw [hr] at h
          cases h
          unfold downG
          rw [hl _ _ h0]
          simp only
          rw [hd]
          simp only
          rw [downG_mono hl n hr]

/-- A compaction that does not end with some limits does not end well if computing these may fail. -/
theorem compactG_mono {c : Cfg K V} {p : Params} {lim lim' : Nat → Option Nat}
    (hl : ∀ i l, lim i = some l → lim' i = some l) {n : Nat} {m : Meta K V} {f : Nat}
    (h : compactG c p lim' n m f = none) : compactG c p lim n m f = none := by
  unfold compactG at h ⊢
  cases h0 : compact0 c p m f with
  | none => rfl
  | some out =>
    rw [h0] at h
    simp only at h ⊢
    cases hd : downG c p lim (hintOf m) n 0 (out.foldl insertTable [] :: (firstLevel m.levels).2) (f + out.length) with
    | none => rfl
    | some r => rw [downG_mono hl n hd] at h; cases h

theorem limitC_limitW {p : Params} (i l : Nat) (h : limitC p i = some l) : limitW p i = some l := by
  unfold limitC at h
  split at h
  · split at h
    · rename_i h1 h2
      cases h
      unfold limitW
      rw [Nat.mod_eq_of_lt h1, Nat.mod_eq_of_lt h2]
    · cases h
  · cases h

end Verif.Lsm.Leveled

namespace Verif.Lsm

open Verif Verif.Spec Store

variable {K V : Type} [LinearOrder K] [DecidableEq V]

/-- C45, in 64 bits: if `max_initial_level_count` and `growth_factor` are positive, and `growth_factor` times the
number of different keys that the calls write is at most 2⁶⁴, then no limit of a level overflows: with overflow checks
and with wrapping arithmetic all calls have the results that they have with unbounded numbers. -/
theorem C45_overflow_partial (c : Cfg K V) (p : Leveled.Params) (h1 : 1 ≤ p.initCount) (h2 : p.initCount < 2 ^ 64)
    (h3 : 1 ≤ p.growth) (ks : List K) (ops : List (KvOp K V × Nat))
    (hk : ∀ k, ((∃ v, KvOp.insert k v ∈ ops.map (·.1)) ∨ KvOp.remove k ∈ ops.map (·.1)) → k ∈ ks)
    (h4 : p.growth * ks.length ≤ 2 ^ 64) :
    (run c (new (Leveled.kindG c p (Leveled.limitC p))) ops).map (fun q => (q.1.cur, q.2)) =
        (run c (new (Leveled.kind c p)) ops).map (fun q => (q.1.cur, q.2)) ∧
      (run c (new (Leveled.kindG c p (Leveled.limitW p))) ops).map (fun q => (q.1.cur, q.2)) =
        (run c (new (Leveled.kind c p)) ops).map (fun q => (q.1.cur, q.2)) := by
  have hg : GoodRun (Leveled.lawsBound c p ks).good c (new (Leveled.kind c p)) ops := by
    refine goodRun_keys ops (new _) (by intro e he; simp [new] at he) ?_
    rintro op ho k (⟨v, rfl⟩ | rfl)
    · exact hk k (.inl ⟨v, ho⟩)
    · exact hk k (.inr ho)
  have key : ∀ lim : Nat → Option Nat, (∀ ls : List (Leveled.Level K V), Leveled.Bound p ks.length 0 ls →
      ∀ i, i < ls.length → lim i = some (Leveled.limit p i)) →
      (run c (new (Leveled.kindG c p lim)) ops).map (fun q => (q.1.cur, q.2)) =
        (run c (new (Leveled.kind c p)) ops).map (fun q => (q.1.cur, q.2)) := by
    intro lim hlim
    have := conv_run (L := Leveled.lawsBound c p ks)
      (Leveled.compactL c p lim)
      (by
        intro S j f hS hpl
        have hj : j = S := by
          have hp' : Leveled.plan p S = some j := hpl
          unfold Leveled.plan at hp'
          split at hp'
          · exact (Option.some.inj hp').symm
          · simp at hp'
        subst hj
        obtain ⟨⟨C, nw⟩, hr⟩ := Leveled.compact_total (c := c) (p := p) hS.1
          (fun i => Nat.mul_pos h1 (Nat.pow_pos h3)) f
        have hr' : Leveled.compactN c p (j.levels.length + Leveled.size (j.l0 ++ Leveled.tabsL j.levels) + 1) j f =
          some (C, nw) := hr
        refine hr.trans (Leveled.compactG_eq hr' ?_).symm
        exact hlim _ (Leveled.compactN_bound hS.1 hr' hS.2.1 hS.2.2))
      ops (inv_new _ c) hand_new hg
    have hn : conv (Leveled.compactL c p lim)
      (new (Leveled.kind c p)) = new (Leveled.kindG c p lim) := rfl
    rw [hn] at this
    rw [this, Option.map_map]
    rfl
  exact ⟨key _ fun ls hb i hi => (Leveled.limits_agree h1 h2 h3 h4 hb hi).1,
    key _ fun ls hb i hi => (Leveled.limits_agree h1 h2 h3 h4 hb hi).2⟩

omit [DecidableEq V] in
/-- C45, in 64 bits, if `max_initial_level_count * growth_factor` is a multiple of 2⁶⁴: without overflow checks the map
is the one with `growth_factor` 0, of which `C45_ends_exact` says that its compactions end only if the live entries fit
in `max_initial_level_count` tables. -/
theorem C45_overflow_exact (c : Cfg K V) (p : Leveled.Params) (h1 : p.initCount < 2 ^ 64)
    (h2 : 2 ^ 64 ∣ p.initCount * p.growth) :
    Leveled.kindG c p (Leveled.limitW p) = Leveled.kind c { p with growth := 0 } ∧
      ∀ n m f, Leveled.compactG c p (Leveled.limitW p) n m f = Leveled.compactN c { p with growth := 0 } n m f := by
  have h3 : ∀ n m f, Leveled.compactG c p (Leveled.limitW p) n m f =
      Leveled.compactN c { p with growth := 0 } n m f := fun n m f =>
    Leveled.compactG_limit (p := p) (q := { p with growth := 0 }) rfl (Leveled.limitW_zero h1 h2) n m f
  refine ⟨?_, h3⟩
  have : Leveled.compactL c p (Leveled.limitW p) =
      Leveled.compact c { p with growth := 0 } := by
    funext m f
    exact h3 _ m f
  unfold Leveled.kindG Leveled.kind Kind.withCompact
  simp only
  rw [this]
  rfl

namespace Example

/-- `LeveledStrategy::new(path, 0, 20, 2, 2⁶³)`. -/
def huge : Leveled.Params := ⟨0, 20, 2, 2 ^ 63⟩

/-- Three entries, which exceed the memory. -/
def three : List (KvOp Nat Nat × Nat) := [(.insert 1 10, 0), (.insert 2 20, 0), (.insert 3 30, 0)]

/-- The state after these, with `growth_factor` 0. -/
def threeFlat : Store (Leveled.kind small { huge with growth := 0 }) × List (KvRes Nat Nat) :=
  (run small (new (Leveled.kind small { huge with growth := 0 })) three).get (by decide +kernel)

end Example

/-- C45 does not hold of 64-bit numbers for all positive parameters: with `max_initial_level_count` 2 and
`growth_factor` 2⁶³, three live entries that need three tables are compacted without end (no number of levels
suffices) or, with overflow checks, the compaction panics.  With unbounded numbers it ends. -/
theorem C45_overflow_violated :
    ∃ (c : Cfg Nat Nat) (p : Leveled.Params) (m : Leveled.Meta Nat Nat) (f : Nat) (ops : List (KvOp Nat Nat × Nat)),
      1 ≤ p.initCount ∧ p.initCount < 2 ^ 64 ∧ 1 ≤ p.growth ∧ p.growth < 2 ^ 64 ∧
      (run c (new (Leveled.kindG c p (Leveled.limitW p))) ops).map (fun q => (q.1.job, q.1.fresh)) = some (some m, f) ∧
      (∀ n, Leveled.compactG c p (Leveled.limitW p) n m f = none) ∧
      (∀ n, Leveled.compactG c p (Leveled.limitC p) n m f = none) ∧
      run c (new (Leveled.kindG c p (Leveled.limitW p))) (ops ++ [(.flush, 0)]) = none ∧
      (run c (new (Leveled.kind c p)) (ops ++ [(.flush, 0)])).isSome = true := by
  have hj : Example.threeFlat.1.job.isSome = true := by decide +kernel
  obtain ⟨m, hm⟩ := Option.isSome_iff_exists.1 hj
  have hr : run Example.small (new (Leveled.kind Example.small { Example.huge with growth := 0 })) Example.three =
    some (Example.threeFlat.1, Example.threeFlat.2) := (Option.some_get _).symm
  have he := C45_overflow_exact Example.small Example.huge (by decide) (by decide)
  have hw : ∀ n, Leveled.compactG Example.small Example.huge (Leveled.limitW Example.huge) n m 1 = none := by
    intro n
    rw [he.2]
    obtain ⟨-, out, h1, -, -, -, h2⟩ := C45_ends_exact Example.small { Example.huge with growth := 0 } (.inr rfl)
      Example.three hr 1 m (.inl hm)
    refine h2 ?_ n
    have h3 : (Example.threeFlat.1.job.bind fun m => (Leveled.compact0 Example.small { Example.huge with growth := 0 } m 1).map
      List.length) = some 3 := by decide +kernel
    rw [hm] at h3
    simp only [Option.bind_some] at h3
    rw [h1] at h3
    have h4 : out.length = 3 := Option.some.inj h3
    rw [h4]
    decide
  refine ⟨Example.small, Example.huge, m, 1, Example.three, by decide, by decide, by decide, by decide, ?_, hw,
    fun n => Leveled.compactG_mono Leveled.limitC_limitW (hw n), Option.isNone_iff_eq_none.1 (by decide +kernel),
    by decide +kernel⟩
  have hc := conv_run (L := Leveled.laws Example.small { Example.huge with growth := 0 })
    (g := Leveled.compactL Example.small Example.huge (Leveled.limitW Example.huge))
    (fun S j f _ _ => (he.2 (j.levels.length + Leveled.size (j.l0 ++ Leveled.tabsL j.levels) + 1) j f).symm) Example.three (inv_new _ Example.small) hand_new
    (goodRun_true (fun _ => trivial) Example.three (new _))
  rw [hr] at hc
  have hf : Example.threeFlat.1.fresh = 1 := by decide +kernel
  refine (congrArg (Option.map fun q => (q.1.job, q.1.fresh)) hc).trans ?_
  simp only [Option.map_some, conv, hm, hf]

/-- The hypotheses of `C45_overflow_partial` for a history with several compactions and levels, and the results. -/
example : let ks := [1, 2, 3, 4, 5, 6, 7]
    Example.leveled.growth * ks.length ≤ 2 ^ 64 ∧
    (∀ k, ((∃ v, KvOp.insert k v ∈ Example.ops.map (·.1)) ∨ KvOp.remove k ∈ Example.ops.map (·.1)) → k ∈ ks) ∧
    ((run Example.small (new (Leveled.kindG Example.small Example.leveled (Leveled.limitW Example.leveled))) Example.ops).map
      fun q => q.1.cur.levels.map List.length).isSome = true := by
  refine ⟨by decide, ?_, by decide +kernel⟩
  rintro k (⟨v, hv⟩ | hv)
  · simp [Example.ops] at hv ⊢; omega
  · simp [Example.ops] at hv ⊢; omega

end Verif.Lsm
