/-
Model of the k-way merge of `SizeTieredIter` (size_tiered.rs:566-637) and `LeveledIter` (leveled.rs:684-802), and
the proof of what it yields (C43).  Also C48, about key ranges.
-/
import Verif.Lsm.Table
import Mathlib.Order.MinMax
import Mathlib.Data.Nat.Basic
import Mathlib.Tactic.Tauto

namespace Verif.Lsm

open Verif

variable {K V : Type} [LinearOrder K]

/-- The order of heap entries: by key, and for equal keys the version with the greater logical time first
(`SSTableValue` compares by reversed logical time, sstable.rs:51-55).  `a` comes strictly before `b`. -/
def before (a b : Ent K V) : Prop := a.1 < b.1 ∨ (a.1 = b.1 ∧ b.2.time < a.2.time)

instance (a b : Ent K V) : Decidable (before a b) := by unfold before; infer_instance

/-- size_tiered.rs:614-622, leveled.rs:772-787: `entries.pop()`, and the next entry of that run is pushed.  A run is
the entry of it that is in the heap followed by the entries not yet read, so the heap holds the heads of the
runs.  Of equal entries the one with the smaller run index is popped. -/
def pick : List (List (Ent K V)) → Option (Ent K V × List (List (Ent K V)))
  | [] => none
  | [] :: rs => (pick rs).map fun (e, rs) => (e, [] :: rs)
  | (e :: r) :: rs =>
    match pick rs with
    | none => some (e, r :: rs)
    | some (e', rs') => if before e' e then some (e', (e :: r) :: rs') else some (e, r :: rs)

/-- size_tiered.rs:613-636, leveled.rs:771-801: `next()` until it returns `None`; `last` is `last_key_opt` and the
first argument bounds the number of pops. -/
def mergeLoop : Nat → Option K → List (List (Ent K V)) → List (Ent K V)
  | 0, _, _ => []
  | n + 1, last, runs =>
    match pick runs with
    | none => []
    | some (e, runs) => if last = some e.1 then mergeLoop n last runs else e :: mergeLoop n (some e.1) runs

/-- The number of entries in the runs. -/
def total (runs : List (List (Ent K V))) : Nat := (runs.map List.length).sum

/-- The merge of the runs. -/
def mergeRuns (runs : List (List (Ent K V))) : List (Ent K V) := mergeLoop (total runs) none runs

/-- Some run has the entry. -/
def In (runs : List (List (Ent K V))) (e : Ent K V) : Prop := ∃ r ∈ runs, e ∈ r

theorem pick_none : ∀ {runs : List (List (Ent K V))}, pick runs = none → ∀ e, ¬ In runs e
  | [], _, e, ⟨r, hr, _⟩ => by simp at hr
  | [] :: rs, h, e, ⟨r, hr, he⟩ => by
    simp only [pick, Option.map_eq_none_iff] at h
    rcases List.mem_cons.1 hr with rfl | hr
    · simp at he
    · exact pick_none h e ⟨r, hr, he⟩
  | (a :: r) :: rs, h, e, _ => by
    simp only [pick] at h
    split at h
    · simp at h
    · split at h <;> simp at h

/-- What one pop does to ascending runs. -/
theorem pick_some : ∀ {runs : List (List (Ent K V))} {e : Ent K V} {rs : List (List (Ent K V))},
    (∀ r ∈ runs, SL.Sorted r) → pick runs = some (e, rs) →
    (∀ r ∈ rs, SL.Sorted r) ∧ In runs e ∧ (∀ x, In rs x → In runs x) ∧ (∀ x, In runs x → x = e ∨ In rs x) ∧
      (∀ x, In runs x → e.1 < x.1 ∨ (e.1 = x.1 ∧ x.2.time ≤ e.2.time)) ∧ total runs = total rs + 1
  | [], e, rs, _, h => by simp [pick] at h
  | [] :: rs, e, rs', hs, h => by
    simp only [pick, Option.map_eq_some_iff] at h
    obtain ⟨⟨e1, rs1⟩, h1, h2⟩ := h
    simp only [Prod.mk.injEq] at h2
    obtain ⟨rfl, rfl⟩ := h2
    obtain ⟨h3, h4, h5, h6, h7, h8⟩ := pick_some (fun r hr => hs r (List.mem_cons_of_mem _ hr)) h1
    refine ⟨?_, ?_, ?_, ?_, ?_, ?_⟩
    · intro r hr
      rcases List.mem_cons.1 hr with rfl | hr
      · simp [SL.Sorted]
      · exact h3 r hr
    · obtain ⟨r, hr, he⟩ := h4; exact ⟨r, List.mem_cons_of_mem _ hr, he⟩
    · rintro x ⟨r, hr, he⟩
      rcases List.mem_cons.1 hr with rfl | hr
      · simp at he
      · obtain ⟨r, hr, he⟩ := h5 x ⟨r, hr, he⟩; exact ⟨r, List.mem_cons_of_mem _ hr, he⟩
    · rintro x ⟨r, hr, he⟩
      rcases List.mem_cons.1 hr with rfl | hr
      · simp at he
      · rcases h6 x ⟨r, hr, he⟩ with h | ⟨r, hr, he⟩
        · exact .inl h
        · exact .inr ⟨r, List.mem_cons_of_mem _ hr, he⟩
    · rintro x ⟨r, hr, he⟩
      rcases List.mem_cons.1 hr with rfl | hr
      · simp at he
      · exact h7 x ⟨r, hr, he⟩
    · simp only [total, List.map_cons, List.length_nil, List.sum_cons] at h8 ⊢; omega
  | (a :: r) :: rs, e, rs', hs, h => by
    have hsr : SL.Sorted (a :: r) := hs _ (by simp)
    have hst : SL.Sorted r := (List.pairwise_cons.1 hsr).2
    have hlt : ∀ x ∈ r, a.1 < x.1 := (List.pairwise_cons.1 hsr).1
    have hrs : ∀ r ∈ rs, SL.Sorted r := fun r hr => hs r (List.mem_cons_of_mem _ hr)
    have take : ∀ (hle : ∀ x, In rs x → a.1 < x.1 ∨ (a.1 = x.1 ∧ x.2.time ≤ a.2.time)),
        (∀ q ∈ r :: rs, SL.Sorted q) ∧ In ((a :: r) :: rs) a ∧ (∀ x, In (r :: rs) x → In ((a :: r) :: rs) x) ∧
        (∀ x, In ((a :: r) :: rs) x → x = a ∨ In (r :: rs) x) ∧
        (∀ x, In ((a :: r) :: rs) x → a.1 < x.1 ∨ (a.1 = x.1 ∧ x.2.time ≤ a.2.time)) ∧
        total ((a :: r) :: rs) = total (r :: rs) + 1 := by
      intro hle
      refine ⟨?_, ?_, ?_, ?_, ?_, ?_⟩
      · intro q hq
        rcases List.mem_cons.1 hq with rfl | hq
        · exact hst
        · exact hrs q hq
      · exact ⟨a :: r, by simp, by simp⟩
      · rintro x ⟨q, hq, he⟩
        rcases List.mem_cons.1 hq with rfl | hq
        · exact ⟨a :: q, by simp, by simp [he]⟩
        · exact ⟨q, by simp [hq], he⟩
      · rintro x ⟨q, hq, he⟩
        rcases List.mem_cons.1 hq with rfl | hq
        · rcases List.mem_cons.1 he with rfl | he
          · exact .inl rfl
          · exact .inr ⟨r, by simp, he⟩
        · exact .inr ⟨q, by simp [hq], he⟩
      · rintro x ⟨q, hq, he⟩
        rcases List.mem_cons.1 hq with rfl | hq
        · rcases List.mem_cons.1 he with rfl | he
          · exact .inr ⟨rfl, le_rfl⟩
          · exact .inl (hlt x he)
        · exact hle x ⟨q, hq, he⟩
      · simp only [total, List.map_cons, List.length_cons, List.sum_cons]; omega
    simp only [pick] at h
    cases hp : pick rs with
    | none =>
      rw [hp] at h
      simp only [Option.some.injEq, Prod.mk.injEq] at h
      obtain ⟨rfl, rfl⟩ := h
      exact take fun x hx => absurd hx (pick_none hp x)
    | some q =>
      obtain ⟨e1, rs1⟩ := q
      rw [hp] at h
      obtain ⟨h3, h4, h5, h6, h7, h8⟩ := pick_some hrs hp
      simp only at h
      split at h
      · rename_i hb
        simp only [Option.some.injEq, Prod.mk.injEq] at h
        obtain ⟨rfl, rfl⟩ := h
        refine ⟨?_, ?_, ?_, ?_, ?_, ?_⟩
        · intro q hq
          rcases List.mem_cons.1 hq with rfl | hq
          · exact hsr
          · exact h3 q hq
        · obtain ⟨q, hq, he⟩ := h4; exact ⟨q, List.mem_cons_of_mem _ hq, he⟩
        · rintro x ⟨q, hq, he⟩
          rcases List.mem_cons.1 hq with rfl | hq
          · exact ⟨_, by simp, he⟩
          · obtain ⟨q, hq, he⟩ := h5 x ⟨q, hq, he⟩; exact ⟨q, List.mem_cons_of_mem _ hq, he⟩
        · rintro x ⟨q, hq, he⟩
          rcases List.mem_cons.1 hq with rfl | hq
          · exact .inr ⟨_, by simp, he⟩
          · rcases h6 x ⟨q, hq, he⟩ with h | ⟨q, hq, he⟩
            · exact .inl h
            · exact .inr ⟨q, List.mem_cons_of_mem _ hq, he⟩
        · rintro x ⟨q, hq, he⟩
          rcases List.mem_cons.1 hq with rfl | hq
          · rcases List.mem_cons.1 he with rfl | he
            · rcases hb with hb | ⟨hb, hb'⟩
              · exact .inl hb
              · exact .inr ⟨hb, hb'.le⟩
            · refine .inl ?_
              rcases hb with hb | ⟨hb, _⟩
              · exact hb.trans (hlt x he)
              · rw [hb]; exact hlt x he
          · exact h7 x ⟨q, hq, he⟩
        · simp only [total, List.map_cons, List.length_cons, List.sum_cons] at h8 ⊢; omega
      · rename_i hb
        simp only [Option.some.injEq, Prod.mk.injEq] at h
        obtain ⟨rfl, rfl⟩ := h
        refine take fun x hx => ?_
        have h9 := h7 x hx
        simp only [before, not_or, not_and, not_lt] at hb
        rcases lt_or_eq_of_le hb.1 with hlt' | heq
        · rcases h9 with h9 | ⟨h9, _⟩
          · exact .inl (hlt'.trans h9)
          · exact .inl (h9 ▸ hlt')
        · rcases h9 with h9 | ⟨h9, h10⟩
          · exact .inl (heq ▸ h9)
          · exact .inr ⟨heq.trans h9, h10.trans (hb.2 heq.symm)⟩

/-- The specification of a merge: the entries `out` are ascending, come from the runs, are the newest versions of
their keys, and every key of the runs is there. -/
structure Merged (runs : List (List (Ent K V))) (out : List (Ent K V)) : Prop where
  sorted : SL.Sorted out
  sub : ∀ e ∈ out, In runs e
  newest : ∀ e ∈ out, ∀ x, In runs x → x.1 = e.1 → x.2.time ≤ e.2.time
  all : ∀ x, In runs x → ∃ e ∈ out, e.1 = x.1

theorem mergeLoop_spec : ∀ (n : Nat) (last : Option K) (runs : List (List (Ent K V))),
    (∀ r ∈ runs, SL.Sorted r) → total runs ≤ n → (∀ l, last = some l → ∀ x, In runs x → l ≤ x.1) →
    SL.Sorted (mergeLoop n last runs) ∧
    (∀ e ∈ mergeLoop n last runs, In runs e ∧ last ≠ some e.1 ∧ ∀ x, In runs x → x.1 = e.1 → x.2.time ≤ e.2.time) ∧
    (∀ x, In runs x → last = some x.1 ∨ ∃ e ∈ mergeLoop n last runs, e.1 = x.1) ∧
    (mergeLoop n last runs).length ≤ total runs := by
  intro n
  induction n with
  | zero =>
    intro last runs hs ht _
    refine ⟨by simp [mergeLoop, SL.Sorted], by simp [mergeLoop], ?_, by simp [mergeLoop]⟩
    rintro x ⟨r, hr, hx⟩
    exfalso
    have h0 : total runs = 0 := by omega
    have := List.sum_eq_zero_iff_forall_eq_nat.1 h0 r.length (List.mem_map.2 ⟨r, hr, rfl⟩)
    rw [List.length_eq_zero_iff.1 this] at hx
    simp at hx
  | succ n ih =>
    intro last runs hs ht hl
    simp only [mergeLoop]
    cases hp : pick runs with
    | none =>
      refine ⟨by simp [SL.Sorted], by simp, fun x hx => absurd hx (pick_none hp x), by simp⟩
    | some p =>
      obtain ⟨e, rs⟩ := p
      obtain ⟨h1, h2, h3, h4, h5, h6⟩ := pick_some hs hp
      simp only
      split
      · rename_i hle
        obtain ⟨i1, i2, i3, i4⟩ := ih last rs h1 (by omega) (fun l hl' x hx => hl l hl' x (h3 x hx))
        refine ⟨i1, ?_, ?_, by omega⟩
        · intro y hy
          obtain ⟨j1, j2, j3⟩ := i2 y hy
          refine ⟨h3 y j1, j2, fun x hx hxy => ?_⟩
          rcases h4 x hx with rfl | hx
          · exact absurd (hxy ▸ hle) j2
          · exact j3 x hx hxy
        · intro x hx
          rcases h4 x hx with rfl | hx
          · exact .inl hle
          · exact i3 x hx
      · rename_i hle
        obtain ⟨i1, i2, i3, i4⟩ := ih (some e.1) rs h1 (by omega) (fun l hl' x hx => by
          simp only [Option.some.injEq] at hl'; subst hl'
          rcases h5 x (h3 x hx) with h | ⟨h, _⟩
          · exact h.le
          · exact h.le)
        refine ⟨?_, ?_, ?_, ?_⟩
        · refine List.pairwise_cons.2 ⟨fun y hy => ?_, i1⟩
          obtain ⟨j1, j2, j3⟩ := i2 y hy
          rcases h5 y (h3 y j1) with h | ⟨h, _⟩
          · exact h
          · exact absurd (by rw [h]) j2
        · intro y hy
          rcases List.mem_cons.1 hy with rfl | hy
          · refine ⟨h2, hle, fun x hx hxy => ?_⟩
            rcases h5 x hx with h | ⟨_, h⟩
            · exact absurd hxy (ne_of_gt h)
            · exact h
          · obtain ⟨j1, j2, j3⟩ := i2 y hy
            have hey : e.1 < y.1 := by
              rcases h5 y (h3 y j1) with h | ⟨h, _⟩
              · exact h
              · exact absurd (by rw [h]) j2
            refine ⟨h3 y j1, ?_, fun x hx hxy => ?_⟩
            · intro hly
              have := hl _ hly e h2
              exact absurd hey (not_lt.2 this)
            · rcases h4 x hx with rfl | hx
              · exact absurd hxy (ne_of_lt hey)
              · exact j3 x hx hxy
        · intro x hx
          rcases h4 x hx with rfl | hx
          · exact .inr ⟨_, by simp, rfl⟩
          · rcases i3 x hx with h | ⟨y, hy, hyx⟩
            · exact .inr ⟨e, by simp, by simpa using h⟩
            · exact .inr ⟨y, by simp [hy], hyx⟩
        · simp only [List.length_cons]; omega

theorem mergeRuns_merged {runs : List (List (Ent K V))} (hs : ∀ r ∈ runs, SL.Sorted r) :
    Merged runs (mergeRuns runs) := by
  obtain ⟨h1, h2, h3, _⟩ := mergeLoop_spec (total runs) none runs hs le_rfl (by simp)
  refine ⟨h1, fun e he => (h2 e he).1, fun e he => (h2 e he).2.2, fun x hx => ?_⟩
  rcases h3 x hx with h | h
  · simp at h
  · exact h

theorem mergeRuns_length {runs : List (List (Ent K V))} (hs : ∀ r ∈ runs, SL.Sorted r) :
    (mergeRuns runs).length ≤ total runs :=
  (mergeLoop_spec (total runs) none runs hs le_rfl (by simp)).2.2.2

/-- **C43.**  For any number of runs, each ascending by key, the merge used by compaction and by iteration yields the
keys of the runs in strictly ascending order, each key exactly once, and with each key a version of it that no run
has a newer one of.  -/
theorem C43_merge (runs : List (List (Ent K V))) (hs : ∀ r ∈ runs, r.Pairwise (fun a b => a.1 < b.1)) :
    (mergeRuns runs).Pairwise (fun a b => a.1 < b.1) ∧
    (∀ k, (∃ v, (k, v) ∈ mergeRuns runs) ↔ ∃ r ∈ runs, ∃ v, (k, v) ∈ r) ∧
    ∀ k v, (k, v) ∈ mergeRuns runs →
      (∃ r ∈ runs, (k, v) ∈ r) ∧ ∀ r ∈ runs, ∀ v', (k, v') ∈ r → v'.time ≤ v.time := by
  have h := mergeRuns_merged hs
  refine ⟨h.sorted, fun k => ⟨?_, ?_⟩, fun k v hv => ⟨?_, ?_⟩⟩
  · rintro ⟨v, hv⟩
    obtain ⟨r, hr, he⟩ := h.sub _ hv
    exact ⟨r, hr, v, he⟩
  · rintro ⟨r, hr, v, he⟩
    obtain ⟨⟨k', v'⟩, h1, h2⟩ := h.all (k, v) ⟨r, hr, he⟩
    simp only at h2; subst h2
    exact ⟨v', h1⟩
  · obtain ⟨r, hr, he⟩ := h.sub _ hv
    exact ⟨r, hr, he⟩
  · intro r hr v' hv'
    exact h.newest _ hv (k, v') ⟨r, hr, hv'⟩ rfl

/-- Three overlapping runs: key 2 has three versions, key 5 two, one of them a tombstone. -/
example : mergeRuns [[((1 : Nat), (⟨some 10, 0⟩ : Val Nat)), (2, ⟨some 20, 1⟩), (5, ⟨some 50, 2⟩)],
      [(2, ⟨some 21, 7⟩), (3, ⟨none, 8⟩)], [(2, ⟨some 22, 4⟩), (5, ⟨none, 5⟩)]] =
    [(1, ⟨some 10, 0⟩), (2, ⟨some 21, 7⟩), (3, ⟨none, 8⟩), (5, ⟨none, 5⟩)] := by decide +kernel

/-! ### C48: key ranges -/

/-- **C48.**  Two non-empty closed key ranges are reported as intersecting exactly when they share a key; for
arbitrary pairs, exactly when the greater of the two starts is at most the smaller of the two ends. -/
theorem C48_is_intersecting (a b : K × K) :
    (isIntersecting a b = true ↔ ∀ s e, (s = a.1 ∨ s = b.1) → (e = a.2 ∨ e = b.2) → s ≤ e) ∧
    (a.1 ≤ a.2 → b.1 ≤ b.2 →
      (isIntersecting a b = true ↔ ∃ k, (a.1 ≤ k ∧ k ≤ a.2) ∧ (b.1 ≤ k ∧ k ≤ b.2))) := by
  have h : isIntersecting a b = true ↔ a.1 ≤ a.2 ∧ a.1 ≤ b.2 ∧ b.1 ≤ a.2 ∧ b.1 ≤ b.2 := by
    simp only [isIntersecting, decide_eq_true_eq, sup_le_iff, le_inf_iff]; tauto
  refine ⟨?_, fun ha hb => ?_⟩
  · rw [h]
    constructor
    · rintro ⟨h1, h2, h3, h4⟩ s e (rfl | rfl) (rfl | rfl) <;> assumption
    · intro h'
      exact ⟨h' _ _ (.inl rfl) (.inl rfl), h' _ _ (.inl rfl) (.inr rfl), h' _ _ (.inr rfl) (.inl rfl),
        h' _ _ (.inr rfl) (.inr rfl)⟩
  · rw [h]
    constructor
    · rintro ⟨h1, h2, h3, h4⟩
      rcases le_total a.1 b.1 with hc | hc
      · exact ⟨b.1, ⟨hc, h3⟩, le_rfl, h4⟩
      · exact ⟨a.1, ⟨le_rfl, h1⟩, hc, h2⟩
    · rintro ⟨k, ⟨h1, h2⟩, h3, h4⟩
      exact ⟨ha, h1.trans h4, h3.trans h2, hb⟩

/-- **C48.**  Merging two ranges gives the smallest range that covers both. -/
theorem C48_merge_ranges (a b : K × K) :
    (∀ k, (a.1 ≤ k ∧ k ≤ a.2) ∨ (b.1 ≤ k ∧ k ≤ b.2) → (mergeRanges a b).1 ≤ k ∧ k ≤ (mergeRanges a b).2) ∧
    (a.1 ≤ a.2 → b.1 ≤ b.2 → ∀ c : K × K,
      (∀ k, (a.1 ≤ k ∧ k ≤ a.2) ∨ (b.1 ≤ k ∧ k ≤ b.2) → c.1 ≤ k ∧ k ≤ c.2) →
      c.1 ≤ (mergeRanges a b).1 ∧ (mergeRanges a b).2 ≤ c.2) := by
  simp only [mergeRanges]
  refine ⟨?_, fun ha hb c hc => ⟨le_min ?_ ?_, max_le ?_ ?_⟩⟩
  · rintro k (⟨h1, h2⟩ | ⟨h1, h2⟩)
    · exact ⟨(min_le_left _ _).trans h1, h2.trans (le_max_left _ _)⟩
    · exact ⟨(min_le_right _ _).trans h1, h2.trans (le_max_right _ _)⟩
  · exact (hc a.1 (.inl ⟨le_rfl, ha⟩)).1
  · exact (hc b.1 (.inr ⟨le_rfl, hb⟩)).1
  · exact (hc a.2 (.inl ⟨ha, le_rfl⟩)).2
  · exact (hc b.2 (.inr ⟨hb, le_rfl⟩)).2

example : isIntersecting ((1 : Nat), 5) (5, 9) = true ∧ isIntersecting ((1 : Nat), 5) (6, 9) = false ∧
    isIntersecting ((1 : Nat), 9) (3, 4) = true ∧ mergeRanges ((1 : Nat), 5) (7, 9) = (1, 9) := by decide

end Verif.Lsm
