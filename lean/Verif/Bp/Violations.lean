/- C28: where BpMap is not an ordered map, and non-vacuity of C28 to C31. -/
import Verif.Bp.Props

namespace Verif.Bp

open Verif.Spec

/-! ### Overwriting in a full leaf -/

section
variable {K V : Type} [LinearOrder K]

/-- Overwriting an entry of a full leaf empties the slots from `half + 1` on that come before it. -/
theorem leafSplit_lost {half : Nat} {e : K × V} {o : V} {el er : List (K × V)} {i : Nat} (hl : ∀ a ∈ el, a.1 < e.1) :
    leafSplit half e i ((el ++ (e.1, o) :: er).map some) =
      .dup (keep none (half + 1 - i) (el.map some) ++ (e :: er).map some) (e.1, o) := by
  induction el generalizing i with
  | nil => simp [leafSplit, keep]
  | cons a el ih =>
    have ha := hl a (by simp)
    have := ih (i := i + 1) fun x hx => hl x (by simp [hx])
    simp only [List.cons_append, List.map_cons, leafSplit, if_neg (not_le.2 ha)] at this ⊢
    rw [this]
    by_cases h : half < i
    · rw [if_pos h]
      have h1 : half + 1 - i = 0 := by omega
      have h2 : half + 1 - (i + 1) = 0 := by omega
      rw [h1, h2, keep_zero]; rfl
    · rw [if_neg h]
      have h1 : half + 1 - i = (half + 1 - (i + 1)) + 1 := by omega
      rw [h1, keep_succ]; rfl

theorem leafSearch_sound {es : List (Option (K × V))} {key : K} : ∀ {f lo hi i}, leafSearchLoop es key f lo hi = some (some i) →
    ∃ v, es[i]? = some (some (key, v)) := by
  intro f
  induction f with
  | zero => intro lo hi i h; simp [leafSearchLoop] at h
  | succ f ih =>
    intro lo hi i h
    rw [leafSearchLoop] at h
    simp only at h
    by_cases hlt : lo < hi
    · rw [if_pos hlt] at h
      split at h
      · cases h
      · exact ih h
      · rename_i a ha
        by_cases h1 : a.1 < key
        · rw [if_pos h1] at h; exact ih h
        · rw [if_neg h1] at h
          by_cases h2 : a.1 = key
          · rw [if_pos h2] at h
            simp only [Option.some.injEq] at h
            subst h; subst h2
            exact ⟨a.2, ha⟩
          · rw [if_neg h2] at h; exact ih h
    · rw [if_neg hlt] at h; simp at h

end

/-- The entries `(0, 0), …, (n - 1, n - 1)`. -/
def firstN (n : Nat) : List (Nat × Nat) := (List.range n).map fun i => (i, i)

/-- A one-page file with a leaf. -/
def Single (ld : Nat) (p : Pager Nat Nat) (n : LNode Nat Nat) : Prop :=
  p.disk.pages = [some (.leaf n)] ∧ p.md.root = 0 ∧ p.md.leafDeg = ld

theorem single_search {ld : Nat} {p : Pager Nat Nat} {n} (h : Single ld p n) (k : Nat) :
    search p k = some (0, .leaf n, []) := by
  obtain ⟨h1, h2, h3⟩ := h
  simp [search, searchNode, Pager.getPage, h1, h2]

theorem mem_firstN {n : Nat} {e : Nat × Nat} (h : e ∈ firstN n) : e.1 < n := by
  simp [firstN] at h
  obtain ⟨i, hi, rfl⟩ := h
  exact hi

theorem firstN_succ (n : Nat) : firstN (n + 1) = firstN n ++ [(n, n)] := by
  simp [firstN, List.range_succ]

theorem length_firstN (n : Nat) : (firstN n).length = n := by simp [firstN]

theorem single_insert {ld n : Nat} {p : Pager Nat Nat} (h : Single ld p (encLeaf ld (firstN n) none)) (hn : n < ld) :
    ∃ p', insert p n n = some (p', none) ∧ Single ld p' (encLeaf ld (firstN (n + 1)) none) := by
  have hs := single_search h n
  obtain ⟨h1, h2, h3⟩ := h
  have hi := insert_encLeaf_room (ld := ld) (e := (n, n)) (el := firstN n) (er := []) (nxt := none)
    (fun a ha => mem_firstN ha) (by simp) List.Pairwise.nil (by simp [length_firstN]; omega)
  rw [List.append_nil, ← firstN_succ] at hi
  have hw : p.writeNode 0 (.leaf (encLeaf ld (firstN (n + 1)) none)) =
      some (p.put { p.disk with pages := [some (.leaf (encLeaf ld (firstN (n + 1)) none))] }) := by
    rw [Pager.writeNode, if_pos (by simp [h1])]
    simp [h1]
  refine ⟨_, by rw [insert, hs]; simp only [insertLeaf, hi, hw, Option.map_some]; rfl, ?_⟩
  exact ⟨rfl, h2, h3⟩

theorem single_run {ld id : Nat} : ∀ n, n ≤ ld → ∃ (p : Pager Nat Nat) (h : _),
    (bp Nat Nat ld id).run (new ld id) ((firstN n).map fun e => (.insert e.1 e.2, false)) = some (p, h) ∧
      Single ld p (encLeaf ld (firstN n) none) := by
  have key : ∀ m n (p : Pager Nat Nat), n + m ≤ ld → Single ld p (encLeaf ld (firstN n) none) → ∃ (p' : Pager Nat Nat) (h : _),
      (bp Nat Nat ld id).run p (((List.range' n m).map fun i => (i, i)).map fun e => (.insert e.1 e.2, false)) = some (p', h) ∧
        Single ld p' (encLeaf ld (firstN (n + m)) none) := by
    intro m
    induction m with
    | zero => intro n p _ h; exact ⟨p, [], rfl, h⟩
    | succ m ih =>
      intro n p hle h
      obtain ⟨p1, e, h1⟩ := single_insert h (by omega)
      obtain ⟨p2, hist, e2, h2⟩ := ih (n + 1) p1 (by omega) h1
      have hst : (bp Nat Nat ld id).step p (.insert n n) false = some (p1, .pair none) := by
        simp [bp, step, e]
      have e3 : n + (m + 1) = n + 1 + m := by omega
      refine ⟨p2, (.insert n n, .pair none) :: hist, ?_, by rw [e3]; exact h2⟩
      rw [List.range'_succ, List.map_cons, List.map_cons]
      exact (run_cons _ hst _).trans (by rw [e2]; rfl)
  intro n hn
  obtain ⟨p, h, e, hs⟩ := key n 0 (new ld id) (by omega) ⟨rfl, rfl, rfl⟩
  refine ⟨p, h, ?_, by simpa using hs⟩
  rw [firstN, List.range_eq_range']
  exact e

/-- **C28 is violated for every leaf degree from 5 on.**  After inserting as many ascending keys as a leaf holds,
overwriting the last one loses the one before it: `get` found it before, and does not after. -/
theorem C28_violated_all (ld id : Nat) (hld : 5 ≤ ld) :
    ∃ (ops : _) (p : Pager Nat Nat) (h : _), (bp Nat Nat ld id).run (new ld id) ops = some (p, h) ∧
      ∃ k k' v v' old p', k ≠ k' ∧ get p k = some (some v) ∧ insert p k' v' = some (p', old) ∧
        get p' k ≠ some (some v) := by
  obtain ⟨p, h, e, hs⟩ := single_run (ld := ld) (id := id) ld (le_refl _)
  refine ⟨_, p, h, e, ld - 2, ld - 1, ld - 2, 0, some (ld - 1, ld - 1), ?_⟩
  obtain ⟨m, rfl⟩ : ∃ m, ld = m + 2 := ⟨ld - 2, by omega⟩
  have e1 : m + 2 - 2 = m := by omega
  have e2 : m + 2 - 1 = m + 1 := by omega
  rw [e1, e2]
  have hse := single_search hs
  obtain ⟨h1, h2, h3⟩ := hs
  let n' : LNode Nat Nat := ⟨m + 2, keep none ((m + 2) / 2 + 1) ((firstN (m + 1)).map some) ++ [some (m + 1, 0)], none⟩
  have hins : (encLeaf (m + 2) (firstN (m + 2)) none).insert (m + 1, 0) = some (n', .entry (m + 1, m + 1)) := by
    have hent : (encLeaf (m + 2) (firstN (m + 2)) none).entries = (firstN (m + 1) ++ [(m + 1, m + 1)]).map some := by
      simp only [encLeaf]
      rw [pad_full (by simp [length_firstN]), ← firstN_succ]
    have hlen : (encLeaf (m + 2) (firstN (m + 2)) none).entries.length = m + 2 := by rw [hent]; simp [length_firstN]
    rw [LNode.insert]
    simp only [hlen]
    rw [if_neg (by simp [encLeaf, length_firstN]), hent,
      leafSplit_lost (e := (m + 1, 0)) (o := m + 1) (er := []) (fun a ha => mem_firstN ha)]
    simp [n', encLeaf, length_firstN]
  have hw : p.writeNode 0 (.leaf n') = some (p.put { p.disk with pages := [some (.leaf n')] }) := by
    rw [Pager.writeNode, if_pos (by simp [h1])]
    simp [h1]
  refine ⟨_, by omega, ?_, by rw [insert, hse]; simp only [insertLeaf, hins, hw, Option.map_some]; rfl, ?_⟩
  · rw [get, hse]
    have hsr := search_encLeaf_some (ld := m + 2) (key := m) (v := m) (el := firstN m) (er := [(m + 1, m + 1)]) (nxt := none)
      (by simp [length_firstN]) (fun a ha => mem_firstN ha) (by simp)
    have e3 : firstN m ++ [(m, m), (m + 1, m + 1)] = firstN (m + 2) := by
      rw [firstN_succ, firstN_succ]; simp
    have e3' : firstN m ++ (m, m) :: [(m + 1, m + 1)] = firstN (m + 2) := e3
    rw [e3'] at hsr
    simp only [hsr]
    have : (encLeaf (m + 2) (firstN (m + 2)) none).entries[(firstN m).length]? = some (some (m, m)) := by
      simp only [encLeaf]
      rw [pad_get_lt (by simp [length_firstN]), ← e3]
      simp
    rw [this]
    rfl
  · have hse' := single_search (ld := m + 2) (p := p.put { p.disk with pages := [some (.leaf n')] }) (n := n') ⟨rfl, h2, h3⟩ m
    intro hg
    rw [get, hse'] at hg
    simp only at hg
    cases hsr : n'.search m with
    | none => rw [hsr] at hg; simp at hg
    | some o =>
      cases o with
      | none => rw [hsr] at hg; simp at hg
      | some i =>
        rw [LNode.search] at hsr
        split at hsr
        · cases hsr
        · obtain ⟨v, hv⟩ := leafSearch_sound hsr
          have hmem := List.mem_of_getElem? hv
          simp only [n', keep, List.mem_append, List.mem_replicate, List.mem_singleton] at hmem
          rcases hmem with (hmem | ⟨_, hmem⟩) | hmem
          · rw [← List.map_take, List.mem_map] at hmem
            obtain ⟨a, ha, hae⟩ := hmem
            cases hae
            have : (firstN (m + 1)).take ((m + 2) / 2 + 1) = firstN ((m + 2) / 2 + 1) := by
              simp only [firstN, ← List.map_take, List.take_range]
              congr 2
              omega
            rw [this] at ha
            have := mem_firstN ha
            simp at this
            omega
          · cases hmem
          · simp at hmem

/-! ### Concrete histories -/

section
variable {K V : Type} [LinearOrder K]

theorem history_get {m m' : AMap K V} {h : List (MapOp K V × MapRes K V)} {k : K} {o : Option V}
    (hs : ∀ op ∈ h.map (·.1), Supported op) (hh : History m (h ++ [(.get k, .val o)]) m') :
    o = ((h.map (·.1)).foldl (fun m op => after op m) m) k := by
  induction h generalizing m with
  | nil =>
    cases hh with
    | cons h1 h2 =>
      have := h1.1
      simp only [MapRes.val.injEq] at this
      exact this
  | cons x h ih =>
    cases hh with
    | cons h1 h2 =>
      have := ih (fun o ho => hs o (by simp at ho ⊢; exact .inr ho)) h2
      rw [spec_after (hs _ (by simp)) h1] at this
      exact this

end

/-- Calls without reopening. -/
def plain (ops : List (MapOp Nat Nat)) : List (MapOp Nat Nat × Bool) := ops.map fun op => (op, false)

/-- **C28 is violated.**  The general statement of C28, for all degrees and histories, is false: with leaf degree 5,
overwriting a key loses another. -/
theorem C28_violated : ¬ ∀ (ld id : Nat) (ops : List (MapOp Nat Nat × Bool)), 1 ≤ ld → 3 ≤ id →
    (∀ op ∈ ops.map (·.1), Supported op) → ∃ p h m, (bp Nat Nat ld id).run (new ld id) ops = some (p, h) ∧
      h.map (·.1) = ops.map (·.1) ∧ History AMap.empty h m := by
  intro H
  obtain ⟨p, h, m, e, e1, hh⟩ := H 5 3 (plain [.insert 0 0, .insert 1 1, .insert 2 2, .insert 3 3, .insert 4 4,
    .insert 4 9, .get 3]) (by decide) (by decide) (by
      intro op hop
      simp [plain] at hop
      rcases hop with rfl | rfl | rfl | rfl | rfl | rfl | rfl <;> trivial)
  have hr : ((bp Nat Nat 5 3).run (new 5 3) (plain [.insert 0 0, .insert 1 1, .insert 2 2, .insert 3 3, .insert 4 4,
    .insert 4 9, .get 3])).map (fun x => x.2) = some ([(.insert 0 0, .pair none), (.insert 1 1, .pair none),
      (.insert 2 2, .pair none), (.insert 3 3, .pair none), (.insert 4 4, .pair none),
      (.insert 4 9, .pair (some (4, 4)))] ++ [(.get 3, .val none)]) := by rfl
  rw [e] at hr
  simp only [Option.map_some, Option.some.injEq] at hr
  subst hr
  have := history_get (k := 3) (o := none) (by
    intro op hop
    simp at hop
    rcases hop with rfl | rfl | rfl | rfl | rfl | rfl <;> trivial) hh
  have h3 : (none : Option Nat) = some 3 := this.trans (by rfl)
  cases h3

/-- **C28 is violated by small degrees**, which `with_degrees` accepts: with internal degree 2 removing both of two
keys panics, with internal degree 1 the third insertion panics, with internal degree 0 the second, and with leaf
degree 0 the first and every `get`. -/
theorem C28_violated_small :
    (bp Nat Nat 1 2).run (new 1 2) (plain [.insert 0 0, .insert 1 1, .remove 0, .remove 1]) = none ∧
    (bp Nat Nat 1 1).run (new 1 1) (plain [.insert 0 0, .insert 1 1, .insert 2 2]) = none ∧
    (bp Nat Nat 1 0).run (new 1 0) (plain [.insert 0 0, .insert 1 1]) = none ∧
    (bp Nat Nat 0 3).run (new 0 3) (plain [.insert 0 0]) = none ∧
    (bp Nat Nat 0 3).run (new 0 3) (plain [.get 0]) = none :=
  ⟨Option.isNone_iff_eq_none.1 (by decide +kernel), Option.isNone_iff_eq_none.1 (by decide +kernel),
    Option.isNone_iff_eq_none.1 (by decide +kernel), Option.isNone_iff_eq_none.1 (by decide +kernel),
    Option.isNone_iff_eq_none.1 (by decide +kernel)⟩

/-! ### Non-vacuity -/

/-- A history with splits of leaves and inner nodes, reopenings, merges and borrowing. -/
def sample : List (MapOp Nat Nat × Bool) :=
  [(.insert 5 0, false), (.insert 1 1, true), (.insert 3 2, false), (.insert 4 3, false), (.insert 2 4, true),
   (.insert 9 5, false), (.insert 7 6, false), (.insert 8 7, false), (.insert 6 8, false), (.insert 0 9, false),
   (.insert 3 77, false), (.remove 1, true), (.remove 5, false), (.remove 4, false), (.get 3, true), (.min, false),
   (.max, false), (.iter, true), (.len, false)]

theorem sample_supported : ∀ op ∈ sample.map (·.1), Supported op := by
  intro op hop
  simp [sample] at hop
  rcases hop with rfl | rfl | rfl | rfl | rfl | rfl | rfl | rfl | rfl | rfl | rfl | rfl | rfl | rfl | rfl | rfl | rfl | rfl | rfl <;> trivial

/-- The hypotheses of `C28_bp_map_partial` hold for it. -/
theorem sample_admissible : Admissible 2 3 sample :=
  C28_covered (by decide) (by decide) sample sample_supported (.inl (by decide))

/-- The state that it leads to, leaf degree 2, internal degree 3. -/
def sampleState : Pager Nat Nat := (((bp Nat Nat 2 3).run (new 2 3) sample).getD (new 2 3, [])).1

theorem sample_reached : Reached 2 3 sampleState := by
  obtain ⟨p, h, e, _⟩ := C28_bp_map_partial (K := Nat) (V := Nat) (ld := 2) (id := 3) (by decide) (by decide) sample sample_admissible
  refine ⟨sample, h, sample_admissible, ?_⟩
  rw [e]
  simp only [sampleState, e]
  rfl

/-- Its results, and the page that the allocator would take. -/
example : (((bp Nat Nat 2 3).run (new 2 3) sample).map fun x => (x.2.map (·.2)).drop 10) =
    some [.pair (some (3, 2)), .pair (some (1, 1)), .pair (some (5, 0)), .pair (some (4, 3)), .val (some 77), .key (some 0),
      .key (some 9), .list [(0, 9), (2, 4), (3, 77), (6, 8), (7, 6), (8, 7), (9, 5)], .num 7] := by decide +kernel

/-- The sample tree has depth 2, free pages and several leaves. -/
example : (search sampleState 3).map (fun x => x.2.2.length) = some 2 ∧ sampleState.md.free ≠ none ∧
    (leafPages sampleState.disk 20 sampleState.md.root).map List.length = some 7 := by decide +kernel

/-- Histories without overwriting are admissible for larger leaf degrees. -/
example : Admissible 100 3 (plain [.insert 1 1, .remove 1, .insert 1 2, .iter]) := by
  refine C28_covered (by decide) (by decide) _ ?_ (.inr ?_)
  · intro op hop
    simp [plain] at hop
    rcases hop with rfl | rfl | rfl | rfl <;> trivial
  · intro pre k v hp
    simp only [plain, List.map_map, Function.comp_def, List.map_id'] at hp
    match pre, hp with
    | [], hp => rfl
    | [a], hp => simp at hp
    | [a, b], hp =>
      simp at hp
      obtain ⟨rfl, rfl, ⟨rfl, rfl⟩⟩ := hp
      simp [contents, after, AMap.set]
    | [a, b, c], hp => simp at hp
    | a :: b :: c :: d :: r, hp => have := hp.length_le; simp at this

end Verif.Bp
