/- Properties C25, C26 and C27: RadixMap. -/
import Mathlib.Tactic.ByContra
import Mathlib.Data.List.Induction
import Verif.Radix.Prefix

namespace Verif.Radix

open Verif.Spec

variable {V : Type}

/-! ### Specification -/

/-- An abstract map, and whether the last call among `remove` and `clear` was a `remove` that left the map empty
(an insertion keeps the mark). -/
def after : MapOp Key V → AMap Key V × Prop → AMap Key V × Prop
  | .insert k v, (m, d) => (m.set k (some v), d)
  | .remove k, (m, _) => (m.set k none, ∀ x, m.set k none x = none)
  | .getMut k f, (m, d) => (m.set k ((m k).map f), d)
  | .clear, _ => (AMap.empty, False)
  | _, s => s

/-- The abstract map and the mark after a list of calls. -/
def tracked (ops : List (MapOp Key V)) : AMap Key V × Prop :=
  ops.foldl (fun s op => after op s) (AMap.empty, False)

/-- Run calls on a new map. -/
def runNew (ops : List (MapOp Key V)) : Option (RadixMap V × List (MapOp Key V × MapRes Key V)) :=
  (radix V).run RadixMap.new (ops.map fun op => (op, ()))

/-- A history of supported calls leads from a new map to `s`. -/
def Reached (s : RadixMap V) : Prop := ∃ ops h, (∀ op ∈ ops, Supported op) ∧ runNew ops = some (s, h)

/-- `k` is a key of the map, according to `get`. -/
def Stored (s : RadixMap V) (k : Key) : Prop := ∃ v, get k s.root = some (some v)

/-! ### Proofs -/

def Rel (s : RadixMap V) (a : AMap Key V × Prop) : Prop :=
  Inv s ∧ look s.root = a.1 ∧ (s.root.isNil = true ↔ a.2)

theorem rel_step {s : RadixMap V} {a : AMap Key V × Prop} (h : Rel s a) {op : MapOp Key V} (hs : Supported op) :
    (∃ s' r, step s op = some (s', r) ∧ op.Spec a.1 r (after op a).1 ∧ Rel s' (after op a)) ∧
      (∀ k v, op = .insert k v → ¬ a.2) ∨
    (step s op = none ∧ a.2 ∧ ∃ k v, op = .insert k v) := by
  obtain ⟨m, d⟩ := a
  obtain ⟨hinv, hl, hd⟩ := h
  by_cases hcase : ∃ k v, op = .insert k v ∧ s.root.isNil = true
  · obtain ⟨k, v, rfl, hn⟩ := hcase
    exact .inr ⟨step_insert_nil hn k v, hd.1 hn, k, v, rfl⟩
  · have hi : ∀ k v, op = .insert k v → s.root.isNil = false := by
      intro k v e
      cases hn : s.root.isNil with
      | false => rfl
      | true => exact absurd ⟨k, v, e, hn⟩ hcase
    refine .inl ⟨?_, fun k v e hd' => by rw [hi k v e] at hd; simp at hd; exact hd hd'⟩
    obtain ⟨s', e, hinv', hent, hgone⟩ := step_sim hinv op hs hi
    have hspec := SL.step_spec (root_lists hinv.1).1 op
    rw [← hent, root_abs hinv.1, root_abs hinv'.1] at hspec
    have hl : look s.root = m := hl
    subst hl
    have hm : look s'.root = (after op (look s.root, d)).1 := by
      cases op <;> simp only [MapOp.Spec] at hspec <;> exact hspec.2
    refine ⟨s', _, e, by rw [← hm]; exact hspec, hinv', hm, ?_⟩
    rw [hgone]
    cases op with
    | remove k =>
      simp only [goneAfter, after] at hm ⊢
      rw [← hent, List.isEmpty_iff, ← hm]
      have hl := root_lists hinv'.1
      constructor
      · intro h x
        cases hx : look s'.root x with
        | none => rfl
        | some w => have := (hl.2 x w).2 hx; rw [h] at this; simp at this
      · intro h
        rw [List.eq_nil_iff_forall_not_mem]
        rintro ⟨q, w⟩ hq
        rw [hl.2, h] at hq; cases hq
    | clear => simp [goneAfter, after]
    | _ => exact hd

theorem run_cons {K : Type} (I : MapImpl K V) {s s₁ : I.State} {op : MapOp K V} {d : I.Draw} {r : MapRes K V}
    (h : I.step s op d = some (s₁, r)) (ops : List (MapOp K V × I.Draw)) :
    I.run s ((op, d) :: ops) = (I.run s₁ ops).map fun (s₂, h) => (s₂, (op, r) :: h) := by
  simp only [MapImpl.run, h, Option.bind_eq_bind, Option.bind_some]
  cases I.run s₁ ops <;> rfl

theorem rel_run (ops : List (MapOp Key V)) (hs : ∀ op ∈ ops, Supported op) (s : RadixMap V) (a : AMap Key V × Prop)
    (h : Rel s a) :
    (∃ s' hist, (radix V).run s (ops.map fun op => (op, ())) = some (s', hist) ∧ hist.map (·.1) = ops ∧
      History a.1 hist (ops.foldl (fun s op => after op s) a).1 ∧ Rel s' (ops.foldl (fun s op => after op s) a) ∧
      ¬ ∃ pre k v post, ops = pre ++ .insert k v :: post ∧ (pre.foldl (fun s op => after op s) a).2) ∨
    ((radix V).run s (ops.map fun op => (op, ())) = none ∧
      ∃ pre k v post, ops = pre ++ .insert k v :: post ∧ (pre.foldl (fun s op => after op s) a).2) := by
  induction ops generalizing s a with
  | nil =>
    refine .inl ⟨s, [], rfl, rfl, .nil _, h, ?_⟩
    rintro ⟨pre, k, v, post, e, _⟩; simp at e
  | cons op ops ih =>
    rcases rel_step h (hs op (by simp)) with ⟨⟨s₁, r, e, hspec, hrel⟩, hno⟩ | ⟨e, hd, k, v, rfl⟩
    · have hstep : (radix V).step s op () = some (s₁, r) := e
      rcases ih (fun o ho => hs o (by simp [ho])) s₁ _ hrel with ⟨s', hist, e', h1, h2, h3, h4⟩ | ⟨e', pre, k, v, post, h1, h2⟩
      · refine .inl ⟨s', (op, r) :: hist, ?_, by simp [h1], .cons hspec h2, h3, ?_⟩
        · rw [List.map_cons, run_cons (radix V) hstep, e']; rfl
        · rintro ⟨pre, k, v, post, he, hp⟩
          cases pre with
          | nil =>
            simp only [List.nil_append, List.cons.injEq] at he
            exact hno k v he.1 hp
          | cons o pre =>
            simp only [List.cons_append, List.cons.injEq] at he
            obtain ⟨rfl, rfl⟩ := he
            exact h4 ⟨pre, k, v, post, rfl, hp⟩
      · refine .inr ⟨?_, op :: pre, k, v, post, by rw [h1]; rfl, h2⟩
        rw [List.map_cons, run_cons (radix V) hstep, e']; rfl
    · refine .inr ⟨?_, [], k, v, ops, rfl, hd⟩
      have hstep : (radix V).step s (.insert k v) () = none := e
      simp only [List.map_cons, MapImpl.run]; rw [hstep]; rfl

theorem rel_new : Rel (RadixMap.new : RadixMap V) (AMap.empty, False) :=
  ⟨inv_new, by funext k; cases k <;> rfl, by simp [RadixMap.new, Tree.isNil]⟩

theorem reached_inv {s : RadixMap V} (h : Reached s) : Inv s := by
  obtain ⟨ops, hist, hs, e⟩ := h
  rcases rel_run ops hs _ _ rel_new with ⟨s', hist', e', _, _, h3, _⟩ | ⟨e', _⟩
  · rw [runNew, e'] at e; cases e; exact h3.1
  · rw [runNew, e'] at e; cases e

/-- **C25 (exact).**  A history of calls on a new map panics if and only if it contains an `insert` made while the
last `remove` or `clear` was a `remove` that left the map empty.  Otherwise all results are those of an abstract
map from byte strings. -/
theorem C25_radix_exact (ops : List (MapOp Key V)) (hs : ∀ op ∈ ops, Supported op) :
    (runNew ops = none ↔ ∃ pre k v post, ops = pre ++ .insert k v :: post ∧ (tracked pre).2) ∧
    ∀ s h, runNew ops = some (s, h) → h.map (·.1) = ops ∧ History AMap.empty h (tracked ops).1 := by
  rcases rel_run ops hs _ _ rel_new with ⟨s', hist', e', h1, h2, _, h4⟩ | ⟨e', hp⟩
  · constructor
    · constructor
      · intro e; rw [runNew, e'] at e; cases e
      · intro hp; exact absurd hp h4
    · intro s h e; rw [runNew, e'] at e; cases e; exact ⟨h1, h2⟩
  · refine ⟨⟨fun _ => hp, fun _ => e'⟩, fun s h e => ?_⟩
    rw [runNew, e'] at e; cases e

/-- The mark is set only by a `remove` that leaves the map empty. -/
theorem tracked_mark (ops : List (MapOp Key V)) (h : (tracked ops).2) :
    ∃ pre k, (pre ++ [.remove k]) <+: ops ∧ ∀ x, (tracked (pre ++ [.remove k])).1 x = none := by
  induction ops using List.reverseRecOn with
  | nil => exact absurd h id
  | append_singleton ops op ih =>
    have ih' : (tracked ops).2 → ∃ pre k, (pre ++ [.remove k]) <+: (ops ++ [op]) ∧
        ∀ x, (tracked (pre ++ [.remove k])).1 x = none := by
      intro h
      obtain ⟨pre, k, h1, h2⟩ := ih h
      exact ⟨pre, k, h1.trans (List.prefix_append _ _), h2⟩
    have e : tracked (ops ++ [op]) = after op (tracked ops) := by simp [tracked, List.foldl_append]
    rw [e] at h
    cases op with
    | remove k =>
      refine ⟨ops, k, List.prefix_rfl, ?_⟩
      rw [e]; exact h
    | clear => exact absurd h id
    | _ => exact ih' h

/-- **C25 (partial).**  A history in which no `remove` leaves the map empty does not panic, and all results are
those of an abstract map from byte strings.  Missing: histories in which a `remove` leaves the map empty and an
`insert` follows; on these the code panics (`C25_violated`). -/
theorem C25_radix_map_partial (ops : List (MapOp Key V)) (hs : ∀ op ∈ ops, Supported op)
    (hne : ∀ pre k, (pre ++ [.remove k]) <+: ops → ∃ x, (tracked (pre ++ [.remove k])).1 x ≠ none) :
    ∃ s h m, runNew ops = some (s, h) ∧ h.map (·.1) = ops ∧ History AMap.empty h m := by
  obtain ⟨h1, h2⟩ := C25_radix_exact ops hs
  cases e : runNew ops with
  | some sh => obtain ⟨s, h⟩ := sh; exact ⟨s, h, _, rfl, (h2 s h e).1, (h2 s h e).2⟩
  | none =>
    obtain ⟨pre, k, v, post, rfl, hp⟩ := h1.1 e
    obtain ⟨pre', k', h3, h4⟩ := tracked_mark pre hp
    obtain ⟨x, hx⟩ := hne pre' k' (h3.trans (List.prefix_append _ _))
    exact absurd (h4 x) hx

/-- **C25 is violated.**  `remove` on an empty map and then `insert` panics. -/
theorem C25_violated : ¬ ∀ ops : List (MapOp Key Nat), (∀ op ∈ ops, Supported op) →
    ∃ s h m, runNew ops = some (s, h) ∧ h.map (·.1) = ops ∧ History AMap.empty h m := by
  intro h
  obtain ⟨s, hist, m, e, _⟩ := h [.remove [97], .insert [97] 1] (by
    intro op hop
    rcases List.mem_cons.1 hop with rfl | hop
    · trivial
    · rcases List.mem_cons.1 hop with rfl | hop
      · trivial
      · simp at hop)
  have : runNew [.remove [97], .insert [97] (1 : Nat)] = none := by rfl
  rw [this] at e; cases e

/-- **C25 is violated** also by removing the last key: insert, remove, insert panics. -/
theorem C25_violated_last : runNew [.insert [97] 1, .remove [97], .insert [97] (2 : Nat)] = none := rfl

/-- Non-vacuity of `C25_radix_map_partial`: keys with common prefixes, a split, a merge, the empty key. -/
example : ∃ s h, runNew [.insert [1, 2, 3] 10, .insert [1, 2, 4] 11, .insert [] 12, .insert [1, 2] 13,
    .remove [1, 2, 3], .remove [1, 2], .get [1, 2, 4], .insert [1, 2, 4] (14 : Nat), .iter, .len] = some (s, h) ∧
    h.map (·.2) = [.pair none, .pair none, .pair none, .pair none, .pair (some ([1, 2, 3], 10)),
      .pair (some ([1, 2], 13)), .val (some 11), .pair (some ([1, 2, 4], 11)),
      .list [([], 12), ([1, 2, 4], 14)], .num 2] := by
  refine ⟨(runNew [.insert [1, 2, 3] 10, .insert [1, 2, 4] 11, .insert [] 12, .insert [1, 2] 13,
    .remove [1, 2, 3], .remove [1, 2], .get [1, 2, 4], .insert [1, 2, 4] (14 : Nat), .iter, .len]).get rfl |>.1,
    _, rfl, ?_⟩
  decide +kernel

/-- `[.insert a, .insert b, .remove a]` satisfies the hypothesis of `C25_radix_map_partial`. -/
example : ∀ pre k, (pre ++ [.remove k]) <+: [.insert [1] 10, .insert [2] 20, .remove [1]] →
    ∃ x, (tracked (V := Nat) (pre ++ [.remove k])).1 x ≠ none := by
  intro pre k h
  obtain ⟨post, h⟩ := h
  match pre, h with
  | [], h => simp at h
  | [_], h => simp at h
  | [a, b], h =>
    simp only [List.cons_append, List.nil_append, List.cons.injEq] at h
    obtain ⟨rfl, rfl, h, _⟩ := h
    cases h
    exact ⟨[2], by decide⟩
  | _ :: _ :: _ :: pre, h => have := congrArg List.length h; simp at this

/-- **C26.**  In every reachable state, including the one after the last key was removed, `iter` yields every entry
exactly once in strictly ascending lexicographic order of the keys, and `min` and `max` are the least and greatest
key. -/
theorem C26_radix_order {s : RadixMap V} (h : Reached s) :
    ∃ m l, (∀ k, get k s.root = some (m k)) ∧ Lists m l ∧ s.iter = some l ∧ s.len = l.length ∧
      IsLeastKey m.Has (minKey [] s.root) ∧ IsGreatestKey m.Has (maxKey [] s.root) := by
  have hinv := reached_inv h
  have hl := root_lists hinv.1
  refine ⟨look s.root, entries [] s.root, get_root hinv.1, hl, ?_, hinv.2, ?_, ?_⟩
  · obtain ⟨s', e, _⟩ := step_sim hinv .iter trivial (by intro k v h; cases h)
    simp only [step, SL.res, Option.map_eq_some_iff] at e
    obtain ⟨l, h1, h2⟩ := e
    simp only [Prod.mk.injEq, MapRes.list.injEq] at h2
    rw [h1, h2.2]
  · rw [minKey_eq (.inr hinv.1), ← root_abs hinv.1]; exact SL.min_spec hl.1
  · rw [maxKey_eq (.inr hinv.1), ← root_abs hinv.1]; exact SL.max_spec hl.1

/-- Run calls and keep the final map. -/
def mk (ops : List (MapOp Key V)) : RadixMap V := ((runNew ops).map (·.1)).getD RadixMap.new

theorem reached_mk (ops : List (MapOp Key V)) (hs : ∀ op ∈ ops, Supported op) : Reached (mk ops) := by
  cases e : runNew ops with
  | none => exact ⟨[], [], by simp, by simp [mk, e]; rfl⟩
  | some sh =>
    obtain ⟨s, h⟩ := sh
    refine ⟨ops, h, hs, ?_⟩
    simp [mk, e]

/-- Insertions only. -/
theorem reached_inserts (l : List (Key × V)) : Reached (mk (l.map fun e => .insert e.1 e.2)) :=
  reached_mk _ fun op hop => by
    obtain ⟨e, _, rfl⟩ := List.mem_map.1 hop
    trivial

/-- Non-vacuity of C26. -/
example : Reached (mk ([([98], 1), ([97, 99], 2), ([97], 3), ([97, 98], 4)].map fun e => MapOp.insert e.1 (e.2 : Nat))) ∧
    (mk ([([98], 1), ([97, 99], 2), ([97], 3), ([97, 98], 4)].map fun e => MapOp.insert e.1 (e.2 : Nat))).iter =
      some [([97], 3), ([97, 98], 4), ([97, 99], 2), ([98], 1)] :=
  ⟨reached_inserts _, by decide +kernel⟩

/-! ### Longest prefix -/

theorem stored_iff {s : RadixMap V} (h : Reached s) (k : Key) : Stored s k ↔ look s.root k ≠ none := by
  unfold Stored
  rw [get_root (reached_inv h).1]
  cases look s.root k <;> simp

/-- **C27 (exact).**  In every reachable map and for every query, `get_longest_prefix` does not panic, returns keys
in ascending order, returns nothing on an empty map, and otherwise the answer described by `LongestPrefixAnswer`:
either all stored keys that share the longest common prefix with the query, or only that prefix itself. -/
theorem C27_longest_prefix_exact {s : RadixMap V} (h : Reached s) (q : Key) :
    ∃ res, s.getLongestPrefix q = some res ∧ res.Pairwise (· < ·) ∧
      ((∀ k, ¬ Stored s k) → res = []) ∧ ((∃ k, Stored s k) → LongestPrefixAnswer (Stored s) q res) := by
  obtain ⟨res, h1, h2, h3, h4⟩ := longestPrefix_spec (reached_inv h).1 q
  refine ⟨res, h1, h2, fun hk => h3 fun k => ?_, fun ⟨k, hk⟩ => ?_⟩
  · have := hk k; rw [stored_iff h] at this; exact not_not.1 this
  · exact (answer_congr (stored_iff h)).2 (h4 ⟨k, (stored_iff h k).1 hk⟩)

theorem commonLen_take {q : Key} {L : Nat} (h : L ≤ q.length) : commonLen (q.take L) q = L := by
  have := commonLen_self_ext (q.take L) (q.drop L)
  rw [List.take_append_drop] at this
  rw [this, List.length_take]; omega

/-- **C27 (soundness).**  Every returned key is stored and no stored key shares a longer prefix with the query. -/
theorem C27_longest_prefix_sound_partial {s : RadixMap V} (h : Reached s) {q : Key} {res : List Key}
    (hr : s.getLongestPrefix q = some res) {k : Key} (hk : k ∈ res) :
    Stored s k ∧ ∀ k', Stored s k' → commonLen k' q ≤ commonLen k q := by
  obtain ⟨res', h1, _, h3, h4⟩ := C27_longest_prefix_exact h q
  rw [h1] at hr; cases hr
  by_cases hne : ∃ k, Stored s k
  · obtain ⟨L, hL, _, hmax, ⟨hmem, _⟩ | ⟨hlt, hmem, _⟩⟩ := h4 hne
    · obtain ⟨h5, h6⟩ := (hmem k).1 hk
      exact ⟨h5, fun k' hk' => by rw [h6]; exact hmax k' hk'⟩
    · obtain ⟨h5, rfl⟩ := (hmem k).1 hk
      exact ⟨h5, fun k' hk' => by rw [commonLen_take (le_of_lt hlt)]; exact hmax k' hk'⟩
  · rw [h3 fun k hk => hne ⟨k, hk⟩] at hk; simp at hk

/-- **C27 (completeness for stored extensions).**  If some stored key starts with the query, the answer is exactly
the stored keys that start with the query.  Missing from C27: queries that no stored key extends, for which keys
may be left out (`C27_violated`). -/
theorem C27_longest_prefix_extension_partial {s : RadixMap V} (h : Reached s) {q : Key}
    (he : ∃ r, Stored s (q ++ r)) :
    ∃ res, s.getLongestPrefix q = some res ∧ res.Pairwise (· < ·) ∧
      (∀ k, k ∈ res ↔ Stored s k ∧ ∃ r, k = q ++ r) ∧ AllLongest (Stored s) q res := by
  obtain ⟨r, hr⟩ := he
  obtain ⟨res, h1, h2, _, h4⟩ := C27_longest_prefix_exact h q
  have hext : ∀ k : Key, commonLen k q = q.length ↔ ∃ r, k = q ++ r := by
    intro k
    constructor
    · clear h1 h4 hr h
      induction q generalizing k with
      | nil => intro _; exact ⟨k, rfl⟩
      | cons b q ih =>
        intro e
        cases k with
        | nil => simp [commonLen] at e
        | cons a k =>
          by_cases hab : a = b
          · subst hab
            simp only [commonLen, if_true, List.length_cons, Nat.add_right_cancel_iff] at e
            obtain ⟨r, rfl⟩ := ih k e
            exact ⟨r, rfl⟩
          · simp [commonLen, hab] at e
    · rintro ⟨r, rfl⟩; exact commonLen_ext q r
  obtain ⟨L, hL, hex, hmax, hcase⟩ := h4 ⟨_, hr⟩
  have hLq : L = q.length := by
    have := hmax _ hr
    rw [commonLen_ext] at this; omega
  rcases hcase with ⟨hmem, _⟩ | ⟨hlt, _⟩
  · refine ⟨res, h1, h2, fun k => by rw [hmem, hLq, hext], fun k => ?_⟩
    rw [hmem]
    refine and_congr_right fun hk => ⟨fun e k' hk' => by rw [e]; exact hmax k' hk', fun hm => ?_⟩
    have h5 := hm _ hr
    rw [commonLen_ext] at h5
    have h6 := hmax k hk
    omega
  · omega

/-- Two keys under a common prefix. -/
def demo : RadixMap Nat := mk ([([97, 97, 98], 1), ([97, 97, 99], 2)].map fun e => .insert e.1 e.2)

theorem reached_demo : Reached demo := reached_inserts _

/-- Non-vacuity of `C27_longest_prefix_extension_partial`. -/
example : ∃ r, Stored demo ([97] ++ r) := ⟨[97, 98], 1, by decide +kernel⟩
example : demo.getLongestPrefix [97] = some [[97, 97, 98], [97, 97, 99]] := by decide +kernel

/-- **C27 is violated.**  With `aab` and `aac` stored the query `aad` returns nothing, although both stored keys
share `aa` with it. -/
theorem C27_violated : ¬ ∀ (s : RadixMap Nat) (q : Key), Reached s →
    ∃ res, s.getLongestPrefix q = some res ∧ AllLongest (Stored s) q res := by
  intro h
  obtain ⟨res, h1, h2⟩ := h demo [97, 97, 100] reached_demo
  have e : demo.getLongestPrefix [97, 97, 100] = some [] := by decide +kernel
  rw [e] at h1; cases h1
  have hst : Stored demo [97, 97, 98] := ⟨1, by decide +kernel⟩
  have := (h2 [97, 97, 98]).2 ⟨hst, fun s' hs' => ?_⟩
  · simp at this
  · rw [stored_iff reached_demo] at hs'
    have hl := (root_lists (reached_inv reached_demo).1).2 s'
    cases hw : look demo.root s' with
    | none => exact absurd hw hs'
    | some w =>
      have hm := (hl w).2 hw
      have he : entries [] demo.root = [([97, 97, 98], 1), ([97, 97, 99], 2)] := by decide +kernel
      rw [he] at hm
      rcases List.mem_cons.1 hm with e | hm
      · cases e; decide
      · rcases List.mem_cons.1 hm with e | hm
        · cases e; decide
        · simp at hm

/-- **C27 is violated** also in that the answer depends on the history: two maps with the same single key `b`
answer the query `a` differently. -/
theorem C27_history_dependent :
    ∃ s s' : RadixMap Nat, Reached s ∧ Reached s' ∧ (∀ k, get k s.root = get k s'.root) ∧
      s.getLongestPrefix [97] ≠ s'.getLongestPrefix [97] := by
  refine ⟨mk [.insert [98] 1], mk [.insert [98] 1, .insert [99] 2, .remove [99]],
    reached_inserts [([98], 1)], reached_mk _ ?_, fun k => ?_, by decide +kernel⟩
  · intro op hop
    rcases List.mem_cons.1 hop with rfl | hop
    · trivial
    · rcases List.mem_cons.1 hop with rfl | hop
      · trivial
      · rcases List.mem_cons.1 hop with rfl | hop
        · trivial
        · simp at hop
  · have h1 : Reached (mk [.insert [98] 1] : RadixMap Nat) := reached_inserts [([98], 1)]
    have h2 : Reached (mk [.insert [98] 1, .insert [99] 2, .remove [99]] : RadixMap Nat) := reached_mk _ (by
      intro op hop
      rcases List.mem_cons.1 hop with rfl | hop
      · trivial
      · rcases List.mem_cons.1 hop with rfl | hop
        · trivial
        · rcases List.mem_cons.1 hop with rfl | hop
          · trivial
          · simp at hop)
    rw [get_root (reached_inv h1).1, get_root (reached_inv h2).1, ← root_abs (reached_inv h1).1,
      ← root_abs (reached_inv h2).1]
    have e1 : entries [] (mk [.insert [98] 1] : RadixMap Nat).root = [([98], 1)] := by decide +kernel
    have e2 : entries [] (mk [.insert [98] 1, .insert [99] 2, .remove [99]] : RadixMap Nat).root = [([98], 1)] := by
      decide +kernel
    rw [e1, e2]

end Verif.Radix
