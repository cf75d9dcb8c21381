/- Properties C03, C47 of `SplayMap`. -/
import Verif.Splay.Lemmas
import Verif.Spec.TreeShape
import Mathlib.Data.Nat.Basic

namespace Verif.Splay

open Verif.Bst Verif.Spec

/-- **C03.** Every history of `SplayMap` calls runs without panic and returns what an abstract
ordered map returns. -/
theorem C03_splay_history (K V : Type) [LinearOrder K] : (impl K V).Correct := (sim K V).correct

/-- A history with an overwrite, a removal and a splaying `get_mut`. -/
example : ((impl Nat Nat).run SplayMap.new [(.insert 2 20, ()), (.insert 1 10, ()),
      (.insert 3 30, ()), (.insert 4 40, ()), (.getMut 1 (· + 1), ()),
      (.insert 2 21, ()), (.remove 3, ()), (.floor 3, ()), (.ceil 3, ()), (.get 1, ()),
      (.len, ())]).map (fun p => p.2.map (·.2)) =
    some [.pair none, .pair none, .pair none, .pair none, .val (some 10), .pair (some (2, 20)),
      .pair (some (3, 30)), .key (some 2), .key (some 4), .val (some 11), .num 3] := by
  decide

/-- Key at the root of a tree. -/
def rootKey {A K V : Type} : Tree A K V → Option K
  | .nil => none
  | .node _ _ k _ _ => some k

/-- `y` is a nearest stored key of `k`: no stored key lies strictly nearer on the same side, and `k`
itself is stored only if it is `y`. -/
def Nearest {K V : Type} [LinearOrder K] (stored : List (K × V)) (k y : K) : Prop :=
  (∃ v, (y, v) ∈ stored) ∧
    ∀ e ∈ stored, ¬ (y < e.1 ∧ e.1 ≤ k) ∧ ¬ (k ≤ e.1 ∧ e.1 < y)

theorem post_nearest {K V : Type} [LinearOrder K] {k : K} {es : List (K × V)} {t : STree K V}
    (hs : SL.Sorted es) (h : Post k es t) : ∃ y, rootKey t = some y ∧ Nearest es k y := by
  obtain ⟨l, y, w, r, rfl, rfl, h1, h2⟩ := h
  obtain ⟨_, _, h3, h4⟩ := SL.sorted_mid.1 hs
  refine ⟨y, rfl, ⟨w, by simp⟩, fun e he => ?_⟩
  rcases List.mem_append.1 he with he | he
  · have := h3 e he
    refine ⟨fun h => absurd (lt_trans this h.1) (lt_irrefl _), fun h => ?_⟩
    exact absurd (h1 (lt_of_le_of_lt h.1 h.2) e he) (not_lt.2 h.1)
  · rcases List.mem_cons.1 he with rfl | he
    · exact ⟨fun h => absurd h.1 (lt_irrefl _), fun h => absurd h.2 (lt_irrefl _)⟩
    · have := h4 e he
      refine ⟨fun h => ?_, fun h => absurd (lt_trans this h.2) (lt_irrefl _)⟩
      exact absurd (h2 (lt_of_lt_of_le h.1 h.2) e he) (not_lt.2 h.2)

/-- **C47 (insert).** After any history, `insert k v` leaves `k` at the root, and the next search for
`k` compares with one key. -/
theorem C47_splay_insert {K V : Type} [LinearOrder K] (s s' : SplayMap K V) (k : K) (v : V)
    (r : MapRes K V) (hs : (impl K V).Reachable s) (h : step s (.insert k v) () = some (s', r)) :
    rootKey s'.tree = some k ∧ searchCost s'.tree k = 1 := by
  obtain ⟨l, hsort, hrel⟩ := (sim K V).reachable hs
  have hroot : ∃ l' r', (insert s.tree k v).1 = nd l' k v r' := by
    obtain ⟨rfl, -⟩ := hrel
    cases ht : s.tree with
    | nil => exact ⟨.nil, .nil, rfl⟩
    | node a b c d e =>
      rw [ht] at hsort
      obtain ⟨l', y, w, r', h1, _⟩ := splay_spec k _ (by simp) hsort
      unfold insert
      rw [h1]
      simp only
      split
      · exact ⟨_, _, rfl⟩
      · split <;> exact ⟨_, _, rfl⟩
  obtain ⟨l', r', hroot⟩ := hroot
  have : s'.tree = nd l' k v r' := by
    simp only [step, SplayMap.insert, Option.bind_eq_bind, Option.bind_eq_some_iff] at h
    obtain ⟨⟨m', o⟩, h3, h4⟩ := h
    cases hret : (insert s.tree k v).2 with
    | none => rw [hret] at h3; simp at h3 h4; rw [← h4.1, ← h3.1, hroot]
    | some e => rw [hret] at h3; simp [decr] at h3 h4; rw [← h4.1, ← h3.1, hroot]
  rw [this]
  exact ⟨rfl, by simp [searchCost]⟩

/-- **C47 (get_mut).** After any history that leaves a non-empty map, `get_mut k` leaves a nearest
stored key of `k` at the root; if `k` is stored, it is `k` itself, and the next search for `k` compares
with one key. -/
theorem C47_splay_get_mut {K V : Type} [LinearOrder K] (s s' : SplayMap K V) (k : K) (f : V → V)
    (r : MapRes K V) (hs : (impl K V).Reachable s) (hne : s.tree ≠ .nil)
    (h : step s (.getMut k f) () = some (s', r)) :
    (∃ y, rootKey s'.tree = some y ∧ Nearest s.tree.toList k y) ∧
      ((s.tree.get k).isSome → rootKey s'.tree = some k ∧ searchCost s'.tree k = 1) := by
  obtain ⟨l, hsort, hrel⟩ := (sim K V).reachable hs
  obtain ⟨rfl, -⟩ := hrel
  have hp := splay_spec k _ hne hsort
  have hroot : rootKey s'.tree = rootKey (splay k s.tree) := by
    simp only [step, Option.some.injEq, Prod.mk.injEq] at h
    rw [← h.1]
    simp only [getMut]
    cases splay k s.tree with
    | nil => rfl
    | node => simp only; split <;> rfl
  obtain ⟨y, hy, hn⟩ := post_nearest hsort hp
  refine ⟨⟨y, by rw [hroot, hy], hn⟩, fun hg => ?_⟩
  rw [Tree.get_eq _ _ hsort, Option.isSome_iff_exists] at hg
  obtain ⟨e, he⟩ := hg
  have hm := SL.find_some_mem he
  have hk := SL.find_some_key he
  have hyk : y = k := by
    have := hn.2 e hm
    rw [hk] at this
    rcases lt_trichotomy y k with h | h | h
    · exact absurd ⟨h, le_refl _⟩ this.1
    · exact h
    · exact absurd ⟨le_refl _, h⟩ this.2
  subst hyk
  have h2 : rootKey s'.tree = some y := by rw [hroot, hy]
  refine ⟨h2, ?_⟩
  cases ht : s'.tree with
  | nil => rw [ht] at h2; simp [rootKey] at h2
  | node a b c d e => rw [ht] at h2; simp [rootKey] at h2; subst h2; simp [searchCost]

/-- **C47 (remove).** A `remove k` that finds nothing in a non-empty map leaves a nearest stored key
of `k` at the root. -/
theorem C47_splay_remove_absent {K V : Type} [LinearOrder K] (s s' : SplayMap K V) (k : K)
    (hs : (impl K V).Reachable s) (hne : s.tree ≠ .nil)
    (h : step s (.remove k) () = some (s', .pair none)) :
    ∃ y, rootKey s'.tree = some y ∧ Nearest s.tree.toList k y := by
  obtain ⟨l, hsort, hrel⟩ := (sim K V).reachable hs
  obtain ⟨rfl, -⟩ := hrel
  have hp := splay_spec k _ hne hsort
  obtain ⟨y, hy, hn⟩ := post_nearest hsort hp
  refine ⟨y, ?_, hn⟩
  simp only [step, SplayMap.remove, Option.bind_eq_bind, Option.bind_eq_some_iff] at h
  obtain ⟨⟨m', o⟩, h3, h4⟩ := h
  have ho : o = none := by simp at h4; exact h4.2
  subst ho
  have hret : (remove s.tree k).2 = none := by
    cases hret : (remove s.tree k).2 with
    | none => rfl
    | some e => rw [hret] at h3; cases hn : s.len <;> simp [decr, hn] at h3
  rw [hret] at h3
  simp at h3 h4
  rw [← h4, ← h3]
  simp only [remove] at hret ⊢
  obtain ⟨l, y', w, r, h1, _⟩ := hp
  rw [h1] at hret hy ⊢
  simp only at hret ⊢
  split at hret
  · rename_i hk; rw [if_pos hk]; exact hy
  · cases l with
    | nil => simp at hret
    | node b ll lk lv lr => simp only at hret; split at hret <;> simp at hret

/-- The hypotheses hold for a three-key map: looking for the absent 5 brings 4 (its neighbour) up. -/
example : ∃ s s' : SplayMap Nat Nat, (impl Nat Nat).Reachable s ∧ s.tree ≠ .nil ∧
    step s (.remove 5) () = some (s', .pair none) ∧ rootKey s.tree = some 7 ∧ rootKey s'.tree = some 4 := by
  refine ⟨_, _, ⟨[(.insert 2 0, ()), (.insert 4 0, ()), (.insert 7 0, ())], _, rfl⟩, ?_, rfl, rfl, rfl⟩
  decide

example : ∃ s s' r, (impl Nat Nat).Reachable s ∧ SplayMap.tree s ≠ .nil ∧
    step s (.getMut 2 (· + 1)) () = some (s', r) ∧ (s.tree.get 2).isSome ∧ rootKey s.tree = some 7 := by
  refine ⟨_, _, _, ⟨[(.insert 2 0, ()), (.insert 4 0, ()), (.insert 7 0, ())], _, rfl⟩, ?_, rfl, rfl, rfl⟩
  decide

end Verif.Splay
