/- C59 for `min` and `max`: what C38 says of sequential runs holds for all interleavings of a call with the compaction
thread. -/
import Verif.Lsm.FineProps

namespace Verif.Lsm

open Verif Verif.Spec Store Conf

variable {K V : Type} [LinearOrder K] [DecidableEq V]

/-- C59, `min` and `max` with `LeveledStrategy`: however the steps of the two threads are interleaved, they return the
least (greatest) key that is live or was live after the first `n` calls, for some `n` beyond the last call that wrote the
memory out, as in `C38_exact_partial`.  Missing: the keys removed since then should not count. -/
theorem C59_leveled_minmax_partial (c : Cfg K V) (p : Leveled.Params) {y : Conf (Leveled.kind c p)}
    (h : Reach c Leveled.inputs y) {i : Nat} {op : KvOp K V} {r : KvRes K V} (hl : y.log[i]? = some (op, r))
    (hop : op = .min ∨ op = .max) :
    ∃ n ≤ i, (∀ (j : Nat) (o : KvOp K V), j < i → (y.log.map (·.1))[j]? = some o → o.Settles → j < n) ∧
      ∃ o, r = .key o ∧ (op = .min → IsLeastKey (fun k => (contents ((y.log.map (·.1)).take i) k).isSome = true ∨
          (contents ((y.log.map (·.1)).take n) k).isSome = true) o) ∧
        (op = .max → IsGreatestKey (fun k => (contents ((y.log.map (·.1)).take i) k).isSome = true ∨
          (contents ((y.log.map (·.1)).take n) k).isSome = true) o) := by
  obtain ⟨s, W', n', h', ha⟩ := log_reach (L := Leveled.laws c p) (fun h => Leveled.inputs_sub h) (fun _ => trivial) h hl
  have hi : i < (y.log.map (·.1)).length := by
    rw [List.length_map]; exact (List.getElem?_eq_some_iff.1 hl).1
  generalize y.log.map (·.1) = all at *
  have hlen : (all.take i).length = i := by rw [List.length_take]; omega
  have happ : ∀ m : K → Option V, op.apply m = m := by rcases hop with rfl | rfl <;> exact fun m => rfl
  have hc : contents (all.take i ++ [op]) = contents (all.take i) := by rw [contents_snoc, happ]
  have ht : contents ((all.take i ++ [op]).take n') = contents (all.take (min n' i)) := by
    by_cases hn : n' ≤ i
    · rw [List.take_append_of_le_length (by omega), min_eq_left hn, List.take_take, min_eq_left hn]
    · rw [List.take_of_length_le (by simp; omega), hc, min_eq_right (by omega)]
  refine ⟨min n' i, min_le_right _ _, ?_, ?_⟩
  · intro j o hj hj2 ho
    have := h'.settled j o (by
      rw [List.getElem?_append_left (by omega), List.getElem?_take, if_pos hj]; exact hj2) ho
    exact lt_min this hj
  · have hk := minmax_keys h'
    rw [hc, ht] at hk
    obtain ⟨m1, m2⟩ := answer_minmax h'.inv (r := r)
    rcases hop with rfl | rfl
    · obtain ⟨o, ho, hl⟩ := m1 ha
      exact ⟨o, ho, fun _ => isLeast_congr hk hl, by simp⟩
    · obtain ⟨o, ho, hl⟩ := m2 ha
      exact ⟨o, ho, by simp, fun _ => isGreatest_congr hk hl⟩

/-- C59, `min` and `max` with `SizeTieredStrategy`: however the steps of the two threads are interleaved, no live key is
less than `min` or greater than `max`, and both were once inserted, as in `C38_bound_partial`.  Missing: they need not be
live. -/
theorem C59_sizeTiered_minmax_partial (c : Cfg K V) (p : SizeTiered.Params) {y : Conf (SizeTiered.kind c p)}
    (h : Reach c SizeTiered.inputs y) {i : Nat} {op : KvOp K V} {r : KvRes K V} (hl : y.log[i]? = some (op, r))
    (hop : op = .min ∨ op = .max) :
    ∃ o, r = .key o ∧ (∀ k v, contents ((y.log.map (·.1)).take i) k = some v → ∃ a, o = some a ∧
        (op = .min → a ≤ k) ∧ (op = .max → k ≤ a)) ∧
      ∀ a, o = some a → ∃ v, .insert a v ∈ (y.log.map (·.1)).take i := by
  obtain ⟨s, W, n, h1, h2⟩ := log_reach (L := SizeTiered.laws c p) (fun h => SizeTiered.inputs_sub h) (fun _ => trivial) h hl
  have h3 := h1.look
  rw [contents_snoc] at h3
  have happ : ∀ m : K → Option V, op.apply m = m := by rcases hop with rfl | rfl <;> exact fun m => rfl
  rw [happ] at h3
  rcases hop with rfl | rfl
  · obtain ⟨o, e, a1, a2⟩ := (minmax_weak h1.inv).1 h2
    refine ⟨o, e, fun k v hv => ?_, fun a ha => ?_⟩
    · obtain ⟨m, q1, q2⟩ := a1 k v ((congrFun h3 k).trans hv)
      exact ⟨m, q1, fun _ => q2, by simp⟩
    · obtain ⟨v, hv⟩ := a2 a ha
      exact ⟨v, by simpa [ghost] using hv⟩
  · obtain ⟨o, e, a1, a2⟩ := (minmax_weak h1.inv).2 h2
    refine ⟨o, e, fun k v hv => ?_, fun a ha => ?_⟩
    · obtain ⟨m, q1, q2⟩ := a1 k v ((congrFun h3 k).trans hv)
      exact ⟨m, q1, by simp, fun _ => q2⟩
    · obtain ⟨v, hv⟩ := a2 a ha
      exact ⟨v, by simpa [ghost] using hv⟩

/-- Calls as in `C59_leveled_minmax_partial`, after a compaction that ran during other calls. -/
example : ∃ y : Conf (Leveled.kind Example.small Example.leveled), Reach Example.small Leveled.inputs y ∧
    (decide (y.log[10]? = some (.min, .key (some 1))) && decide (y.log[11]? = some (.max, .key (some 5)))) = true :=
  Example.driven (Example.six ++ Example.mixed ++ Example.rest 11 ++ Example.whole .min 3 ++ Example.whole .max 3)
    (by decide +kernel)

/-- Calls as in `C59_sizeTiered_minmax_partial`. -/
example : ∃ y : Conf (SizeTiered.kind Example.small Example.tiered), Reach Example.small SizeTiered.inputs y ∧
    (decide (y.log[13]? = some (.min, .key (some 1))) && decide (y.log[14]? = some (.max, .key (some 5)))) = true :=
  Example.driven (Example.nine ++ Example.mixed ++ Example.rest 12 ++ Example.whole .min 3 ++ Example.whole .max 3)
    (by decide +kernel)

end Verif.Lsm
