/- C93 for size-tiered compaction after any write. -/
import Verif.Lsm.Removals

namespace Verif.Lsm

variable {K V : Type} [LinearOrder K] [DecidableEq V]

open Verif Verif.Spec Store

/-- C93 for size-tiered compaction, after an insertion or a removal and `flush`: no bucket is left to merge, or merging
made the tables fewer, or there is a table whose newest entry is one of a key that is not in the map. -/
theorem C93_sizeTiered_removed_partial (c : Cfg K V) (p : SizeTiered.Params) (ops : List (KvOp K V × Nat)) {op : KvOp K V}
    (hop : (∃ k v, op = .insert k v) ∨ ∃ k, op = .remove k)
    {s s1 s2 : Store (SizeTiered.kind c p)} {rs : List (KvRes K V)} {r1 r2 : KvRes K V} {d1 d2 : Nat}
    (hr : run c (new (SizeTiered.kind c p)) ops = some (s, rs)) (hl : s.locks = 0) (hj : s.job = none)
    (hb : s.busy = false) (hx : s.next = none)
    (h1 : s.step c op d1 = some (s1, r1)) (h2 : s1.step c .flush d2 = some (s2, r2)) :
    SizeTiered.plan p s2.cur = none ∨ s2.cur.length + p.maxCount ≤ s.cur.length + 1 ∨
      ∃ t ∈ s2.cur, ∃ e ∈ t.entries, (∀ e' ∈ t.entries, e'.2.time ≤ e.2.time) ∧
        contents (ops.map (·.1) ++ [op]) e.1 = none := by
  have hL : ∀ l, (SizeTiered.laws c p).good l := fun _ => trivial
  obtain ⟨W, hi, hh, hcon⟩ := inv_reach (L := SizeTiered.laws c p) (goodRun_true hL ops (new _)) hr
  obtain ⟨k, data, hop'⟩ : ∃ k data, (∃ v, op = .insert k v ∧ data = some v) ∨ (op = .remove k ∧ data = none) := by
    rcases hop with ⟨k, v, rfl⟩ | ⟨k, rfl⟩
    · exact ⟨k, some v, .inl ⟨v, rfl, rfl⟩⟩
    · exact ⟨k, none, .inr ⟨rfl, rfl⟩⟩
  obtain ⟨g, b, a, t, ia, hbc, hbn, hba, hW, hc, hlook, ⟨h3, h4⟩ | ⟨j, f, C, new, h3, h4, h5⟩⟩ :=
    write_flush hL hop' hi hh hb hj hl h1 h2
  · rw [h4]
    exact .inl h3
  · refine .inr ?_
    have hcon' : look [] g.W = contents (ops.map (·.1) ++ [op]) := by
      have e : contents (ops.map (·.1) ++ [op]) = op.apply (contents (ops.map (·.1))) := contents_snoc _ _
      rw [hlook, e, ← hcon]
      rcases hop' with ⟨v, rfl, rfl⟩ | ⟨rfl, rfl⟩ <;> rfl
    have hab : a.cur = s.cur ++ [t] := by
      unfold tryReplace at hba
      rw [hbn, hx] at hba
      obtain rfl := Option.some.inj hba
      exact hbc
    have hok : ∀ t ∈ a.cur, t.Ok := fun t ht => (SizeTiered.laws c p).inv_ok ia.inv t ht
    obtain ⟨C', new', q1, old, rest, q⟩ := SizeTiered.compact_spec (c := c) (f := f) hok h3
    obtain ⟨rfl, rfl⟩ := Prod.mk.inj (Option.some.inj (q1.symm.trans h4))
    have hCok : ∀ u ∈ C', u.Ok := by
      intro u hu
      rw [q.eq] at hu
      rcases List.mem_append.1 hu with hu | hu
      · exact hok u (q.perm.mem_iff.2 (List.mem_append_right _ hu))
      · exact q.ok u hu
    by_cases hk : ∃ t ∈ a.cur, optLt (endTime C') (some t.times.2) = true
    · right
      obtain ⟨t, ht, hlt⟩ := hk
      rw [h5]
      refine ⟨t, List.mem_append_right _ (List.mem_filter.2 ⟨ht, hlt⟩), ?_⟩
      rw [optLt_endTime] at hlt
      obtain ⟨e, he, hte⟩ := (hok t ht).timeHiMem
      refine ⟨e, he, fun e' he' => by have := (hok t ht).timeHi _ he'; omega, ?_⟩
      rw [← hcon']
      obtain ⟨w, hw1, hw2⟩ := ia.sees.old e.1 e.2 ⟨t, ht, he⟩
      show (g.W e.1).bind (·.data) = none
      rw [hw1]
      by_contra hn
      have hd : w.data.isSome := by
        rw [Option.isSome_iff_ne_none]
        exact hn
      obtain ⟨u, hu, hm⟩ := ia.sees.live e.1 w hw1 hd
      have hnew : ∀ v', (∃ y ∈ a.cur, (e.1, v') ∈ y.entries) → v'.time < w.time ∨ v' = w := fun v' hv' => by
        obtain ⟨y, hy, hym⟩ := hv'
        obtain ⟨w', h6, h7⟩ := ia.sees.old e.1 v' ⟨y, hy, hym⟩
        rw [hw1] at h6
        obtain rfl := Option.some.inj h6
        exact h7
      have hin : ∃ u ∈ C', (e.1, w) ∈ u.entries := by
        rw [q.eq]
        rcases List.mem_append.1 (q.perm.mem_iff.1 hu) with hu | hu
        · obtain ⟨x, hx, hxm⟩ := q.keep e.1 w ⟨u, hu, hm⟩ (fun v' hv' => hnew v' (by
            obtain ⟨y, hy, hym⟩ := hv'
            exact ⟨y, q.perm.mem_iff.2 (List.mem_append_left _ hy), hym⟩)) (.inl hd)
          exact ⟨x, List.mem_append_right _ hx, hxm⟩
        · exact ⟨u, List.mem_append_left _ hu, hm⟩
      obtain ⟨x, hx, hxm⟩ := hin
      have h6 := hlt x hx
      have h7 := (hCok x hx).timeHi _ hxm
      simp only at h7
      rcases hw2 with hw2 | hw2
      · omega
      · rw [hw2] at hte; omega
    · left
      have h6 : SizeTiered.replace a.cur C' = C' := by
        unfold SizeTiered.replace
        refine (congrArg (C' ++ ·) (List.filter_eq_nil_iff.2 ?_)).trans (List.append_nil _)
        exact fun t ht hn => hk ⟨t, ht, hn⟩
      rw [h5]
      show (SizeTiered.replace a.cur C').length + _ ≤ _
      rw [h6]
      obtain ⟨sorted, x, y⟩ := j
      obtain ⟨r1, r2, r3, r4, -⟩ := SizeTiered.C46_range p _ sorted x y h3
      have h7 : C'.length ≤ (sorted.take x ++ sorted.drop y).length + 1 := by
        have h4 : SizeTiered.compact c (sorted, (x, y)) f = some (C', new') := h4
        unfold SizeTiered.compact at h4
        simp only at h4
        split at h4
        · rw [← (Prod.mk.inj (Option.some.inj h4)).1]
          omega
        · split at h4
          · simp at h4
          · rw [← (Prod.mk.inj (Option.some.inj h4)).1]
            simp only [List.length_append, List.length_singleton, le_refl]
      have h8 := r4.length_eq
      rw [hab] at h8 r2
      simp only [List.length_append, List.length_take, List.length_drop, List.length_singleton] at h7 h8 r2
      omega

/-- The hypotheses are met, and the third case is needed: after ten removals another one leaves eleven tables, with a
bucket to merge. -/
example : (run Example.small (new (SizeTiered.kind Example.small SizeTiered.usual)) (removals [1, 2, 3, 4, 5, 6, 7, 8, 9, 9])).any
    (fun a => a.1.locks == 0 && a.1.job.isNone && !a.1.busy && a.1.next.isNone && a.1.cur.length == 10 &&
      (a.1.step Example.small (.remove 5) 0).any fun b => (b.1.step Example.small .flush 0).any fun e =>
        e.1.cur.length == 11 && (SizeTiered.plan SizeTiered.usual e.1.cur).isSome) = true := by
  decide +kernel

end Verif.Lsm
