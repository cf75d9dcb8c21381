/- C92 over any number of insertions with `flush`. -/
import Verif.Lsm.IdleCalls

namespace Verif.Lsm

variable {K V : Type} [LinearOrder K] [DecidableEq V]

open Verif Verif.Spec Store

/-- Insertions, each followed by `flush`; the numbers are the events of the compaction thread before the calls. -/
def flushed (l : List ((K × V) × Nat × Nat)) : List (KvOp K V × Nat) :=
  l.flatMap fun x => [(.insert x.1.1 x.1.2, x.2.1), (.flush, x.2.2)]

omit [LinearOrder K] [DecidableEq V] in
theorem flushed_snoc (l : List ((K × V) × Nat × Nat)) (x : (K × V) × Nat × Nat) :
    flushed (l ++ [x]) = flushed l ++ [(.insert x.1.1 x.1.2, x.2.1)] ++ [(.flush, x.2.2)] := by
  simp [flushed]

omit [LinearOrder K] [DecidableEq V] in
theorem ends_flush (ops : List (KvOp K V × Nat)) (hn : KvOp.hold ∉ ops.map (·.1)) (d0 : Nat)
    (l : List ((K × V) × Nat × Nat)) : ∃ A d, ops ++ [(.flush, d0)] ++ flushed l = A ++ [(.flush, d)] ∧
      KvOp.hold ∉ A.map (·.1) := by
  have hf : ∀ l : List ((K × V) × Nat × Nat), KvOp.hold ∉ (flushed l).map (·.1) := by
    intro l
    simp [flushed]
  rcases List.eq_nil_or_concat l with rfl | ⟨l, x, rfl⟩
  · exact ⟨ops, d0, by simp [flushed], hn⟩
  · refine ⟨ops ++ [(.flush, d0)] ++ flushed l ++ [(.insert x.1.1 x.1.2, x.2.1)], x.2.2, ?_, ?_⟩
    · rw [List.concat_eq_append, flushed_snoc]; simp
    · have := hf l
      simp only [List.map_append, List.mem_append, not_or]
      exact ⟨⟨⟨hn, by simp⟩, this⟩, by simp⟩

variable {mc ms : Nat} {low high : ℚ}

/-- C92 over time: take any history without a kept iterator that ends with `flush` and leaves `m` tables, and then any
number of insertions with `flush`, whatever the compaction thread does in between.  As long as no table has more than
`ms * q ^ j` bytes after one of these calls of `flush`, there are never more than `m` and `mc * (j + 1)` tables after one. -/
theorem C92_rounds {fl : ℚ → ℚ} {ε : ℚ} (hf : SizeTiered.Rounds ε fl) (hl0 : 0 ≤ low) (hmc : 1 ≤ mc) (c : Cfg K V)
    (q : ℚ) (hq : 1 < q) (hqh : q * SizeTiered.slack ε ≤ high) (hql : q * low * SizeTiered.slack ε ≤ 1) (j : Nat)
    (ops : List (KvOp K V × Nat)) (hn : KvOp.hold ∉ ops.map (·.1)) (d0 : Nat)
    {s0 : Store (SizeTiered.kind c (SizeTiered.params fl mc ms low high))} {rs0 : List (KvRes K V)}
    (h0 : run c (new _) (ops ++ [(.flush, d0)]) = some (s0, rs0)) (l : List ((K × V) × Nat × Nat))
    (hts : ∀ l', l' <+: l → ∀ (s' : Store (SizeTiered.kind c (SizeTiered.params fl mc ms low high))) rs',
      run c (new _) (ops ++ [(.flush, d0)] ++ flushed l') = some (s', rs') → ∀ t ∈ s'.cur, (t.size : ℚ) ≤ ms * q ^ j)
    {s : Store (SizeTiered.kind c (SizeTiered.params fl mc ms low high))} {rs : List (KvRes K V)}
    (h : run c (new _) (ops ++ [(.flush, d0)] ++ flushed l) = some (s, rs)) :
    s.cur.length ≤ max s0.cur.length (mc * (j + 1)) := by
  induction l using List.reverseRecOn generalizing s rs with
  | nil =>
    have e : ops ++ [(KvOp.flush, d0)] ++ flushed [] = ops ++ [(.flush, d0)] := by simp [flushed]
    rw [e, h0] at h
    obtain ⟨rfl, rfl⟩ := Prod.mk.inj (Option.some.inj h)
    exact le_max_left _ _
  | append_singleton l x ih =>
    have hs := hts _ (List.prefix_refl _) s rs h
    rw [flushed_snoc, ← List.append_assoc, ← List.append_assoc] at h
    obtain ⟨s2, rs2, r2, h, e2⟩ := run_split h
    obtain ⟨s1, rs1, r1, h, e1⟩ := run_split h
    have hi := ih (fun l' hl' => hts l' (hl'.trans (List.prefix_append _ _))) h
    obtain ⟨A, d, hA, hAn⟩ := ends_flush ops hn d0 l
    have h' := h
    rw [hA] at h'
    obtain ⟨a, ra, r, ha, ea⟩ := run_split h'
    have hr := atRest_run hAn ha ea
    rcases C93_sizeTiered_partial c _ _ h hr.locks hr.job hr.busy hr.next e1 e2 with hp | hp
    · exact (SizeTiered.C92_count hf hl0 q hq hqh hql _ j hs hp).trans (le_max_right _ _)
    · have hp : s.cur.length + mc ≤ s1.cur.length + 1 := hp
      omega

/-- The hypotheses are met with `j = 0`: during ten insertions the tables stay small, and their number, which starts at
one, goes up to four and down again. -/
example : (List.range 11).map (fun n => (run Example.small (new (SizeTiered.kind Example.small SizeTiered.usual))
      ([(.insert 0 0, 0)] ++ [(.flush, 0)] ++ flushed ((List.range n).map fun i => ((i, i), 0, 1)))).map
        fun a => (a.1.cur.length, a.1.cur.all fun t => decide (t.size ≤ 50000))) =
    [1, 2, 3, 4, 1, 2, 3, 4, 1, 2, 3].map (fun n => some (n, true)) := by
  decide +kernel

end Verif.Lsm
