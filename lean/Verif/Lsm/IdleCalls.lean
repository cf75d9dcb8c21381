/- After `flush` no compaction runs: C93 and C85 for histories of calls, without hypotheses on the state. -/
import Verif.Lsm.LookupBound
import Verif.Lsm.RemovalsTiered

namespace Verif.Lsm

variable {K V : Type}

open Verif Verif.Spec Store

variable {kd : Kind K V}

/-- No iterator is alive, and without a join handle there is no thread and no result of one. -/
structure Tame (s : Store kd) : Prop where
  locks : s.locks = 0
  idle : s.handle = false → s.job = none ∧ s.busy = false ∧ s.next = none

/-- Nothing runs and nothing waits to be taken over. -/
structure AtRest (s : Store kd) : Prop where
  locks : s.locks = 0
  job : s.job = none
  busy : s.busy = false
  next : s.next = none
  handle : s.handle = false

theorem AtRest.tame {s : Store kd} (h : AtRest s) : Tame s := ⟨h.locks, fun _ => ⟨h.job, h.busy, h.next⟩⟩

theorem removeDirs_fields : ∀ {is : List Nat} {s s' : Store kd}, removeDirs is s = some s' →
    s'.job = s.job ∧ s'.next = s.next ∧ s'.busy = s.busy ∧ s'.handle = s.handle ∧ s'.locks = s.locks
  | [], s, s', h => by obtain rfl := Option.some.inj h; simp
  | i :: is, s, s', h => by
    unfold removeDirs at h
    split at h
    · have := removeDirs_fields h
      simpa [put] using this
    · simp at h

theorem tryReplace_fields {s s' : Store kd} (h : s.tryReplace = some s') :
    s'.job = s.job ∧ s'.next = none ∧ s'.busy = s.busy ∧ s'.handle = s.handle ∧ s'.locks = s.locks := by
  unfold tryReplace at h
  split at h
  · next hn => obtain rfl := Option.some.inj h; simp [hn]
  · simp only [Option.map_eq_some_iff] at h
    obtain ⟨a, h, rfl⟩ := h
    exact removeDirs_fields h

theorem tame_tryReplace {s s' : Store kd} (hc : Tame s) (h : s.tryReplace = some s') : Tame s' := by
  obtain ⟨h1, h2, h3, h4, h5⟩ := tryReplace_fields h
  refine ⟨h5.trans hc.locks, fun hh => ?_⟩
  obtain ⟨i1, i2, -⟩ := hc.idle (h4.symm.trans hh)
  exact ⟨h1.trans i1, h3.trans i2, h2⟩

theorem atRest_tryReplace {s s' : Store kd} (hc : AtRest s) (h : s.tryReplace = some s') : AtRest s' := by
  obtain ⟨h1, h2, h3, h4, h5⟩ := tryReplace_fields h
  exact ⟨h5.trans hc.locks, h1.trans hc.job, h3.trans hc.busy, h2, h4.trans hc.handle⟩

theorem tame_deliver {s : Store kd} (hc : Tame s) : Tame s.deliver := by
  unfold deliver
  split
  · next hj => exact ⟨hc.locks, fun hh => ⟨hj, rfl, (hc.idle hh).2.2⟩⟩
  · next j hj =>
    have hh : s.handle = true := by
      by_contra hn
      have := (hc.idle (by simpa using hn)).1
      rw [hj] at this
      simp at this
    split
    · exact hc
    · exact ⟨hc.locks, fun h => absurd (hh.symm.trans h) (by simp)⟩

theorem tame_work : ∀ (n : Nat) {s : Store kd}, Tame s → Tame (work n s)
  | 0, _, h => h
  | n + 1, _, h => tame_work n (tame_deliver h)

theorem join_fields {s s' : Store kd} (h : s.join = some s') : s'.job = none ∧ s'.busy = false ∧ s'.locks = s.locks := by
  have hl : ∀ a : Store kd, a.deliver.locks = a.locks := by
    intro a
    unfold deliver
    split
    · rfl
    · split <;> rfl
  have h : (if s.deliver.deliver.job.isSome then none else some s.deliver.deliver) = some s' := h
  by_cases hn : s.deliver.deliver.job.isSome = true
  · rw [if_pos hn] at h
    simp at h
  · rw [if_neg hn] at h
    obtain rfl := Option.some.inj h
    have hj : s.deliver.deliver.job = none := by simpa using hn
    refine ⟨hj, ?_, (hl _).trans (hl _)⟩
    cases e : s.deliver.job with
    | none => rw [deliver_none e]
    | some j =>
      exfalso
      -- the first event did not end the job, so the second does not either
      have h1 : s.deliver = s := by
        cases e0 : s.job with
        | none => rw [deliver_none e0] at e; simp [e0] at e
        | some j0 =>
          unfold deliver at e ⊢
          rw [e0] at e ⊢
          simp only at e ⊢
          split
          · rfl
          · next h2 => rw [h2] at e; simp [put] at e
      rw [h1] at e
      rw [h1, h1, e] at hj
      simp at hj

theorem atRest_settle {s s' : Store kd} (hc : Tame s) (h : s.settle = some s') : AtRest s' := by
  unfold settle at h
  split at h
  · split at h
    · simp at h
    · next a ha =>
      obtain ⟨j1, j2, j3⟩ := join_fields ha
      obtain ⟨h1, h2, h3, h4, h5⟩ := tryReplace_fields h
      exact ⟨h5.trans (j3.trans hc.locks), h1.trans j1, h3.trans j2, h2, h4⟩
  · next hh =>
    obtain rfl := Option.some.inj h
    have hh : s.handle = false := by simpa using hh
    obtain ⟨i1, i2, i3⟩ := hc.idle hh
    exact ⟨hc.locks, i1, i2, i3, hh⟩

theorem tame_start {s s' : Store kd} (hc : Tame s) (h : s.start = some s') : Tame s' := by
  unfold start at h
  split at h
  · obtain rfl := Option.some.inj h; exact hc
  · split at h
    · simp at h
    · next a ha =>
      have ca := tame_tryReplace hc ha
      split at h
      · obtain rfl := Option.some.inj h; exact ca
      · obtain rfl := Option.some.inj h
        exact ⟨ca.locks, fun hh => by simp at hh⟩

variable [LinearOrder K]

theorem tame_tryCompact {c : Cfg K V} {s s' : Store kd} (hc : Tame s) (h : s.tryCompact c = some s') : Tame s' := by
  unfold tryCompact at h
  split at h
  · simp at h
  · exact tame_start (s := s.pushTable _) ⟨hc.locks, hc.idle⟩ h

theorem atRest_flush {c : Cfg K V} {s s' : Store kd} (hc : Tame s) (h : s.flush c = some s') : AtRest s' := by
  unfold flush at h
  split at h
  · exact atRest_settle hc h
  · split at h
    · simp at h
    · next ha => exact atRest_settle (tame_tryCompact hc ha) h

theorem tame_write {c : Cfg K V} {s s' : Store kd} {k : K} {data : Option V} (hc : Tame s)
    (h : s.write c k data = some s') : Tame s' := by
  unfold write at h
  simp only at h
  split at h
  · simp at h
  · split at h
    · exact tame_tryCompact (s := { s.tick.1 with usage := _, mem := _ }) ⟨hc.locks, hc.idle⟩ h
    · obtain rfl := Option.some.inj h
      exact ⟨hc.locks, hc.idle⟩

omit [LinearOrder K] in
theorem tame_clear {s s' : Store kd} (hc : Tame s) (h : s.clear = some s') : Tame s' := by
  unfold clear at h
  simp only at h
  split at h
  · simp at h
  · next a ha =>
    simp only [Option.map_eq_some_iff] at h
    obtain ⟨b, hb, rfl⟩ := h
    obtain ⟨h1, h2, h3, h4, h5⟩ := removeDirs_fields hb
    have hq : a.job = none ∧ a.busy = false ∧ a.locks = 0 := by
      split at ha
      · obtain ⟨j1, j2, j3⟩ := join_fields ha
        exact ⟨j1, j2, j3.trans hc.locks⟩
      · next hh =>
        obtain rfl := Option.some.inj ha
        obtain ⟨i1, i2, -⟩ := hc.idle (by simpa using hh)
        exact ⟨i1, i2, hc.locks⟩
    exact ⟨h5.trans hq.2.2, fun _ => ⟨h1.trans hq.1, h3.trans hq.2.1, h2⟩⟩

variable [DecidableEq V]

theorem tame_step {c : Cfg K V} {s s' : Store kd} {op : KvOp K V} {d : Nat} {r : KvRes K V} (hc : Tame s)
    (hop : op ≠ .hold) (h : s.step c op d = some (s', r)) : Tame s' := by
  have hw := tame_work d hc
  unfold step at h
  generalize work d s = w at h hw
  cases op with
  | hold => exact absurd rfl hop
  | insert k v | remove k =>
    simp only [Option.map_eq_some_iff, Prod.mk.injEq] at h
    obtain ⟨a, h, rfl, -⟩ := h
    exact tame_write hw h
  | get k | containsKey k =>
    simp only at h
    split at h
    · simp only [Option.some.injEq, Prod.mk.injEq] at h
      rw [← h.1]; exact hw
    · simp only [Option.map_eq_some_iff, Prod.mk.injEq] at h
      obtain ⟨a, h, rfl, -⟩ := h
      exact tame_tryReplace hw h
  | lenHint =>
    simp only [Option.bind_eq_some_iff, Option.map_eq_some_iff, Prod.mk.injEq] at h
    obtain ⟨a, h, -, -, rfl, -⟩ := h
    exact tame_tryReplace hw h
  | len | isEmpty | iter =>
    simp only [Option.bind_eq_some_iff, Option.map_eq_some_iff, Prod.mk.injEq] at h
    obtain ⟨a, h, b, h2, rfl, -⟩ := h
    exact tame_tryReplace (atRest_flush hw h).tame h2
  | min | max =>
    simp only [Option.map_eq_some_iff, Prod.mk.injEq] at h
    obtain ⟨a, h, rfl, -⟩ := h
    exact tame_tryReplace hw h
  | release =>
    simp only [Option.some.injEq, Prod.mk.injEq] at h
    rw [← h.1]
    exact ⟨by show w.locks - 1 = 0; rw [hw.locks], hw.idle⟩
  | flush =>
    simp only [Option.map_eq_some_iff, Prod.mk.injEq] at h
    obtain ⟨a, h, rfl, -⟩ := h
    exact (atRest_flush hw h).tame
  | clear =>
    simp only [Option.map_eq_some_iff, Prod.mk.injEq] at h
    obtain ⟨a, h, rfl, -⟩ := h
    exact tame_clear hw h
  | reopen =>
    simp only [Option.bind_eq_some_iff, Option.map_eq_some_iff, Prod.mk.injEq] at h
    obtain ⟨a, -, b, h, rfl, -⟩ := h
    unfold openDir at h
    split at h
    · simp at h
    · split at h
      · obtain rfl := Option.some.inj h
        exact ⟨rfl, fun _ => ⟨rfl, rfl, rfl⟩⟩
      · simp at h

theorem tame_run {c : Cfg K V} : ∀ {ops : List (KvOp K V × Nat)} {s s' : Store kd} {rs : List (KvRes K V)}, Tame s →
    KvOp.hold ∉ ops.map (·.1) → run c s ops = some (s', rs) → Tame s'
  | [], s, s', rs, hc, _, h => by obtain ⟨rfl, rfl⟩ := Prod.mk.inj (Option.some.inj h); exact hc
  | (o, e) :: ops, s, s', rs, hc, hn, h => by
    simp only [List.map_cons, List.mem_cons, not_or] at hn
    simp only [run] at h
    cases hs : s.step c o e with
    | none => rw [hs] at h; simp at h
    | some q =>
      rw [hs] at h
      simp only [Option.map_eq_some_iff, Prod.mk.injEq, Prod.exists] at h
      obtain ⟨a, b, h, rfl, -⟩ := h
      exact tame_run (tame_step hc (Ne.symm hn.1) hs) hn.2 h

/-- After a history without a kept iterator that ends with `flush` nothing runs. -/
theorem atRest_run {c : Cfg K V} {ops : List (KvOp K V × Nat)} (hn : KvOp.hold ∉ ops.map (·.1)) {s s0 : Store kd}
    {rs : List (KvRes K V)} {r : KvRes K V} {d : Nat} (h : run c (new kd) ops = some (s, rs))
    (h0 : s.step c .flush d = some (s0, r)) : AtRest s0 := by
  have hc : Tame s := tame_run ⟨rfl, fun _ => ⟨rfl, rfl, rfl⟩⟩ hn h
  simp only [step, Option.map_eq_some_iff, Prod.mk.injEq] at h0
  obtain ⟨a, h0, rfl, -⟩ := h0
  exact atRest_flush (tame_work d hc) h0

/-- A history of calls in parts. -/
theorem run_split {c : Cfg K V} : ∀ {ops : List (KvOp K V × Nat)} {s s2 : Store kd} {rs : List (KvRes K V)}
    {op : KvOp K V} {d : Nat}, run c s (ops ++ [(op, d)]) = some (s2, rs) →
    ∃ s1 rs1 r, run c s ops = some (s1, rs1) ∧ s1.step c op d = some (s2, r)
  | [], s, s2, rs, op, d, h => by
    simp only [List.nil_append, run] at h
    cases hs : s.step c op d with
    | none => rw [hs] at h; simp at h
    | some q =>
      rw [hs] at h
      simp only [Option.map_some, Option.some.injEq, Prod.mk.injEq] at h
      exact ⟨s, [], q.2, rfl, by rw [hs, ← h.1]⟩
  | (o, e) :: ops, s, s2, rs, op, d, h => by
    simp only [List.cons_append, run] at h
    cases hs : s.step c o e with
    | none => rw [hs] at h; simp at h
    | some q =>
      rw [hs] at h
      simp only [Option.map_eq_some_iff, Prod.mk.injEq, Prod.exists] at h
      obtain ⟨a, b, h, rfl, -⟩ := h
      obtain ⟨s1, rs1, r, h1, h2⟩ := run_split h
      exact ⟨s1, q.2 :: rs1, r, by simp [run, hs, h1], h2⟩

/-- C93, leveled, in terms of calls: in every history without a kept iterator that ends with `flush`, an insertion and
`flush`, whatever the compaction thread does in between, at most `max_sstable_count` tables are left outside the levels. -/
theorem C93_leveled_calls_partial (c : Cfg K V) (p : Leveled.Params) (ops : List (KvOp K V × Nat)) (k : K) (v : V)
    (d0 d1 d2 : Nat) (hn : KvOp.hold ∉ ops.map (·.1)) {s : Store (Leveled.kind c p)} {rs : List (KvRes K V)}
    (hr : run c (new (Leveled.kind c p)) (ops ++ [(.flush, d0)] ++ [(.insert k v, d1)] ++ [(.flush, d2)]) = some (s, rs)) :
    s.cur.l0.length ≤ p.maxCount := by
  obtain ⟨s2, rs2, r2, hr, h2⟩ := run_split hr
  obtain ⟨s1, rs1, r1, hr, h1⟩ := run_split hr
  obtain ⟨s0, rs0, r0, hr0, h0⟩ := run_split hr
  have hq := atRest_run hn hr0 h0
  exact C93_leveled_partial c p _ hr hq.locks hq.job hq.busy h1 h2

/-- C85 in the same histories: a lookup asks at most `max_sstable_count + 2 + log(n)` tables. -/
theorem C85_calls (c : Cfg K V) (p : Leveled.Params) (hi : 1 ≤ p.initCount) (hg : 2 ≤ p.growth) (ks : List K)
    (ops : List (KvOp K V × Nat)) (k : K) (v : V) (hk : k ∈ ks) (d0 d1 d2 : Nat) (hn : KvOp.hold ∉ ops.map (·.1))
    (hks : ∀ k, ((∃ v, KvOp.insert k v ∈ ops.map (·.1)) ∨ KvOp.remove k ∈ ops.map (·.1)) → k ∈ ks)
    {s : Store (Leveled.kind c p)} {rs : List (KvRes K V)}
    (hr : run c (new (Leveled.kind c p)) (ops ++ [(.flush, d0)] ++ [(.insert k v, d1)] ++ [(.flush, d2)]) = some (s, rs))
    (x : K) : (Leveled.ask s.cur x).1.length ≤ p.maxCount + Nat.log p.growth ks.length + 2 := by
  obtain ⟨s2, rs2, r2, hr, h2⟩ := run_split hr
  obtain ⟨s1, rs1, r1, hr, h1⟩ := run_split hr
  obtain ⟨s0, rs0, r0, hr0, h0⟩ := run_split hr
  have hq := atRest_run hn hr0 h0
  refine C85_flushed c p hi hg ks _ v hk ?_ hr hq.locks hq.job hq.busy h1 h2 x
  intro y hy
  refine hks y ?_
  simpa using hy

/-- C93, size-tiered, in terms of calls: in every history without a kept iterator, let `m` be the number of tables after
`flush`.  After an insertion and another `flush` there is no bucket to merge, or at least `max_sstable_count` tables fewer
than the `m + 1`. -/
theorem C93_sizeTiered_calls_partial (c : Cfg K V) (p : SizeTiered.Params) (ops : List (KvOp K V × Nat)) (k : K) (v : V)
    (d0 d1 d2 : Nat) (hn : KvOp.hold ∉ ops.map (·.1)) {s0 s : Store (SizeTiered.kind c p)} {rs0 rs : List (KvRes K V)}
    (hr0 : run c (new (SizeTiered.kind c p)) (ops ++ [(.flush, d0)]) = some (s0, rs0))
    (hr : run c s0 [(.insert k v, d1), (.flush, d2)] = some (s, rs)) :
    SizeTiered.plan p s.cur = none ∨ s.cur.length + p.maxCount ≤ s0.cur.length + 1 := by
  obtain ⟨s1, rs1, r1, ha, h2⟩ := run_split (ops := [(.insert k v, d1)]) hr
  obtain ⟨s', rs', r', hb, h1⟩ := run_split (ops := []) ha
  obtain ⟨rfl, rfl⟩ := Prod.mk.inj (Option.some.inj hb)
  obtain ⟨t, rst, rt, hrt, h0⟩ := run_split hr0
  have hq := atRest_run hn hrt h0
  exact C93_sizeTiered_partial c p _ hr0 hq.locks hq.job hq.busy hq.next h1 h2

/-- The hypotheses are met: ten removals with `flush`, then these calls.  The tables are merged: none of eleven is left
outside the levels, and one with the other strategy. -/
example : (run Example.small (new (Leveled.kind Example.small ⟨2, 20, 1, 2⟩))
      (removals [1, 2, 3, 4, 5, 6, 7, 8, 9, 9] ++ [(.flush, 0)] ++ [(.insert 5 5, 1)] ++ [(.flush, 0)])).map
        (fun a => a.1.cur.l0.length) = some 0 ∧
    (run Example.small (new (SizeTiered.kind Example.small SizeTiered.usual))
      (removals [1, 2, 3, 4, 5, 6, 7, 8, 9, 9] ++ [(.flush, 0)])).bind (fun a =>
        (run Example.small a.1 [(.insert 5 5, 1), (.flush, 0)]).map fun b => (a.1.cur.length, b.1.cur.length)) =
      some (10, 1) ∧
    KvOp.hold ∉ (removals (V := Nat) [1, 2, 3, 4, 5, 6, 7, 8, 9, 9]).map (·.1) := by
  refine ⟨?_, ?_, ?_⟩ <;> decide +kernel

end Verif.Lsm
