/-
The properties of the LSM map: C35-C41 and C44.  The specification is Verif/Spec/Kv.lean.

A history is a list of calls, each with the number of events of the compaction thread before it; `run` is `none` if a
call does not return (or fails).
-/
import Verif.Lsm.Crash
import Verif.Lsm.LeveledLaws
import Mathlib.Data.Nat.Sqrt

namespace Verif.Lsm

open Verif Verif.Spec Store

variable {K V : Type} [LinearOrder K] [DecidableEq V]

/-! ### A configuration for the examples -/

/-- `(n as f64).sqrt().ceil()` (sstable.rs:126), for the examples. -/
def ceilSqrt (n : Nat) : Nat := if Nat.sqrt n * Nat.sqrt n = n then Nat.sqrt n else Nat.sqrt n + 1

namespace Example

/-- Keys and values of 4 bytes; a large memory, so that the examples flush by hand. -/
def cfg : Cfg Nat Nat := ⟨⟨fun _ => 4, fun _ => 4⟩, ceilSqrt, 10000⟩

/-- A small memory, so that three entries are written out by themselves. -/
def small : Cfg Nat Nat := ⟨⟨fun _ => 4, fun _ => 4⟩, ceilSqrt, 40⟩

/-- `SizeTieredStrategy::new(path, 2, 0, 0.5, 1.5)`. -/
def tiered : SizeTiered.Params :=
  ⟨2, 0, fun s sum n cur => decide (sum ≤ 2 * s * n) && decide (2 * cur * n ≤ 3 * sum)⟩

/-- `LeveledStrategy::new(path, 1, 60, 1, 2)`. -/
def leveled : Leveled.Params := ⟨1, 60, 1, 2⟩

/-- A history with overwritten and removed keys, compactions, and a restart. -/
def ops : List (KvOp Nat Nat × Nat) :=
  [(.insert 1 10, 0), (.insert 2 20, 0), (.insert 3 30, 0), (.remove 2, 1), (.insert 4 40, 0), (.insert 1 11, 2),
    (.flush, 0), (.insert 5 50, 0), (.remove 3, 1), (.insert 6 60, 0), (.reopen, 1), (.insert 7 70, 0), (.insert 2 21, 0),
    (.remove 7, 2)]

end Example

/-! ### C36, C37: with the leveled strategy, lookup and iteration are exact -/

/-- C36: with `LeveledStrategy`, after every history and whatever the compaction thread does, `get` returns, and it
returns the value most recently inserted for the key, or `None` if there is none or it was removed since. -/
theorem C36_get (c : Cfg K V) (p : Leveled.Params) (ops : List (KvOp K V × Nat)) {s : Store (Leveled.kind c p)}
    {rs : List (KvRes K V)} (hr : run c (new (Leveled.kind c p)) ops = some (s, rs)) (k : K) (d : Nat) :
    (∃ s', s.step c (.get k) d = some (s', .val (contents (ops.map (·.1)) k))) ∧
    ∃ s', s.step c (.containsKey k) d = some (s', .bool (contents (ops.map (·.1)) k).isSome) := by
  have hg := goodRun_true (kd := Leveled.kind c p) (good := (Leveled.laws c p).good) (c := c) (fun _ => trivial) ops (new _)
  obtain ⟨W, h1, h2, h3⟩ := inv_reach (L := Leveled.laws c p) hg hr
  obtain ⟨⟨s1, o, e1⟩, s2, b, e2⟩ := get_returns h1 k d
  have a1 := reads_exact (op := .get k) (L := Leveled.laws c p) hg hr (fun _ _ => trivial) trivial e1
  have a2 := reads_exact (op := .containsKey k) (L := Leveled.laws c p) hg hr (fun _ _ => trivial) trivial e2
  exact ⟨⟨s1, e1.trans (congrArg (fun r => some (s1, r)) a1)⟩, ⟨s2, e2.trans (congrArg (fun r => some (s2, r)) a2)⟩⟩

/-- C36: if the configured counts are positive, every history runs to its end (a map that was never written cannot be
opened again, see C40). -/
theorem C36_returns (c : Cfg K V) (p : Leveled.Params) (h1 : 1 ≤ p.initCount) (h2 : 1 ≤ p.growth)
    (ops : List (KvOp K V × Nat)) (ho : Opens (ops.map (·.1))) :
    ∃ q, run c (new (Leveled.kind c p)) ops = some q :=
  run_isSome (Leveled.laws_total c p h1 h2) ops (inv_new _ c) hand_new (goodRun_true (fun _ => trivial) ops _) (.inr ho)

/-- C37 with `LeveledStrategy`: `iter` yields exactly the live pairs with their latest values in strictly ascending
order of the keys, `len` is their number and `is_empty` tells whether there are none. -/
theorem C37_leveled (c : Cfg K V) (p : Leveled.Params) (ops : List (KvOp K V × Nat)) {s s' : Store (Leveled.kind c p)}
    {rs : List (KvRes K V)} (hr : run c (new (Leveled.kind c p)) ops = some (s, rs)) {op : KvOp K V} (hop : op.Reads)
    {d : Nat} {r : KvRes K V} (hs : s.step c op d = some (s', r)) : op.Answer (contents (ops.map (·.1))) r :=
  reads_exact (L := Leveled.laws c p) (goodRun_true (fun _ => trivial) ops _) hr (fun _ _ => trivial) hop hs

/-- The histories of C36 and C37 exist: this one compacts, restarts, overwrites and removes. -/
example : ∃ s, run Example.small (new (Leveled.kind Example.small Example.leveled)) (Example.ops ++ [(.iter, 0), (.len, 0), (.get 2, 0)])
    = some s ∧ s.2.drop 14 = [.list [(1, 11), (2, 21), (4, 40), (5, 50), (6, 60)], .num 5, .val (some 21)] := by
  refine ⟨_, Option.eq_some_of_isSome (by decide +kernel), by decide +kernel⟩

/-! ### C35, C37: with the size-tiered strategy, a removed key may come back -/

/-- C35, C37: a removed key comes back.  A compaction of small tables puts the old insertion of key 1 and the recent
removal of key 9 into one table, next to the removal of key 1 in a table that is not part of it.  A later
compaction takes all three tables, drops the removals, and is taken over together with that first table, since the
newest write left is older than the removal of key 9. -/
theorem C35_violated :
    ∃ ops : List (KvOp Nat Nat × Nat), contents (ops.map (·.1)) 1 = none ∧
      (run Example.cfg (new (SizeTiered.kind Example.cfg Example.tiered)) (ops ++ [(.get 1, 0), (.iter, 0)])).map
        (·.2.drop ops.length) = some [.val (some 100), .list [(1, 100), (7, 7), (8, 8), (10, 10), (11, 11), (12, 12),
          (20, 1), (21, 1), (22, 1), (23, 1), (24, 1)]] := by
  refine ⟨[(.insert 1 100, 0), (.flush, 0),
    (.remove 1, 0), (.insert 7 7, 0), (.insert 8 8, 0), (.insert 10 10, 0), (.insert 11 11, 0), (.insert 12 12, 0), (.flush, 0),
    (.insert 20 1, 0), (.insert 21 1, 0), (.insert 22 1, 0), (.insert 23 1, 0), (.insert 24 1, 0), (.flush, 0),
    (.remove 9, 0), (.flush, 0),
    (.remove 40, 0), (.remove 41, 0), (.remove 42, 0), (.remove 43, 0), (.remove 44, 0), (.remove 45, 0), (.flush, 0)],
    by decide +kernel, by decide +kernel⟩

/-- C35, what holds of every history: `get` returns, a live key has its latest value, and a value returned for any
other key was at least inserted for this key at some time; in particular a key never inserted is not found.
Missing: that a removed key is not found. -/
theorem C35_get_partial (c : Cfg K V) (p : SizeTiered.Params) (ops : List (KvOp K V × Nat))
    {s : Store (SizeTiered.kind c p)} {rs : List (KvRes K V)}
    (hr : run c (new (SizeTiered.kind c p)) ops = some (s, rs)) (k : K) (d : Nat) :
    ∃ s' o, s.step c (.get k) d = some (s', .val o) ∧ (∀ v, contents (ops.map (·.1)) k = some v → o = some v) ∧
      ∀ v, o = some v → .insert k v ∈ ops.map (·.1) := by
  have hg := goodRun_true (kd := SizeTiered.kind c p) (good := (SizeTiered.laws c p).good) (c := c) (fun _ => trivial) ops (new _)
  obtain ⟨W, h1, h2, h3⟩ := inv_reach (L := SizeTiered.laws c p) hg hr
  obtain ⟨⟨s1, o, e1⟩, _⟩ := get_returns h1 k d
  obtain ⟨W', k1, k2, k3, k4⟩ := inv_reach_step (L := SizeTiered.laws c p) hg hr (fun _ _ => trivial) e1
  obtain ⟨a1, a2⟩ := get_weak k1 k
  have ho : o = s1.found k := by
    have : KvRes.val o = KvRes.val (s1.found k) := k4
    simpa using this
  refine ⟨s1, o, e1, fun v hv => ?_, fun v hv => ?_⟩
  · rw [ho]; exact a1 v ((congrFun k3 k).trans hv)
  · have := a2 v (ho ▸ hv)
    simpa [ghost] using this

/-- C35, C37, exactness in clean histories: if the most recent write of every table that is written from memory is an
insertion, then `get`, `contains_key`, `iter`, `len` and `is_empty` are exact, whatever the compactions do.  Missing:
histories in which a table is written when the most recent write is a removal. -/
theorem C35_clean_partial (c : Cfg K V) (p : SizeTiered.Params) (ops : List (KvOp K V × Nat))
    {s s' : Store (SizeTiered.kind c p)} {rs : List (KvRes K V)} {op : KvOp K V} {d : Nat} {r : KvRes K V}
    (hg : GoodRun SizeTiered.NewestIsValue c (new (SizeTiered.kind c p)) (ops ++ [(op, d)]))
    (hr : run c (new (SizeTiered.kind c p)) ops = some (s, rs)) (hop : op.Reads) (hs : s.step c op d = some (s', r)) :
    op.Answer (contents (ops.map (·.1))) r := by
  have hsplit : ∀ (ops : List (KvOp K V × Nat)) {s0 : Store (SizeTiered.kind c p)} {rs : List (KvRes K V)},
      GoodRun SizeTiered.NewestIsValue c s0 (ops ++ [(op, d)]) → run c s0 ops = some (s, rs) →
      GoodRun SizeTiered.NewestIsValue c s0 ops ∧ ∀ l, s.spill c op = some l → SizeTiered.NewestIsValue l := by
    intro ops
    induction ops with
    | nil =>
      intro s0 rs hg hr
      simp only [run, Option.some.injEq, Prod.mk.injEq] at hr
      obtain ⟨rfl, rfl⟩ := hr
      exact ⟨trivial, hg.1⟩
    | cons a ops ih =>
      intro s0 rs hg hr
      obtain ⟨o, e⟩ := a
      obtain ⟨s1, r, rs', h1, h2, rfl⟩ := run_cons hr
      obtain ⟨i1, i2⟩ := ih (hg.2 _ _ h1) h2
      refine ⟨⟨hg.1, fun s2 r2 h3 => ?_⟩, i2⟩
      rw [h1] at h3
      simp only [Option.some.injEq, Prod.mk.injEq] at h3
      obtain ⟨rfl, rfl⟩ := h3
      exact i1
  obtain ⟨h1, h2⟩ := hsplit ops hg hr
  exact reads_exact (L := SizeTiered.cleanLaws c p) h1 hr h2 hop hs

/-- C37 with `SizeTieredStrategy`, what holds of every history: `iter` yields pairs in strictly ascending order of the
keys; every live pair is among them; and every pair was inserted at some time.  Missing: that no removed key is
among them (`C35_violated`). -/
theorem C37_sizeTiered_partial (c : Cfg K V) (p : SizeTiered.Params) (ops : List (KvOp K V × Nat))
    {s s' : Store (SizeTiered.kind c p)} {rs : List (KvRes K V)}
    (hr : run c (new (SizeTiered.kind c p)) ops = some (s, rs)) {d : Nat} {r : KvRes K V}
    (hs : s.step c .iter d = some (s', r)) :
    ∃ l, r = .list l ∧ l.Pairwise (fun a b => a.1 < b.1) ∧ (∀ k v, contents (ops.map (·.1)) k = some v → (k, v) ∈ l) ∧
      ∀ k v, (k, v) ∈ l → .insert k v ∈ ops.map (·.1) := by
  have hg := goodRun_true (kd := SizeTiered.kind c p) (good := (SizeTiered.laws c p).good) (c := c) (fun _ => trivial) ops (new _)
  obtain ⟨W', k1, k2, k3, k4⟩ := inv_reach_step (L := SizeTiered.laws c p) hg hr (fun _ _ => trivial) hs
  obtain ⟨a1, a2, a3⟩ := items_weak k1 k4.1
  refine ⟨_, k4.2, a1, fun k v hv => a2 k v ?_, fun k v hv => ?_⟩
  · exact (congrFun k3 k).trans hv
  · have := a3 k v hv
    simpa [ghost] using this

/-- With the size-tiered strategy every history in which something is written before the first `reopen` runs to its
end. -/
theorem C35_returns (c : Cfg K V) (p : SizeTiered.Params) (ops : List (KvOp K V × Nat)) (ho : Opens (ops.map (·.1))) :
    ∃ q, run c (new (SizeTiered.kind c p)) ops = some q :=
  run_isSome (SizeTiered.laws_total c p) ops (inv_new _ c) hand_new (goodRun_true (fun _ => trivial) ops _) (.inr ho)

example : (run Example.small (new (SizeTiered.kind Example.small Example.tiered))
    (Example.ops ++ [(.iter, 0), (.get 3, 0), (.get 2, 0)])).map (·.2.drop 14) =
    some [.list [(1, 11), (2, 21), (4, 40), (5, 50), (6, 60)], .val none, .val (some 21)] := by decide +kernel

/-! ### C38: min and max -/

/-- C38: `min` and `max` ignore removals that are still in memory, with both strategies. -/
theorem C38_violated :
    ∃ ops : List (KvOp Nat Nat × Nat), contents (ops.map (·.1)) 1 = none ∧ contents (ops.map (·.1)) 3 = none ∧
      contents (ops.map (·.1)) 2 = some 200 ∧
      (run Example.cfg (new (SizeTiered.kind Example.cfg Example.tiered)) (ops ++ [(.min, 0), (.max, 0)])).map
          (·.2.drop ops.length) = some [.key (some 1), .key (some 3)] ∧
      (run Example.cfg (new (Leveled.kind Example.cfg Example.leveled)) (ops ++ [(.min, 0), (.max, 0)])).map
          (·.2.drop ops.length) = some [.key (some 1), .key (some 3)] :=
  ⟨[(.insert 1 100, 0), (.insert 2 200, 0), (.insert 3 300, 0), (.flush, 0), (.remove 1, 0), (.remove 3, 0)],
    by decide +kernel, by decide +kernel, by decide +kernel, by decide +kernel, by decide +kernel⟩

/-- A history of an exact strategy, and `min` or `max`. -/
theorem minmax_reach {kd : Kind K V} {L : Laws kd true} {c : Cfg K V} {ops : List (KvOp K V × Nat)} {s s' : Store kd}
    {rs : List (KvRes K V)} {op : KvOp K V} (hop : op = .min ∨ op = .max) {d : Nat} {r : KvRes K V}
    (hg : GoodRun L.good c (new kd) ops) (hr : run c (new kd) ops = some (s, rs)) (hs : s.step c op d = some (s', r)) :
    ∃ n ≤ ops.length, (∀ (i : Nat) (o : KvOp K V), (ops.map (·.1))[i]? = some o → o.Settles → i < n) ∧
      ∃ o, r = .key o ∧ (op = .min → IsLeastKey (fun k => (contents (ops.map (·.1)) k).isSome = true ∨
          (contents ((ops.map (·.1)).take n) k).isSome = true) o) ∧
        (op = .max → IsGreatestKey (fun k => (contents (ops.map (·.1)) k).isSome = true ∨
          (contents ((ops.map (·.1)).take n) k).isSome = true) o) := by
  obtain ⟨W, n, h⟩ := hist_reach hg hr
  generalize hpre : ops.map (·.1) = pre at h ⊢
  have hlen : ops.length = pre.length := by rw [← hpre]; simp
  obtain ⟨W', n', h', ha⟩ := hist_step h (by rcases hop with rfl | rfl <;> simp [spill]) hs
  have happ : ∀ m : K → Option V, op.apply m = m := by rcases hop with rfl | rfl <;> exact fun m => rfl
  have hc : contents (pre ++ [op]) = contents pre := by rw [contents_snoc, happ]
  have ht : contents ((pre ++ [op]).take n') = contents (pre.take (min n' pre.length)) := by
    by_cases hn : n' ≤ pre.length
    · rw [List.take_append_of_le_length hn, min_eq_left hn]
    · rw [List.take_of_length_le (by simp; omega), hc, min_eq_right (by omega), List.take_length]
  refine ⟨min n' pre.length, by rw [hlen]; exact min_le_right _ _, ?_, ?_⟩
  · intro i o hi ho
    have hlt := (List.getElem?_eq_some_iff.1 hi).1
    have := h'.settled i o (by rw [List.getElem?_append_left hlt]; exact hi) ho
    exact lt_min this hlt
  · have hk := minmax_keys h'
    rw [hc, ht] at hk
    obtain ⟨m1, m2⟩ := answer_minmax h'.inv (r := r)
    rcases hop with rfl | rfl
    · obtain ⟨o, ho, hl⟩ := m1 ha
      exact ⟨o, ho, fun _ => isLeast_congr hk hl, by simp⟩
    · obtain ⟨o, ho, hl⟩ := m2 ha
      exact ⟨o, ho, by simp, fun _ => isGreatest_congr hk hl⟩

omit [DecidableEq V] in
/-- Calls that remove nothing keep the keys. -/
theorem contents_grows {pre post : List (KvOp K V)} (h : ∀ o ∈ post, o ≠ .clear ∧ ∀ k, o ≠ .remove k) (k : K)
    (hk : (contents pre k).isSome = true) : (contents (pre ++ post) k).isSome = true := by
  induction post generalizing pre with
  | nil => simpa using hk
  | cons o post ih =>
    have : pre ++ o :: post = (pre ++ [o]) ++ post := by simp
    rw [this]
    apply ih (fun o' ho' => h o' (List.mem_cons_of_mem _ ho'))
    rw [contents_snoc]
    obtain ⟨h1, h2⟩ := h o (by simp)
    cases o with
    | insert a v => simp only [KvOp.apply]; split <;> simp_all
    | remove a => exact absurd rfl (h2 a)
    | clear => exact absurd rfl h1
    | _ => exact hk

/-- C38 with `LeveledStrategy`, exactly what `min` and `max` return: the least (greatest) key that is live or was live
after the first `n` calls, for some `n` beyond the last call that wrote the memory out.  Missing: the keys
removed since then should not count. -/
theorem C38_exact_partial (c : Cfg K V) (p : Leveled.Params) (ops : List (KvOp K V × Nat))
    {s s' : Store (Leveled.kind c p)} {rs : List (KvRes K V)} {op : KvOp K V} (hop : op = .min ∨ op = .max) {d : Nat}
    {r : KvRes K V} (hr : run c (new (Leveled.kind c p)) ops = some (s, rs)) (hs : s.step c op d = some (s', r)) :
    ∃ n ≤ ops.length, (∀ (i : Nat) (o : KvOp K V), (ops.map (·.1))[i]? = some o → o.Settles → i < n) ∧
      ∃ o, r = .key o ∧ (op = .min → IsLeastKey (fun k => (contents (ops.map (·.1)) k).isSome = true ∨
          (contents ((ops.map (·.1)).take n) k).isSome = true) o) ∧
        (op = .max → IsGreatestKey (fun k => (contents (ops.map (·.1)) k).isSome = true ∨
          (contents ((ops.map (·.1)).take n) k).isSome = true) o) :=
  minmax_reach (L := Leveled.laws c p) hop (goodRun_true (fun _ => trivial) ops _) hr hs

/-- C38 with `LeveledStrategy`: `min` and `max` are right if every removal is followed by a call that writes the memory
out (such as `flush`, `len` or `iter`).  Missing: removals that are still in memory. -/
theorem C38_flushed_partial (c : Cfg K V) (p : Leveled.Params) (ops : List (KvOp K V × Nat))
    {s s' : Store (Leveled.kind c p)} {rs : List (KvRes K V)} {op : KvOp K V} (hop : op = .min ∨ op = .max) {d : Nat}
    {r : KvRes K V} (hr : run c (new (Leveled.kind c p)) ops = some (s, rs)) (hs : s.step c op d = some (s', r))
    (hrem : ∀ (i : Nat) (k : K), (ops.map (·.1))[i]? = some (.remove k) →
      ∃ (j : Nat) (o : KvOp K V), i < j ∧ (ops.map (·.1))[j]? = some o ∧ o.Settles) :
    op.Answer (contents (ops.map (·.1))) r := by
  obtain ⟨n, hn, hset, o, ho, h1, h2⟩ := C38_exact_partial c p ops hop hr hs
  generalize ops.map (·.1) = pre at *
  have hgrow : ∀ k, (contents (pre.take n) k).isSome = true → (contents pre k).isSome = true := by
    intro k hk
    rw [← List.take_append_drop n pre]
    refine contents_grows ?_ k hk
    intro o ho
    obtain ⟨i, hi⟩ := List.mem_iff_getElem?.1 ho
    rw [List.getElem?_drop] at hi
    constructor
    · rintro rfl
      have := hset _ _ hi trivial
      omega
    · rintro a rfl
      obtain ⟨j, o', hj, ho', hs'⟩ := hrem _ _ hi
      have := hset _ _ ho' hs'
      omega
  have hiff : ∀ k, ((contents pre k).isSome = true ∨ (contents (pre.take n) k).isSome = true) ↔
      (contents pre k).isSome = true := fun k => ⟨fun h => h.elim id (hgrow k), .inl⟩
  rcases hop with rfl | rfl
  · exact ⟨o, ho, isLeast_congr hiff (h1 rfl)⟩
  · exact ⟨o, ho, isGreatest_congr hiff (h2 rfl)⟩

/-- C38 with `SizeTieredStrategy`, what holds of every history: `min` is at most every live key, `max` at least every
live key, `None` means that there is no live key, and the key returned was inserted at some time.  Missing:
that the key returned is live. -/
theorem C38_bound_partial (c : Cfg K V) (p : SizeTiered.Params) (ops : List (KvOp K V × Nat))
    {s s1 s2 : Store (SizeTiered.kind c p)} {rs : List (KvRes K V)} {d : Nat} {r1 r2 : KvRes K V}
    (hr : run c (new (SizeTiered.kind c p)) ops = some (s, rs)) (h1 : s.step c .min d = some (s1, r1))
    (h2 : s.step c .max d = some (s2, r2)) :
    ∃ o1 o2, r1 = .key o1 ∧ r2 = .key o2 ∧
      (∀ k v, contents (ops.map (·.1)) k = some v → ∃ a b, o1 = some a ∧ o2 = some b ∧ a ≤ k ∧ k ≤ b) ∧
      ∀ a, (o1 = some a ∨ o2 = some a) → ∃ v, .insert a v ∈ ops.map (·.1) := by
  have hg := goodRun_true (kd := SizeTiered.kind c p) (good := (SizeTiered.laws c p).good) (c := c) (fun _ => trivial) ops (new _)
  obtain ⟨W1, k1, k2, k3, k4⟩ := inv_reach_step (L := SizeTiered.laws c p) hg hr (fun _ _ => trivial) h1
  obtain ⟨W2, j1, j2, j3, j4⟩ := inv_reach_step (L := SizeTiered.laws c p) hg hr (fun _ _ => trivial) h2
  obtain ⟨o1, e1, a1, a2⟩ := (minmax_weak k1).1 k4
  obtain ⟨o2, e2, b1, b2⟩ := (minmax_weak j1).2 j4
  refine ⟨o1, o2, e1, e2, fun k v hv => ?_, fun a ha => ?_⟩
  · obtain ⟨a, ha, hak⟩ := a1 k v ((congrFun k3 k).trans hv)
    obtain ⟨b, hb, hbk⟩ := b1 k v ((congrFun j3 k).trans hv)
    exact ⟨a, b, ha, hb, hak, hbk⟩
  · rcases ha with ha | ha
    · obtain ⟨v, hv⟩ := a2 a ha
      exact ⟨v, by simpa [ghost] using hv⟩
    · obtain ⟨v, hv⟩ := b2 a ha
      exact ⟨v, by simpa [ghost] using hv⟩

/-- A history as in `C38_flushed_partial`: a `flush` follows all removals. -/
example : (run Example.small (new (Leveled.kind Example.small Example.leveled))
    (Example.ops ++ [(.flush, 0), (.insert 9 90, 0), (.min, 0), (.max, 1)])).map (·.2.drop 16) =
    some [.key (some 1), .key (some 9)] := by decide +kernel

/-! ### C39: len_hint -/

theorem lenHint_reach {kd : Kind K V} {x : Bool} {L : Laws kd x} (hL : ∀ l, L.good l) {c : Cfg K V}
    {ops : List (KvOp K V × Nat)} {s : Store kd} {rs : List (KvRes K V)} (hr : run c (new kd) ops = some (s, rs))
    (d : Nat) : ∃ s' n, s.step c .lenHint d = some (s', .num n) ∧
      ∀ ks : List K, ks.Nodup → (∀ k ∈ ks, (contents (ops.map (·.1)) k).isSome) → ks.length ≤ n := by
  have hg := goodRun_true (kd := kd) (good := L.good) (c := c) hL ops (new _)
  obtain ⟨W, h1, _⟩ := inv_reach hg hr
  have : ∃ q, s.step c .lenHint d = some q := by
    obtain ⟨s2, e2, i2, _⟩ := inv_tryReplace (inv_work d h1)
    obtain ⟨n, hn⟩ := hint_isSome (L.inv_ok i2.inv)
    simp only [step, e2, Option.bind_some, hn, Option.map_some]
    exact ⟨_, rfl⟩
  obtain ⟨⟨s', r⟩, hs⟩ := this
  obtain ⟨W', k1, k2, k3, k4⟩ := inv_reach_step hg hr (fun l _ => hL l) hs
  have h : KvOp.lenHint.Answer (look s'.mem W') r := answer_lenHint k1 k4
  rw [k3] at h
  obtain ⟨n, rfl, hn⟩ := h
  exact ⟨s', n, hs, hn⟩

/-- C39 with `SizeTieredStrategy`: `len_hint` returns, and it is at least the number of live keys. -/
theorem C39_sizeTiered (c : Cfg K V) (p : SizeTiered.Params) (ops : List (KvOp K V × Nat))
    {s : Store (SizeTiered.kind c p)} {rs : List (KvRes K V)}
    (hr : run c (new (SizeTiered.kind c p)) ops = some (s, rs)) (d : Nat) :
    ∃ s' n, s.step c .lenHint d = some (s', .num n) ∧
      ∀ ks : List K, ks.Nodup → (∀ k ∈ ks, (contents (ops.map (·.1)) k).isSome) → ks.length ≤ n :=
  lenHint_reach (L := SizeTiered.laws c p) (fun _ => trivial) hr d

/-- C39 with `LeveledStrategy`. -/
theorem C39_leveled (c : Cfg K V) (p : Leveled.Params) (ops : List (KvOp K V × Nat))
    {s : Store (Leveled.kind c p)} {rs : List (KvRes K V)}
    (hr : run c (new (Leveled.kind c p)) ops = some (s, rs)) (d : Nat) :
    ∃ s' n, s.step c .lenHint d = some (s', .num n) ∧
      ∀ ks : List K, ks.Nodup → (∀ k ∈ ks, (contents (ops.map (·.1)) k).isSome) → ks.length ≤ n :=
  lenHint_reach (L := Leveled.laws c p) (fun _ => trivial) hr d

/-- The hint may be too large: three versions of key 1 and a removal count. -/
example : (run Example.cfg (new (Leveled.kind Example.cfg Example.leveled))
    [(.insert 1 1, 0), (.flush, 0), (.insert 1 2, 0), (.insert 2 2, 0), (.remove 2, 0), (.lenHint, 0)]).map (·.2.drop 5) =
    some [.num 3] := by decide +kernel

end Verif.Lsm
