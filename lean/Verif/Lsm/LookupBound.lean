/- C85 with a bound on the tables outside the levels. -/
import Verif.Lsm.Removals

namespace Verif.Lsm

variable {K V : Type} [LinearOrder K] [DecidableEq V]

open Verif Verif.Spec Store

theorem run_one_more {kd : Kind K V} {c : Cfg K V} : ∀ {ops : List (KvOp K V × Nat)} {s s' s2 : Store kd}
    {rs : List (KvRes K V)} {op : KvOp K V} {d : Nat} {r : KvRes K V}, run c s ops = some (s', rs) →
    s'.step c op d = some (s2, r) → run c s (ops ++ [(op, d)]) = some (s2, rs ++ [r])
  | [], s, s', s2, rs, op, d, r, h, h2 => by
    obtain ⟨rfl, rfl⟩ := Prod.mk.inj (Option.some.inj h)
    simp [run, h2]
  | (o, e) :: ops, s, s', s2, rs, op, d, r, h, h2 => by
    simp only [run] at h
    cases hs : s.step c o e with
    | none => rw [hs] at h; simp at h
    | some q =>
      obtain ⟨s1, r1⟩ := q
      rw [hs] at h
      simp only [Option.map_eq_some_iff, Prod.mk.injEq, Prod.exists] at h
      obtain ⟨a, b, h, rfl, rfl⟩ := h
      have := run_one_more h h2
      simp [run, hs, this]

/-- C85 after an insertion and `flush`, when before no iterator was alive and the compaction thread did not run: a lookup
asks at most `max_sstable_count + 2 + log(n)` tables, where `n` is the number of different keys ever written. -/
theorem C85_flushed (c : Cfg K V) (p : Leveled.Params) (hi : 1 ≤ p.initCount) (hg : 2 ≤ p.growth) (ks : List K)
    (ops : List (KvOp K V × Nat)) {k : K} (v : V) (hk : k ∈ ks)
    (hks : ∀ k, ((∃ v, KvOp.insert k v ∈ ops.map (·.1)) ∨ KvOp.remove k ∈ ops.map (·.1)) → k ∈ ks)
    {s s1 s2 : Store (Leveled.kind c p)} {rs : List (KvRes K V)} {r1 r2 : KvRes K V} {d1 d2 : Nat}
    (hr : run c (new (Leveled.kind c p)) ops = some (s, rs)) (hl : s.locks = 0) (hj : s.job = none) (hb : s.busy = false)
    (h1 : s.step c (.insert k v) d1 = some (s1, r1)) (h2 : s1.step c .flush d2 = some (s2, r2)) (x : K) :
    (Leveled.ask s2.cur x).1.length ≤ p.maxCount + Nat.log p.growth ks.length + 2 := by
  have h3 := C93_leveled_partial c p ops hr hl hj hb h1 h2
  have h4 := C85_lookup c p hi hg ks (ops ++ [(.insert k v, d1)] ++ [(.flush, d2)]) (by
    intro y hy
    simp only [List.map_append, List.map_cons, List.map_nil, List.mem_append, List.mem_singleton, KvOp.insert.injEq,
      reduceCtorEq, or_false] at hy
    rcases hy with ⟨w, hy | ⟨rfl, rfl⟩⟩ | hy
    · exact hks y (.inl ⟨w, hy⟩)
    · exact hk
    · exact hks y (.inr hy)) (run_one_more (run_one_more hr h1) h2) x
  omega

/-- The hypotheses are met after ten removals; the bound is 2 + 3 + 2, and the lookups of the keys ask at most one table. -/
example : (run Example.small (new (Leveled.kind Example.small ⟨2, 20, 1, 2⟩)) (removals [1, 2, 3, 4, 5, 6, 7, 8, 9, 9])).any
    (fun a => a.1.locks == 0 && a.1.job.isNone && !a.1.busy && (a.1.step Example.small (.insert 5 5) 0).any fun b =>
      (b.1.step Example.small .flush 0).any fun e =>
        [1, 5, 9].map (fun x => (Leveled.ask e.1.cur x).1.length) == [1, 1, 0]) = true := by
  decide +kernel

end Verif.Lsm
