/- C92 for the map: how many tables are left after a call that wrote the in-memory tree out. -/
import Verif.Lsm.Buckets
import Verif.Lsm.IterSys
import Verif.Lsm.Panic
import Verif.Lsm.Durable

namespace Verif.Lsm

variable {K V : Type} [LinearOrder K] [DecidableEq V]

open Verif Verif.Spec Store

omit [LinearOrder K] [DecidableEq V] in
/-- Without live iterators, a compaction that is due is started. -/
theorem start_due {kd : Kind K V} {s s' : Store kd} (h : s.start = some s') (hl : s.locks = 0)
    (hb : s'.busy = false) : kd.plan s'.cur = none := by
  unfold start at h
  split at h
  · rename_i hc
    obtain rfl := Option.some.inj h
    simp [hl, hb] at hc
  · cases ht : s.tryReplace with
    | none => rw [ht] at h; simp at h
    | some u =>
      rw [ht] at h
      simp only at h
      cases hp : kd.plan u.cur with
      | none => rw [hp] at h; obtain rfl := Option.some.inj h; exact hp
      | some j =>
        rw [hp] at h
        obtain rfl := Option.some.inj h
        simp at hb

omit [DecidableEq V] in
theorem ins_ne {W : Type} (k : K) (v : W) (l : List (K × W)) : SL.ins k v l ≠ [] := by
  cases l with
  | nil => simp [SL.ins]
  | cons e l => obtain ⟨x, w⟩ := e; simp only [SL.ins]; split_ifs <;> simp

omit [DecidableEq V] in
/-- A write that leaves the in-memory tree empty has written a table out, and started a compaction if one was due. -/
theorem write_due {kd : Kind K V} {c : Cfg K V} {s s' : Store kd} {k : K} {data : Option V}
    (h : s.write c k data = some s') (hm : s'.mem = []) (hl : s.locks = 0) (hb : s'.busy = false) :
    kd.plan s'.cur = none := by
  unfold write at h
  simp only at h
  split at h
  · simp at h
  · split at h
    · unfold tryCompact at h
      split at h
      · simp at h
      · exact start_due h hl hb
    · obtain rfl := Option.some.inj h
      exact absurd hm (ins_ne _ _ _)

variable {mc ms : Nat} {low high : ℚ}

/-- C92 for the map: take any insertion or removal that writes the in-memory tree out, at a moment at which no iterator
is alive.  If no compaction runs afterwards and all tables have at most `ms * r ^ j` bytes, there are at most
`mc * (j + 1)` tables. -/
theorem C92_store {fl : ℚ → ℚ} {ε : ℚ} (hf : SizeTiered.Rounds ε fl) (hl0 : 0 ≤ low) {c : Cfg K V}
    {s s' : Store (SizeTiered.kind c (SizeTiered.params fl mc ms low high))} {r : KvRes K V}
    {d : Nat} {op : KvOp K V} (hop : (∃ k v, op = .insert k v) ∨ ∃ k, op = .remove k)
    (h : s.step c op d = some (s', r)) (hm : s'.mem = []) (hl : s.locks = 0) (hb : s'.busy = false)
    (q : ℚ) (hq : 1 < q) (hqh : q * SizeTiered.slack ε ≤ high) (hql : q * low * SizeTiered.slack ε ≤ 1) (j : Nat)
    (hts : ∀ t ∈ s'.cur, (t.size : ℚ) ≤ ms * q ^ j) : s'.cur.length ≤ mc * (j + 1) := by
  refine SizeTiered.C92_count hf hl0 q hq hqh hql _ j hts ?_
  have hl' : (work d s).locks = 0 := by rw [Iter.work_locks, hl]
  rcases hop with ⟨k, v, rfl⟩ | ⟨k, rfl⟩ <;>
  · simp only [step, Option.map_eq_some_iff] at h
    obtain ⟨u, h1, h2⟩ := h
    obtain ⟨rfl, -⟩ := Prod.mk.inj h2
    exact write_due h1 hm hl' hb

namespace Store

/-- Once an iterator has been made, nothing is compacted. -/
theorem stuck_hold {kd : Kind K V} {x : Bool} {L : Laws kd x} (hL : ∀ l, L.good l) {c : Cfg K V} {s s' : Store kd}
    {g : Ghost K V} {d : Nat} {r : KvRes K V} (h : Inv L c s g) (hh : s.Hand) (hs : s.step c .hold d = some (s', r)) :
    Stuck 0 s' := by
  simp only [step] at hs
  obtain ⟨u, h1, h2⟩ := Option.bind_eq_some_iff.1 hs
  obtain ⟨q1, q2, q3, q4⟩ := quiet_flush (inv_work d h) (hand_work d hh) (fun _ => hL _) h1
  have h3 : u.tryReplace = some u := by unfold tryReplace; rw [q4]
  rw [h3] at h2
  obtain ⟨rfl, -⟩ := Prod.mk.inj (Option.some.inj h2)
  exact ⟨q3, q4, Nat.succ_pos _⟩

/-- Rounds of `insert` and `flush` while an iterator is alive. -/
theorem pile_held {kd : Kind K V} {x : Bool} {L : Laws kd x} (hL : ∀ l, L.good l) {c : Cfg K V}
    {pre : List (KvOp K V × Nat)} {s s' : Store kd} {rs : List (KvRes K V)} {r : KvRes K V} {d : Nat}
    (hr : run c (new kd) pre = some (s, rs)) (hs : s.step c .hold d = some (s', r)) (l : List (K × V)) :
    ∃ t rs', run c s' (rounds l) = some (t, rs') ∧ t.job = none ∧ l.length ≤ (kd.tabs t.cur).length := by
  obtain ⟨W, n, h⟩ := hist_reach (L := L) (goodRun_true hL pre _) hr
  have hk := stuck_hold hL h.inv h.hand hs
  obtain ⟨W', n', h', -⟩ := hist_step h (fun l _ => hL l) hs
  obtain ⟨t, rs', e, j1, -⟩ := stuck_run hL (rounds l) h' hk (balanced_rounds l 0)
  have := rounds_more L l hk e
  exact ⟨t, rs', e, j1, by omega⟩

end Store

/-- Why `C92_store` asks that no iterator is alive: after any history, once an iterator has been made, `insert` and `flush`
in turn leave one table for each and no compaction is started, whatever the parameters are, so that the number of tables has
no bound.  The same holds with the leveled strategy. -/
theorem C92_held (c : Cfg K V) (p : SizeTiered.Params) (q : Leveled.Params) (pre : List (KvOp K V × Nat)) (d : Nat)
    (l : List (K × V)) :
    (∀ s rs s' r, run c (new (SizeTiered.kind c p)) pre = some (s, rs) → s.step c .hold d = some (s', r) →
      ∃ t rs', run c s' (rounds l) = some (t, rs') ∧ t.job = none ∧ l.length ≤ t.cur.length) ∧
    ∀ s rs s' r, run c (new (Leveled.kind c q)) pre = some (s, rs) → s.step c .hold d = some (s', r) →
      ∃ t rs', run c s' (rounds l) = some (t, rs') ∧ t.job = none ∧
        l.length ≤ ((Leveled.kind c q).tabs t.cur).length :=
  ⟨fun _ _ _ _ h1 h2 => pile_held (L := SizeTiered.laws c p) (fun _ => trivial) h1 h2 l,
    fun _ _ _ _ h1 h2 => pile_held (L := Leveled.laws c q) (fun _ => trivial) h1 h2 l⟩

/-- The hypotheses of `C92_held` are met. -/
example : (run Example.small (new (SizeTiered.kind Example.small SizeTiered.usual))
    [(.insert 1 1, 0), (.insert 2 2, 0)]).any (fun a => (a.1.step Example.small .hold 0).isSome) = true := by
  decide +kernel

/-- The hypotheses of `C92_store` are met: the third entry exceeds the in-memory size, the tree is written out, and one
table is no reason for a compaction. -/
example : (run Example.small (new (SizeTiered.kind Example.small SizeTiered.usual))
    [(.insert 1 1, 0), (.insert 2 2, 0)]).any (fun a => a.1.locks == 0 &&
      (a.1.step Example.small (.insert 3 3) 0).any fun b => b.1.mem.isEmpty && !b.1.busy && b.1.cur.length == 1 &&
        b.1.cur.all fun t => t.size ≤ 50000) = true := by
  decide +kernel

end Verif.Lsm
