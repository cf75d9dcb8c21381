/-
C87: a panic of the compaction thread, for example because a comparison or a hash function of the user's types
panics, because a limit of a level overflows (leveled.rs:359-360), or because a result cannot be unwrapped.

The thread holds no lock while it works, so nothing is poisoned (size_tiered.rs:298-316, leveled.rs:294-435), and
`flush` and `clear` print the result of joining it and go on (size_tiered.rs:436-450, 503-505, leveled.rs:512-526,
606-608).  But only an error resets `is_compacting` (size_tiered.rs:329-346, leveled.rs:442-459), a panic does not.
-/
import Verif.Lsm.FaultProps
import Verif.Lsm.LeveledLimits

namespace Verif.Lsm

open Verif Verif.Spec

variable {K V : Type}

/-- What happens to a map: a call, after `d` events of the compaction thread, or a panic of the compaction thread after
it has written the tables `left` (whatever is in them). -/
inductive PEv (K V : Type) where
  | call (op : KvOp K V) (d : Nat)
  | panic (left : List (Table K V))

/-- The call, if it is one. -/
def PEv.call? : PEv K V → Option (KvOp K V)
  | .call op _ => some op
  | .panic _ => none

/-- The calls among the events. -/
abbrev calls (es : List (PEv K V)) : List (KvOp K V) := es.filterMap PEv.call?

namespace Store

variable {kd : Kind K V}

/-- The tables `left`, under unused names. -/
def named (f : Nat) : List (Table K V) → List (Table K V)
  | [] => []
  | t :: ts => { t with id := f } :: named (f + 1) ts

/-- The compaction thread panics (size_tiered.rs:329-346, leveled.rs:442-459): it stops without storing a result, and
the tables that it has written stay on the disk.  `is_compacting` stays set until the map is dropped.  The model notes
this as one more lock: `start` (size_tiered.rs:415, leveled.rs:491) is the only place that looks at `is_compacting` or
`metadata_lock_count`, and returns if either is not 0; and both are 0 in a map that is opened. -/
def panic (s : Store kd) (left : List (Table K V)) : Store kd :=
  put { s with job := none, locks := s.locks + 1, fresh := s.fresh + left.length }
    { s.disk with dirs := s.disk.dirs ++ named s.fresh left }

/-- A list of events; the compaction thread can panic only while it runs. -/
def runP [LinearOrder K] [DecidableEq V] (c : Cfg K V) : Store kd → List (PEv K V) →
    Option (Store kd × List (KvRes K V))
  | s, [] => some (s, [])
  | s, .call op d :: es =>
    match s.step c op d with
    | none => none
    | some (s, r) => (runP c s es).map fun (s, rs) => (s, r :: rs)
  | s, .panic left :: es => if s.job.isSome then runP c (s.panic left) es else none

theorem named_id (f : Nat) (ts : List (Table K V)) : (named f ts).map (·.id) = List.range' f ts.length := by
  induction ts generalizing f with
  | nil => rfl
  | cons t ts ih => simp [named, ih, List.range'_succ]

variable [LinearOrder K] {x : Bool}

theorem inv_panic {L : Laws kd x} {c : Cfg K V} {s : Store kd} {g : Ghost K V} (h : Inv L c s g) (hj : s.job.isSome)
    (left : List (Table K V)) : Inv L c (s.panic left) g ∧ (s.panic left).Hand ∧ Stuck 0 (s.panic left) := by
  obtain ⟨j, hj⟩ := Option.isSome_iff_exists.1 hj
  obtain ⟨hn, -, -⟩ := h.job j hj
  have hid := named_id s.fresh left
  refine ⟨⟨h.memSorted, h.memTime, h.memNew, h.curTime, h.inv, h.sees, h.ids, ?_, ?_, fun _ => ⟨rfl, hn⟩,
    fun t ht => List.mem_append_left _ (h.files t ht), ?_, ?_, h.md, h.time, h.used, h.usedEq, h.vals, h.memVals⟩,
    fun _ => ⟨rfl, hn⟩, ⟨rfl, hn, Nat.succ_pos _⟩⟩
  · intro j' hj'; exact absurd hj' (by simp [panic, put])
  · intro m hm
    have : s.next = some m := hm
    rw [hn] at this; cases this
  · show ((s.disk.dirs ++ named s.fresh left).map (·.id)).Nodup
    rw [List.map_append, hid]
    refine List.nodup_append.2 ⟨h.dirIds, List.nodup_range', ?_⟩
    intro i hi k hk hik
    obtain ⟨t, ht, rfl⟩ := List.mem_map.1 hi
    have := h.dirNew t ht
    have := (List.mem_range'_1.1 hk).1
    omega
  · intro t ht
    show t.id < s.fresh + left.length
    rcases List.mem_append.1 ht with ht | ht
    · have := h.dirNew t ht; omega
    · have : t.id ∈ (named s.fresh left).map (·.id) := List.mem_map.2 ⟨t, ht, rfl⟩
      rw [hid] at this
      have := (List.mem_range'_1.1 this).2
      omega

variable [DecidableEq V]

theorem runP_call {c : Cfg K V} {s s' : Store kd} {op : KvOp K V} {d : Nat} {es : List (PEv K V)} {rs : List (KvRes K V)}
    (h : runP c s (.call op d :: es) = some (s', rs)) :
    ∃ s1 r rs', s.step c op d = some (s1, r) ∧ runP c s1 es = some (s', rs') ∧ rs = r :: rs' := by
  simp only [runP] at h
  cases hs : s.step c op d with
  | none => rw [hs] at h; simp at h
  | some p =>
    obtain ⟨s1, r⟩ := p
    rw [hs] at h
    simp only [Option.map_eq_some_iff, Prod.mk.injEq] at h
    obtain ⟨⟨s2, rs'⟩, h1, rfl, rfl⟩ := h
    exact ⟨s1, r, rs', rfl, h1, rfl⟩

theorem runP_panic {c : Cfg K V} {s s' : Store kd} {left : List (Table K V)} {es : List (PEv K V)} {rs : List (KvRes K V)}
    (h : runP c s (.panic left :: es) = some (s', rs)) : s.job.isSome ∧ runP c (s.panic left) es = some (s', rs) := by
  simp only [runP] at h
  split at h
  · rename_i hj; exact ⟨hj, h⟩
  · cases h

theorem runP_append {c : Cfg K V} : ∀ (es : List (PEv K V)) {fs : List (PEv K V)} {s s' : Store kd} {rs : List (KvRes K V)},
    runP c s (es ++ fs) = some (s', rs) →
    ∃ s1 r1 r2, runP c s es = some (s1, r1) ∧ runP c s1 fs = some (s', r2) ∧ rs = r1 ++ r2
  | [], fs, s, s', rs, h => ⟨s, [], rs, rfl, h, rfl⟩
  | .call op d :: es, fs, s, s', rs, h => by
    obtain ⟨s1, r, rs', h1, h2, rfl⟩ := runP_call h
    obtain ⟨s2, r1, r2, k1, k2, rfl⟩ := runP_append es h2
    exact ⟨s2, r :: r1, r2, by simp [runP, h1, k1], k2, rfl⟩
  | .panic left :: es, fs, s, s', rs, h => by
    obtain ⟨h1, h2⟩ := runP_panic h
    obtain ⟨s2, r1, r2, k1, k2, rfl⟩ := runP_append es h2
    exact ⟨s2, r1, r2, by simp [runP, h1, k1], k2, rfl⟩

theorem hist_runP {L : Laws kd x} (hL : ∀ l, L.good l) {c : Cfg K V} : ∀ (es : List (PEv K V)) {s s' : Store kd}
    {pre : List (KvOp K V)} {W : K → Option (Val V)} {n : Nat} {rs : List (KvRes K V)}, Hist L c s pre W n →
    runP c s es = some (s', rs) → ∃ W' n', Hist L c s' (pre ++ calls es) W' n'
  | [], s, s', pre, W, n, rs, h, hr => by
    simp only [runP, Option.some.injEq, Prod.mk.injEq] at hr
    obtain ⟨rfl, rfl⟩ := hr
    exact ⟨W, n, by simpa using h⟩
  | .call op d :: es, s, s', pre, W, n, rs, h, hr => by
    obtain ⟨s1, r, rs', h1, h2, rfl⟩ := runP_call hr
    obtain ⟨W1, n1, k1, _⟩ := hist_step h (fun l _ => hL l) h1
    obtain ⟨W', n', j1⟩ := hist_runP hL es k1 h2
    exact ⟨W', n', by simpa [calls, PEv.call?] using j1⟩
  | .panic left :: es, s, s', pre, W, n, rs, h, hr => by
    obtain ⟨h1, h2⟩ := runP_panic hr
    obtain ⟨k1, k2, _⟩ := inv_panic h.inv h1 left
    obtain ⟨W', n', j1⟩ := hist_runP hL es (s := s.panic left) ⟨k1, k2, h.look, h.le, h.base, h.settled⟩ h2
    exact ⟨W', n', j1⟩

theorem hist_reachP {L : Laws kd x} (hL : ∀ l, L.good l) {c : Cfg K V} {es : List (PEv K V)} {s : Store kd}
    {rs : List (KvRes K V)} (hr : runP c (new kd) es = some (s, rs)) : ∃ W n, Hist L c s (calls es) W n := by
  obtain ⟨W, n, h⟩ := hist_runP hL es (hist_new L c) hr
  exact ⟨W, n, by simpa using h⟩

/-- After every history with panics, the reading calls of an exact strategy are right, and lookups return. -/
theorem reads_panic {L : Laws kd true} (hL : ∀ l, L.good l) {c : Cfg K V} {es : List (PEv K V)} {s : Store kd}
    {rs : List (KvRes K V)} (hr : runP c (new kd) es = some (s, rs)) :
    (∀ k d, ∃ s', s.step c (.get k) d = some (s', .val (contents (calls es) k))) ∧
    ∀ (op : KvOp K V) d s' r, op.Reads → s.step c op d = some (s', r) → op.Answer (contents (calls es)) r := by
  obtain ⟨W, n, h⟩ := hist_reachP hL hr
  have key : ∀ (op : KvOp K V) d s' r, op.Reads → s.step c op d = some (s', r) → op.Answer (contents (calls es)) r := by
    intro op d s' r hop hs
    obtain ⟨W', k1, k2, k3, k4, _⟩ := inv_step h.inv h.hand (fun l _ => hL l) hs
    have h2 : op.Answer (Lsm.look s'.mem W') r := answer_exact k1 hop k4
    have hl : Lsm.look s.mem (ghost (calls es) W).W = contents (calls es) := h.look
    rwa [k3, apply_reads hop, hl] at h2
  refine ⟨fun k d => ?_, key⟩
  obtain ⟨⟨s1, o, e1⟩, _⟩ := get_returns h.inv k d
  have := key _ d s1 _ (by trivial) e1
  exact ⟨s1, e1.trans (congrArg (fun r => some (s1, r)) this)⟩

/-! ### After a panic -/

/-- Calls on a map that is not opened again, of which `n` iterators are alive: only these are dropped. -/
def Balanced : Nat → List (KvOp K V) → Prop
  | _, [] => True
  | n, .hold :: ops => Balanced (n + 1) ops
  | n, .release :: ops => 0 < n ∧ Balanced (n - 1) ops
  | _, .reopen :: _ => False
  | n, _ :: ops => Balanced n ops

/-- The number of iterators after a call. -/
def alive (n : Nat) : KvOp K V → Nat
  | .hold => n + 1
  | .release => n - 1
  | _ => n

omit [LinearOrder K] [DecidableEq V] in
theorem balanced_cons {n : Nat} {op : KvOp K V} {ops : List (KvOp K V)} (h : Balanced n (op :: ops)) :
    (op = .release → 0 < n) ∧ op ≠ .reopen ∧ Balanced (alive n op) ops := by
  cases op <;> simp_all [Balanced, alive]

omit [DecidableEq V] in
theorem stuck_clear {n : Nat} {s s' : Store kd} (h : Stuck n s) (hs : s.clear = some s') : Stuck n s' := by
  unfold clear at hs
  simp only at hs
  cases h1 : (if s.handle = true then ({ s with mem := [] } : Store kd).join else some { s with mem := [] }) with
  | none => rw [h1] at hs; cases hs
  | some s1 =>
    rw [h1] at hs
    simp only [Option.map_eq_some_iff] at hs
    obtain ⟨s2, h2, rfl⟩ := hs
    have hs1 : Stuck n s1 := by
      split at h1
      · unfold join at h1
        simp only at h1
        split at h1
        · cases h1
        · simp only [Option.some.injEq] at h1
          subst h1
          exact (stuck_work (s := { s with mem := [] }) 2 ⟨h.job, h.next, h.locks⟩).1
      · simp only [Option.some.injEq] at h1
        subst h1
        exact ⟨h.job, h.next, h.locks⟩
    obtain ⟨tr, k, _⟩ := removeDirs_some h2
    subst k
    exact ⟨hs1.job, rfl, hs1.locks⟩

theorem stuck_call (L : Laws kd x) {c : Cfg K V} {n : Nat} {s s' : Store kd} {op : KvOp K V} {d : Nat} {r : KvRes K V}
    (h : Stuck n s) (h1 : op = .release → 0 < n) (h2 : op ≠ .reopen) (hs : s.step c op d = some (s', r)) :
    Stuck (alive n op) s' ∧ (op ≠ .clear → Grown s s') := by
  by_cases hc : op = .clear
  · subst hc
    simp only [step, Option.map_eq_some_iff, Prod.mk.injEq] at hs
    obtain ⟨s1, e, rfl, _⟩ := hs
    exact ⟨stuck_clear (stuck_work d h).1 e, fun h => absurd rfl h⟩
  · have ho : ∀ m : Nat, Orderly (alive n op) (List.replicate m (.done (.release : KvOp K V) 0 .unit)) →
        Orderly n (.done op d r :: List.replicate m (.done .release 0 .unit)) := by
      intro m hm
      cases op <;> simp_all [Orderly, alive]
    have hbal : ∀ m a : Nat, Orderly a (List.replicate m (Ev.done (.release : KvOp K V) 0 .unit)) ↔ m ≤ a := by
      intro m
      induction m with
      | zero => intro a; simp [Orderly]
      | succ m ih => intro a; simp only [List.replicate_succ, Orderly, ih]; omega
    obtain ⟨m, k1, k2, k3⟩ := stuck_step L h (ho _ ((hbal (alive n op) (alive n op)).2 le_rfl)) hs
    have := (hbal _ m).1 k3
    exact ⟨⟨k1.job, k1.next, lt_of_le_of_lt this k1.locks⟩, fun _ => k2⟩

/-- A map whose compactions are stopped: every call returns, without any assumption about compactions. -/
theorem stuck_isSome {L : Laws kd x} (hL : ∀ l, L.good l) {c : Cfg K V} {n : Nat} {s : Store kd} {g : Ghost K V} {op : KvOp K V}
    {d : Nat} (h : Inv L c s g) (hh : s.Hand) (hk : Stuck n s) (hr : op ≠ .reopen) : ∃ p, s.step c op d = some p := by
  have hw : Inv L c (work d s) g := inv_work d h
  have hhw : (work d s).Hand := hand_work d hh
  obtain ⟨hs, -⟩ := stuck_work d hk
  simp only [step]
  generalize work d s = w at *
  have hj : ∀ {s1 : Store kd}, Stuck n s1 → ∃ s2, s1.join = some s2 := by
    intro s1 h1
    have : (work 2 s1).job = none := (stuck_work 2 h1).1.job
    exact ⟨work 2 s1, by unfold join; simp [this]⟩
  have hset : ∀ {s1 : Store kd}, Stuck n s1 → ∃ s2, s1.settle = some s2 := by
    intro s1 h1
    unfold settle
    split
    · obtain ⟨s2, e⟩ := hj h1
      rw [e]
      simp only
      have h2 : Stuck n s2 := by
        unfold join at e
        simp only at e
        split at e
        · cases e
        · simp only [Option.some.injEq] at e
          subst e
          exact (stuck_work 2 h1).1
      exact ⟨_, (stuck_replace (s := { s2 with handle := false }) ⟨h2.job, h2.next, h2.locks⟩).1⟩
    · exact ⟨_, rfl⟩
  have hfl : ∃ s3, w.flush c = some s3 ∧ s3.tryReplace = some s3 := by
    have : ∃ s3, w.flush c = some s3 := by
      unfold flush
      cases hm : w.mem with
      | nil => exact hset hs
      | cons e l =>
        obtain ⟨s1, k1, _⟩ := inv_tryCompact hw hhw (by rw [hm]; simp) (hL _)
        rw [k1]
        exact hset ((stuck_tryCompact L hs).1 _ k1).1
    obtain ⟨s3, e⟩ := this
    exact ⟨s3, e, (stuck_replace ((stuck_flush L hs).1 _ e).1).1⟩
  obtain ⟨s3, h3, h4⟩ := hfl
  have h0 : w.tryReplace = some w := (stuck_replace hs).1
  cases op with
  | insert k v =>
    obtain ⟨s2, W', k1, _⟩ := inv_write hw hhw k (some v) (fun l _ => hL l)
    simp only [k1]; exact ⟨_, rfl⟩
  | remove k =>
    obtain ⟨s2, W', k1, _⟩ := inv_write hw hhw k none (fun l _ => hL l)
    simp only [k1]; exact ⟨_, rfl⟩
  | get k =>
    simp only
    cases hf : SL.find k w.mem with
    | some e => exact ⟨_, rfl⟩
    | none => simp only [h0]; exact ⟨_, rfl⟩
  | containsKey k =>
    simp only
    cases hf : SL.find k w.mem with
    | some e => exact ⟨_, rfl⟩
    | none => simp only [h0]; exact ⟨_, rfl⟩
  | lenHint =>
    obtain ⟨n, hn⟩ := hint_isSome (L.inv_ok hw.inv)
    simp only [h0, Option.bind_some, hn]; exact ⟨_, rfl⟩
  | min => simp only [h0]; exact ⟨_, rfl⟩
  | max => simp only [h0]; exact ⟨_, rfl⟩
  | release => exact ⟨_, rfl⟩
  | flush => simp only [h3]; exact ⟨_, rfl⟩
  | reopen => exact absurd rfl hr
  | clear =>
    have : ∃ s1, (if w.handle = true then ({ w with mem := [] } : Store kd).join else some { w with mem := [] }) = some s1
        ∧ (s1.disk.dirs.map (·.id)).Nodup := by
      split
      · obtain ⟨s1, e⟩ := hj (s1 := { w with mem := [] }) ⟨hs.job, hs.next, hs.locks⟩
        have hI : Inv L c { w with mem := [] } { g with cleared := True } := by
          refine ⟨by simp [SL.Sorted], by simp, by simp, hw.curTime, hw.inv, hw.sees, hw.ids, hw.job, hw.next, hw.locked,
            hw.files, hw.dirIds, hw.dirNew, hw.md, hw.time, by simp [memSize], by simp, hw.vals, by simp⟩
        exact ⟨s1, e, (inv_join hI e).1.dirIds⟩
      · exact ⟨_, rfl, hw.dirIds⟩
    obtain ⟨s1, e1, e2⟩ := this
    unfold clear
    simp only
    rw [e1]
    simp only
    obtain ⟨s2, e3⟩ := removeDirs_isSome (s := { s1 with handle := false, cur := kd.empty, next := none }) e2
      (fun i hi => hi)
    rw [e3]
    exact ⟨_, rfl⟩
  | _ => simp only [h3, Option.bind_some, h4]; exact ⟨_, rfl⟩

/-- A stopped map: the calls return, nothing is compacted, and no table goes away unless `clear` is called. -/
theorem stuck_run {L : Laws kd x} (hL : ∀ l, L.good l) {c : Cfg K V} : ∀ (ops : List (KvOp K V × Nat)) {n : Nat}
    {s : Store kd} {pre : List (KvOp K V)} {W : K → Option (Val V)} {m : Nat}, Hist L c s pre W m → Stuck n s →
    Balanced n (ops.map (·.1)) → ∃ s' rs, run c s ops = some (s', rs) ∧ s'.job = none ∧ s'.next = none ∧
      (.clear ∉ ops.map (·.1) → Grown s s')
  | [], n, s, pre, W, m, h, hk, _ => ⟨s, [], rfl, hk.job, hk.next, fun _ => .refl s⟩
  | (op, d) :: ops, n, s, pre, W, m, h, hk, hb => by
    obtain ⟨b1, b2, b3⟩ := balanced_cons hb
    obtain ⟨⟨s1, r⟩, e⟩ := stuck_isSome hL (d := d) h.inv h.hand hk b2
    obtain ⟨k1, k2⟩ := stuck_call L hk b1 b2 e
    obtain ⟨W1, m1, h1, _⟩ := hist_step h (fun l _ => hL l) e
    obtain ⟨s', rs, e', j1, j2, j3⟩ := stuck_run hL ops h1 k1 b3
    refine ⟨s', r :: rs, by simp only [run, e, e', Option.map_some], j1, j2, fun hc => ?_⟩
    simp only [List.map_cons, List.mem_cons, not_or] at hc
    exact (k2 (fun h => hc.1 h.symm)).trans (j3 hc.2)

/-- A history, a panic of the compaction thread, and further calls. -/
theorem panic_then {L : Laws kd x} (hL : ∀ l, L.good l) {c : Cfg K V} (pre : List (PEv K V)) (left : List (Table K V))
    {s : Store kd} {rs : List (KvRes K V)} (hr : runP c (new kd) (pre ++ [.panic left]) = some (s, rs))
    (ops : List (KvOp K V × Nat)) (hb : Balanced 0 (ops.map (·.1))) :
    ∃ s' rs, run c s ops = some (s', rs) ∧ s'.job = none ∧ s'.next = none ∧ (.clear ∉ ops.map (·.1) → Grown s s') := by
  obtain ⟨W, n, h⟩ := hist_reachP hL hr
  obtain ⟨s0, r1, r2, e1, e2, -⟩ := runP_append pre hr
  obtain ⟨hj, e2⟩ := runP_panic e2
  simp only [runP, Option.some.injEq, Prod.mk.injEq] at e2
  obtain ⟨rfl, -⟩ := e2
  obtain ⟨W0, n0, h0⟩ := hist_reachP hL e1
  exact stuck_run hL ops h (inv_panic h0.inv hj left).2.2 hb

/-! ### The tables pile up -/

omit [DecidableEq V] in
theorem tryCompact_more (L : Laws kd x) {c : Cfg K V} {n : Nat} {s s' : Store kd} (h : Stuck n s)
    (hs : s.tryCompact c = some s') : (kd.tabs s'.cur).length = (kd.tabs s.cur).length + 1 := by
  have hl : s.locks ≠ 0 := by have := h.locks; omega
  unfold tryCompact at hs
  cases hb : build c.sizes (c.block s.mem.length) s.mem s.fresh with
  | none => rw [hb] at hs; cases hs
  | some t =>
    rw [hb] at hs
    simp only at hs
    unfold start at hs
    rw [if_pos (.inr hl)] at hs
    simp only [Option.some.injEq] at hs
    subst hs
    have h1 := (L.tabs_push s.cur t).length_eq
    rw [List.length_cons] at h1
    exact h1

omit [DecidableEq V] in
theorem settle_same {n : Nat} {s s' : Store kd} (h : Stuck n s) (hs : s.settle = some s') : s'.cur = s.cur := by
  unfold settle at hs
  split at hs
  · cases hj : s.join with
    | none => rw [hj] at hs; cases hs
    | some s1 =>
      rw [hj] at hs
      simp only at hs
      unfold join at hj
      simp only at hj
      split at hj
      · cases hj
      · simp only [Option.some.injEq] at hj
        subst hj
        have h1 := (stuck_work 2 h).1
        rw [(stuck_replace (s := { work 2 s with handle := false }) ⟨h1.job, h1.next, h1.locks⟩).1] at hs
        simp only [Option.some.injEq] at hs
        subst hs
        exact (work_frame 2 s).2.2.1
  · simp only [Option.some.injEq] at hs
    subst hs; rfl

/-- The calls `insert(k, v)` and `flush()`, for each of the pairs. -/
def rounds (l : List (K × V)) : List (KvOp K V × Nat) := l.flatMap fun e => [(.insert e.1 e.2, 0), (.flush, 0)]

theorem round_more (L : Laws kd x) {c : Cfg K V} {n : Nat} {s s1 s2 : Store kd} {k : K} {v : V} {r1 r2 : KvRes K V}
    (h : Stuck n s) (e1 : s.step c (.insert k v) 0 = some (s1, r1)) (e2 : s1.step c .flush 0 = some (s2, r2)) :
    (kd.tabs s.cur).length + 1 ≤ (kd.tabs s2.cur).length := by
  simp only [step, work, Option.map_eq_some_iff, Prod.mk.injEq] at e1 e2
  obtain ⟨a, e1, rfl, -⟩ := e1
  obtain ⟨b, e2, rfl, -⟩ := e2
  have ha := ((stuck_write L h k (some v)).1 a e1).1
  have hfl : (kd.tabs a.cur).length + (if a.mem = [] then 0 else 1) ≤ (kd.tabs b.cur).length := by
    unfold flush at e2
    cases hm : a.mem with
    | nil =>
      rw [hm] at e2
      simp only at e2
      rw [settle_same ha e2]; simp
    | cons e l =>
      rw [hm] at e2
      simp only at e2
      cases ht : a.tryCompact c with
      | none => rw [ht] at e2; cases e2
      | some a1 =>
        rw [ht] at e2
        simp only at e2
        rw [settle_same ((stuck_tryCompact L ha).1 _ ht).1 e2, tryCompact_more L ha ht]
        simp
  have hwr : (kd.tabs s.cur).length + 1 ≤ (kd.tabs a.cur).length + (if a.mem = [] then 0 else 1) := by
    cases hu : s.usageAfter c k ⟨some v, s.clock⟩ with
    | none =>
      unfold write at e1
      rw [tick_eq] at e1
      have hu' : usageAfter c ({ s with
        clock := s.clock + 1, disk := { s.disk with time := some (s.clock + 1) },
        trace := s.trace ++ [{ s.disk with time := some (s.clock + 1) }] } : Store kd) k ⟨some v, s.clock⟩ = none := hu
      simp only [hu'] at e1
      simp at e1
    | some u =>
      rw [write_eq hu] at e1
      split at e1
      · have := tryCompact_more L (n := n) (s := s.noted k (some v) u) ⟨h.job, h.next, h.locks⟩ e1
        have h2 : (kd.tabs (s.noted k (some v) u).cur).length = (kd.tabs s.cur).length := rfl
        omega
      · simp only [Option.some.injEq] at e1
        subst e1
        have hne : (s.noted k (some v) u).mem ≠ [] := by
          show SL.ins k ⟨some v, s.clock⟩ s.mem ≠ []
          intro he
          have : (k, (⟨some v, s.clock⟩ : Val V)) ∈ SL.ins k ⟨some v, s.clock⟩ s.mem := mem_ins_key
          rw [he] at this; simp at this
        rw [if_neg hne]
        exact le_rfl
  omega

theorem rounds_more (L : Laws kd x) {c : Cfg K V} : ∀ (l : List (K × V)) {n : Nat} {s s' : Store kd} {rs : List (KvRes K V)},
    Stuck n s → run c s (rounds l) = some (s', rs) → (kd.tabs s.cur).length + l.length ≤ (kd.tabs s'.cur).length
  | [], n, s, s', rs, h, hr => by
    simp only [rounds, List.flatMap_nil, run, Option.some.injEq, Prod.mk.injEq] at hr
    rw [hr.1]; simp
  | (k, v) :: l, n, s, s', rs, h, hr => by
    have hr' : run c s ((.insert k v, 0) :: (.flush, 0) :: rounds l) = some (s', rs) := hr
    obtain ⟨s1, r1, rs1, e1, hr1, -⟩ := run_cons hr'
    obtain ⟨s2, r2, rs2, e2, hr2, -⟩ := run_cons hr1
    have h1 := (stuck_call L h (by simp) (by simp) e1).1
    have h2 := (stuck_call L h1 (by simp) (by simp) e2).1
    have ih := rounds_more L l h2 hr2
    have := round_more L h e1 e2
    simp only [List.length_cons]
    omega

omit [LinearOrder K] [DecidableEq V] in
theorem balanced_rounds (l : List (K × V)) (n : Nat) : Balanced n ((rounds l).map (·.1)) := by
  induction l with
  | nil => trivial
  | cons e l ih => exact ih

theorem pile {L : Laws kd x} (hL : ∀ l, L.good l) {c : Cfg K V} (pre : List (PEv K V)) (left : List (Table K V))
    {s : Store kd} {rs : List (KvRes K V)} (hr : runP c (new kd) (pre ++ [.panic left]) = some (s, rs)) (l : List (K × V)) :
    ∃ s' rs, run c s (rounds l) = some (s', rs) ∧ l.length ≤ (kd.tabs s'.cur).length := by
  obtain ⟨s', rs', e, -⟩ := panic_then hL pre left hr (rounds l) (balanced_rounds l 0)
  obtain ⟨s0, r1, r2, e1, e2, -⟩ := runP_append pre hr
  obtain ⟨hj, e2⟩ := runP_panic e2
  simp only [runP, Option.some.injEq, Prod.mk.injEq] at e2
  obtain ⟨rfl, -⟩ := e2
  obtain ⟨W0, n0, h0⟩ := hist_reachP hL e1
  have := rounds_more L l (inv_panic h0.inv hj left).2.2 e
  exact ⟨s', rs', e, by omega⟩

end Store

open Store

variable [LinearOrder K] [DecidableEq V]

/-! ### C87 -/

/-- C87 with `LeveledStrategy`, and any arithmetic for the limits of the levels (`lim` is `none` where computing the
limit panics): after every history of calls and panics of the compaction thread, `get` returns the value most recently
inserted, and `get`, `contains_key`, `iter`, `len` and `is_empty` are exact. -/
theorem C87_leveled (c : Cfg K V) (p : Leveled.Params) (lim : Nat → Option Nat) (n : Leveled.Meta K V → Nat)
    (es : List (PEv K V)) {s : Store (Leveled.kindR c p lim n)} {rs : List (KvRes K V)}
    (hr : runP c (new (Leveled.kindR c p lim n)) es = some (s, rs)) :
    (∀ k d, ∃ s', s.step c (.get k) d = some (s', .val (contents (calls es) k))) ∧
    ∀ (op : KvOp K V) d s' r, op.Reads → s.step c op d = some (s', r) → op.Answer (contents (calls es)) r :=
  reads_panic (L := Leveled.lawsR c p lim n) (fun _ => trivial) hr

/-- C87 with `SizeTieredStrategy`, as far as C35 and C37 hold without panics: after every history of calls and panics of
the compaction thread, `get` returns, a live key has its latest value, and any value found was inserted for its key; and
`iter` yields every live pair.  Missing: that no removed key is found. -/
theorem C87_sizeTiered_partial (c : Cfg K V) (p : SizeTiered.Params) (es : List (PEv K V))
    {s : Store (SizeTiered.kind c p)} {rs : List (KvRes K V)}
    (hr : runP c (new (SizeTiered.kind c p)) es = some (s, rs)) :
    (∀ k d, ∃ s' o, s.step c (.get k) d = some (s', .val o) ∧ (∀ v, contents (calls es) k = some v → o = some v) ∧
      ∀ v, o = some v → .insert k v ∈ calls es) ∧
    ∀ d s' r, s.step c .iter d = some (s', r) → ∃ l, r = .list l ∧ l.Pairwise (fun a b => a.1 < b.1) ∧
      (∀ k v, contents (calls es) k = some v → (k, v) ∈ l) ∧ ∀ k v, (k, v) ∈ l → .insert k v ∈ calls es := by
  have hL : ∀ l, (SizeTiered.laws c p).good l := fun _ => trivial
  obtain ⟨W, n, h⟩ := hist_reachP hL hr
  constructor
  · intro k d
    obtain ⟨⟨s1, o, e1⟩, _⟩ := get_returns h.inv k d
    obtain ⟨W', n', k1, k4⟩ := hist_step h (fun l _ => hL l) e1
    obtain ⟨a1, a2⟩ := get_weak k1.inv k
    have ho : o = s1.found k := by
      have : KvRes.val o = KvRes.val (s1.found k) := k4
      simpa using this
    have hc : Lsm.look s1.mem (ghost (calls es ++ [.get k]) W').W = contents (calls es) :=
      k1.look.trans (contents_snoc _ _)
    refine ⟨s1, o, e1, fun v hv => ?_, fun v hv => ?_⟩
    · rw [ho]; exact a1 v ((congrFun hc k).trans hv)
    · have := a2 v (ho ▸ hv)
      simpa [ghost] using this
  · intro d s' r hs
    obtain ⟨W', n', k1, k4⟩ := hist_step h (fun l _ => hL l) hs
    obtain ⟨a1, a2, a3⟩ := items_weak k1.inv k4.1
    have hc : Lsm.look s'.mem (ghost (calls es ++ [.iter]) W').W = contents (calls es) :=
      k1.look.trans (contents_snoc _ _)
    refine ⟨_, k4.2, a1, fun k v hv => a2 k v ?_, fun k v hv => ?_⟩
    · exact (congrFun hc k).trans hv
    · have := a3 k v hv
      simpa [ghost] using this

/-- C87, calls after a panic return: once the compaction thread has panicked, and until the map is opened again, every
call returns, even if compactions would not end.  But no compaction is ever started again: none runs after any of these
calls, and no table goes away unless the map is cleared. -/
theorem C87_stuck (c : Cfg K V) (p : Leveled.Params) (lim : Nat → Option Nat) (n : Leveled.Meta K V → Nat)
    (q : SizeTiered.Params) (pre : List (PEv K V)) (left : List (Table K V)) (ops : List (KvOp K V × Nat))
    (hb : Balanced 0 (ops.map (·.1))) :
    (∀ s rs, runP c (new (Leveled.kindR c p lim n)) (pre ++ [.panic left]) = some (s, rs) → ∃ s' rs',
      run c s ops = some (s', rs') ∧ s'.job = none ∧ s'.next = none ∧ (.clear ∉ ops.map (·.1) →
        ∀ t ∈ (Leveled.kindR c p lim n).tabs s.cur, t ∈ (Leveled.kindR c p lim n).tabs s'.cur)) ∧
    ∀ s rs, runP c (new (SizeTiered.kind c q)) (pre ++ [.panic left]) = some (s, rs) → ∃ s' rs',
      run c s ops = some (s', rs') ∧ s'.job = none ∧ s'.next = none ∧ (.clear ∉ ops.map (·.1) →
        ∀ t ∈ (SizeTiered.kind c q).tabs s.cur, t ∈ (SizeTiered.kind c q).tabs s'.cur) :=
  ⟨fun _ _ h => panic_then (c := c) (L := Leveled.lawsR c p lim n) (fun _ => trivial) pre left h ops hb,
    fun _ _ h => panic_then (c := c) (L := SizeTiered.laws c q) (fun _ => trivial) pre left h ops hb⟩

/-- C87 does not hold as far as the map should recover by itself: after a panic of the compaction thread, and whatever
the parameters are, the number of tables has no bound, as `insert` and `flush` in turn leave one table for each. -/
theorem C87_violated (c : Cfg K V) (p : Leveled.Params) (lim : Nat → Option Nat) (n : Leveled.Meta K V → Nat)
    (q : SizeTiered.Params) (pre : List (PEv K V)) (left : List (Table K V)) (l : List (K × V)) :
    (∀ s rs, runP c (new (Leveled.kindR c p lim n)) (pre ++ [.panic left]) = some (s, rs) → ∃ s' rs',
      run c s (rounds l) = some (s', rs') ∧ l.length ≤ ((Leveled.kindR c p lim n).tabs s'.cur).length) ∧
    ∀ s rs, runP c (new (SizeTiered.kind c q)) (pre ++ [.panic left]) = some (s, rs) → ∃ s' rs',
      run c s (rounds l) = some (s', rs') ∧ l.length ≤ ((SizeTiered.kind c q).tabs s'.cur).length :=
  ⟨fun _ _ h => pile (c := c) (L := Leveled.lawsR c p lim n) (fun _ => trivial) pre left h l,
    fun _ _ h => pile (c := c) (L := SizeTiered.laws c q) (fun _ => trivial) pre left h l⟩

namespace Example

/-- A table that a panicking thread leaves behind. -/
def junk : List (Table Nat Nat) := (build cfg.sizes 1 [(9, ⟨some 90, 0⟩)] 0).toList

/-- A thread that has written a table of the key 9 panics in the middle of a history, and the map is used further. -/
def events : List (PEv Nat Nat) :=
  [.call (.insert 1 10) 0, .call (.insert 2 20) 0, .call (.insert 3 30) 0, .call (.remove 2) 0, .call (.insert 4 40) 0,
    .call (.insert 1 11) 0, .call (.insert 5 50) 0, .call (.insert 6 60) 0, .call (.insert 2 22) 0, .panic junk,
    .call .flush 0, .call (.insert 5 51) 0, .call (.remove 3) 0]

end Example

/-- The hypotheses of the theorems above, with both strategies: there are such events, before a restart and after it. -/
example : Example.junk.length = 1 ∧
    (runP Example.small (new (Leveled.kindR Example.small Example.leveled (Leveled.limitC Example.leveled) fun _ => 10))
      (Example.events ++ [.call .iter 0, .call (.insert 8 80) 0, .call .reopen 0, .call (.insert 9 9) 0, .call .iter 0])).map
        (fun q => q.2.drop 12) =
      some [.list [(1, 11), (2, 22), (4, 40), (5, 51), (6, 60)], .unit, .unit, .unit,
        .list [(1, 11), (2, 22), (4, 40), (5, 51), (6, 60), (8, 80), (9, 9)]] ∧
    (runP Example.small (new (SizeTiered.kind Example.small Example.tiered))
      (Example.events ++ [.call .iter 0, .call (.insert 8 80) 0, .call .reopen 0, .call (.insert 9 9) 0, .call .iter 0])).map
        (fun q => q.2.drop 12) =
      some [.list [(1, 11), (2, 22), (4, 40), (5, 51), (6, 60)], .unit, .unit, .unit,
        .list [(1, 11), (2, 22), (4, 40), (5, 51), (6, 60), (8, 80), (9, 9)]] := by
  refine ⟨by decide +kernel, by decide +kernel, by decide +kernel⟩

/-- The limits of `C45_overflow_violated`, with overflow checks: the compaction of the three entries panics, and the map
still answers; and 5 rounds of `insert` and `flush` leave 5 tables more. -/
example : (runP Example.small (new (Leveled.kindR Example.small Example.huge (Leveled.limitC Example.huge) fun _ => 10))
      (Example.three.map (fun o => .call o.1 o.2) ++ [.panic []] ++
        ((rounds [(1, 1), (2, 2), (3, 3), (4, 4), (5, 5)]).map fun o => .call o.1 o.2) ++ [.call .len 0])).map
        (fun q => (q.1.cur.l0.length, q.2.getLast?)) = some (6, some (.num 5)) ∧
    Balanced 0 ((rounds [(1, 1), (2, 2), (3, 3), (4, 4), (5, 5)]).map (·.1) ++ [.hold, .clear, .release, (.len : KvOp Nat Nat)]) := by
  refine ⟨by decide +kernel, ?_⟩
  simp [rounds, Balanced]

end Verif.Lsm
