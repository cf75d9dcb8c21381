/-
The properties of the LSM map that concern its files, its memory and its levels: C40, C41, C44 and C45.
-/
import Verif.Lsm.Props

namespace Verif.Lsm

open Verif Verif.Spec Store

variable {K V : Type} [LinearOrder K] [DecidableEq V]

/-! ### C40: restarts -/

/-- The calls that answer from the contents (all that do not change them, but for `hold` and `release`). -/
def Asks : KvOp K V → Prop
  | .get _ | .containsKey _ | .lenHint | .len | .isEmpty | .min | .max | .iter => True
  | _ => False

/-- Nothing is in memory, running or waiting to be taken over. -/
structure Quiet {kd : Kind K V} (s : Store kd) : Prop where
  mem : s.mem = []
  handle : s.handle = false
  job : s.job = none
  next : s.next = none

omit [LinearOrder K] [DecidableEq V] in
theorem work_quiet {kd : Kind K V} : ∀ (d : Nat) {s : Store kd}, s.job = none → ∃ b, work d s = { s with busy := b }
  | 0, s, _ => ⟨s.busy, rfl⟩
  | d + 1, s, h => by
    simp only [work]
    have : s.deliver = { s with busy := false } := by unfold deliver; rw [h]
    rw [this]
    obtain ⟨b, hb⟩ := work_quiet d (s := { s with busy := false }) h
    exact ⟨b, hb⟩

theorem quiet_step {kd : Kind K V} (c : Cfg K V) {s1 s2 : Store kd} (h1 : Quiet s1) (h2 : Quiet s2) (hc : s1.cur = s2.cur)
    {op : KvOp K V} (hop : Asks op) (d1 d2 : Nat) : (s1.step c op d1).map (·.2) = (s2.step c op d2).map (·.2) := by
  obtain ⟨b1, e1⟩ := work_quiet d1 h1.job
  obtain ⟨b2, e2⟩ := work_quiet d2 h2.job
  unfold step
  rw [e1, e2]
  cases op <;> first
    | exact False.elim hop
    | simp [flush, settle, tryReplace, items, h1.mem, h2.mem, h1.handle, h2.handle, h1.next, h2.next, hc, SL.find_nil,
        Option.map_map, Function.comp_def]

/-- After `flush` nothing is left to do. -/
theorem quiet_flush {kd : Kind K V} {x : Bool} {L : Laws kd x} {c : Cfg K V} {s s' : Store kd} {g : Ghost K V}
    (h : Store.Inv L c s g) (hh : s.Hand) (hg : s.mem ≠ [] → L.good s.mem) (hs : s.flush c = some s') : Quiet s' := by
  obtain ⟨k1, k2, k3, k4, k5, k6⟩ := inv_flush h hh hg hs
  refine ⟨k4, ?_, k2, k3⟩
  have key : ∀ {a b : Store kd} {g : Ghost K V}, Store.Inv L c a g → a.settle = some b → b.handle = false := by
    intro a b g ha hb
    unfold settle at hb
    split at hb
    · cases hj : a.join with
      | none => rw [hj] at hb; simp at hb
      | some a1 =>
        rw [hj] at hb
        simp only at hb
        have h1 := (inv_join ha hj).1
        have h1' : Store.Inv L c { a1 with handle := false } g :=
          ⟨h1.memSorted, h1.memTime, h1.memNew, h1.curTime, h1.inv, h1.sees, h1.ids, h1.job, h1.next, h1.locked, h1.files,
            h1.dirIds, h1.dirNew, h1.md, h1.time, h1.used, h1.usedEq, h1.vals, h1.memVals⟩
        obtain ⟨s2, j1, _, _, _, _, _, _, j8, _⟩ := inv_tryReplace h1'
        rw [hb] at j1
        simp only [Option.some.injEq] at j1
        subst j1
        exact j8
    · rename_i hc
      simp only [Option.some.injEq] at hb
      subst hb
      simpa using hc
  unfold flush at hs
  cases hm : s.mem with
  | nil => rw [hm] at hs; exact key h hs
  | cons e l =>
    have hne : s.mem ≠ [] := by rw [hm]; simp
    obtain ⟨s1, j1, j2, _⟩ := inv_tryCompact h hh hne (hg hne)
    rw [hm, j1] at hs
    exact key j2 hs

/-- Something was written. -/
def Writes (ops : List (KvOp K V)) : Prop := ∃ op ∈ ops, (∃ k v, op = .insert k v) ∨ ∃ k, op = .remove k

theorem clock_run {kd : Kind K V} {x : Bool} {L : Laws kd x} {c : Cfg K V} : ∀ (ops : List (KvOp K V × Nat))
    {s s' : Store kd} {g : Ghost K V} {rs : List (KvRes K V)}, Store.Inv L c s g → s.Hand → GoodRun L.good c s ops →
    run c s ops = some (s', rs) → s.clock ≤ s'.clock ∧ (Writes (ops.map (·.1)) → s'.clock ≠ 0)
  | [], s, s', g, rs, h, hh, _, hr => by
    simp only [run, Option.some.injEq, Prod.mk.injEq] at hr
    obtain ⟨rfl, rfl⟩ := hr
    exact ⟨le_rfl, fun hw => by simp [Writes] at hw⟩
  | (op, d) :: ops, s, s', g, rs, h, hh, hg, hr => by
    obtain ⟨s1, r, rs', h1, h2, rfl⟩ := run_cons hr
    obtain ⟨W1, k1, k2, k3, k4, k5, _⟩ := inv_step h hh hg.1 h1
    obtain ⟨j1, j2⟩ := clock_run ops k1 k2 (hg.2 _ _ h1) h2
    refine ⟨k5.trans j1, fun hw => ?_⟩
    obtain ⟨o, ho, hw⟩ := hw
    simp only [List.map_cons, List.mem_cons] at ho
    rcases ho with rfl | ho
    · have := clock_step h hh hg.1 h1 hw
      omega
    · exact j2 ⟨o, ho, hw⟩

theorem reopen_reach {kd : Kind K V} {x : Bool} {L : Laws kd x} (hL : ∀ l, L.good l) {c : Cfg K V}
    {ops : List (KvOp K V × Nat)} {s s1 : Store kd} {rs : List (KvRes K V)} {r : KvRes K V} {d : Nat}
    (hr : run c (new kd) ops = some (s, rs)) (hs : s.step c .flush d = some (s1, r)) :
    (∀ fresh tr s2, openDir fresh tr s1.disk = some s2 → ∀ op, Asks op → ∀ d1 d2,
      (s2.step c op d2).map (·.2) = (s1.step c op d1).map (·.2)) ∧
    (Writes (ops.map (·.1)) → ∀ fresh tr, ∃ s2, openDir fresh tr s1.disk = some s2) := by
  have hg := goodRun_true (kd := kd) (good := L.good) (c := c) hL ops (new _)
  obtain ⟨W, h1, h2, h3⟩ := inv_reach hg hr
  obtain ⟨W', k1, k2, k3, k4, k5, _⟩ := inv_step h1 h2 (fun l _ => hL l) hs
  have hq : Quiet s1 := by
    simp only [step, Option.map_eq_some_iff, Prod.mk.injEq] at hs
    obtain ⟨s2, e2, rfl, rfl⟩ := hs
    exact quiet_flush (inv_work d h1) (hand_work d h2) (fun _ => hL _) e2
  have hall : ∀ t ∈ kd.tabs s1.disk.md, s1.disk.dirs.find? (fun u => u.id = t.id) = some t := fun t ht =>
    find_id k1.dirIds (k1.disk.files t ht)
  constructor
  · intro fresh tr s2 ho op hop d1 d2
    unfold openDir at ho
    cases ht : s1.disk.time with
    | none => rw [ht] at ho; simp at ho
    | some n =>
      rw [ht] at ho
      simp only [if_pos hall, Option.some.injEq] at ho
      subst ho
      exact quiet_step c ⟨rfl, rfl, rfl, rfl⟩ hq k1.md hop d2 d1
  · intro hw fresh tr
    have hc := (clock_run ops (inv_new L c) hand_new hg hr).2 hw
    unfold openDir
    rcases k1.time with h | ⟨h, h'⟩
    · rw [h]
      simp only [if_pos hall]
      exact ⟨_, rfl⟩
    · omega

/-- C40 with `SizeTieredStrategy`: if something was ever written, then after `flush` the directory can be opened again,
and every question to the opened map has the same answer as to the old one.  (That later writes win over earlier
ones is part of C35: histories may contain restarts.)  Missing: opening a directory that was never written. -/
theorem C40_sizeTiered_partial (c : Cfg K V) (p : SizeTiered.Params) (ops : List (KvOp K V × Nat))
    {s s1 : Store (SizeTiered.kind c p)} {rs : List (KvRes K V)} {r : KvRes K V} {d : Nat}
    (hr : run c (new (SizeTiered.kind c p)) ops = some (s, rs)) (hs : s.step c .flush d = some (s1, r))
    (hw : Writes (ops.map (·.1))) (fresh : Nat) :
    ∃ s2, openDir fresh s1.trace s1.disk = some s2 ∧ ∀ op, Asks op → ∀ d1 d2,
      (s2.step c op d2).map (·.2) = (s1.step c op d1).map (·.2) := by
  obtain ⟨h1, h2⟩ := reopen_reach (L := SizeTiered.laws c p) (fun _ => trivial) hr hs
  obtain ⟨s2, e⟩ := h2 hw fresh s1.trace
  exact ⟨s2, e, h1 _ _ _ e⟩

/-- C40 with `LeveledStrategy`, the same. -/
theorem C40_leveled_partial (c : Cfg K V) (p : Leveled.Params) (ops : List (KvOp K V × Nat))
    {s s1 : Store (Leveled.kind c p)} {rs : List (KvRes K V)} {r : KvRes K V} {d : Nat}
    (hr : run c (new (Leveled.kind c p)) ops = some (s, rs)) (hs : s.step c .flush d = some (s1, r))
    (hw : Writes (ops.map (·.1))) (fresh : Nat) :
    ∃ s2, openDir fresh s1.trace s1.disk = some s2 ∧ ∀ op, Asks op → ∀ d1 d2,
      (s2.step c op d2).map (·.2) = (s1.step c op d1).map (·.2) := by
  obtain ⟨h1, h2⟩ := reopen_reach (L := Leveled.laws c p) (fun _ => trivial) hr hs
  obtain ⟨s2, e⟩ := h2 hw fresh s1.trace
  exact ⟨s2, e, h1 _ _ _ e⟩

/-- C40 with `LeveledStrategy`: after a restart, the contents are those before, and writes after it win over writes
before it. -/
theorem C40_contents (c : Cfg K V) (p : Leveled.Params) (ops ops' : List (KvOp K V × Nat)) (d : Nat)
    {s : Store (Leveled.kind c p)} {rs : List (KvRes K V)}
    (hr : run c (new (Leveled.kind c p)) (ops ++ (.reopen, d) :: ops') = some (s, rs)) (k : K) (e : Nat) :
    ∃ s', s.step c (.get k) e = some (s', .val (contents (ops.map (·.1) ++ ops'.map (·.1)) k)) := by
  have h := (C36_get c p _ hr k e).1
  have hc : contents ((ops ++ (.reopen, d) :: ops').map (·.1)) = contents (ops.map (·.1) ++ ops'.map (·.1)) := by
    simp only [contents, List.map_append, List.map_cons, List.foldl_append, List.foldl_cons]
    rfl
  rwa [hc] at h

/-- C40: a new map that was never written cannot be opened again, with any strategy, configuration and timing. -/
theorem C40_violated (kd : Kind K V) (c : Cfg K V) (d : Nat) :
    (∃ s, (new kd).step c .flush d = some (s, .unit) ∧ ∀ fresh tr, openDir fresh tr s.disk = none) ∧
    (new kd).step c .reopen d = none := by
  obtain ⟨b, hb⟩ := work_quiet d (s := new kd) rfl
  have hf : flush c (work d (new kd)) = some { new kd with busy := b } := by
    rw [hb]; simp [flush, settle, new]
  have ho : ∀ fresh tr, openDir fresh tr (new kd).disk = none := by intro fresh tr; simp [openDir, new]
  refine ⟨⟨{ new kd with busy := b }, ?_, ho⟩, ?_⟩
  · simp only [step, hf, Option.map_some]
  · simp only [step, hf, Option.bind_some]
    rw [ho]; rfl

example : (run Example.small (new (SizeTiered.kind Example.small Example.tiered)) (Example.ops ++ [(.flush, 1)])).isSome = true ∧
    (run Example.small (new (Leveled.kind Example.small Example.leveled)) (Example.ops ++ [(.flush, 1)])).isSome = true ∧
    Writes (Example.ops.map (·.1)) :=
  ⟨by decide +kernel, by decide +kernel, .insert 1 10, by simp [Example.ops], .inl ⟨1, 10, rfl⟩⟩

/-! ### C41: crashes -/

/-- C41: taking over a compaction deletes the directories of the old tables before the metadata stops naming them; a
crash in between leaves a directory that cannot be opened, although everything in it was flushed. -/
theorem C41_violated :
    (run Example.cfg (new (SizeTiered.kind Example.cfg Example.tiered))
      [(.insert 1 10, 0), (.flush, 0), (.insert 2 20, 0), (.flush, 0), (.insert 3 30, 0), (.flush, 0)]).map
      (fun q => q.1.trace.any fun e => e.time.isSome && (openDir 100 [] e).isNone) = some true ∧
    (run Example.cfg (new (Leveled.kind Example.cfg Example.leveled))
      [(.insert 1 10, 0), (.flush, 0), (.insert 2 20, 0), (.flush, 0)]).map
      (fun q => q.1.trace.any fun e => e.time.isSome && (openDir 100 [] e).isNone) = some true := by
  constructor <;> decide +kernel

omit [LinearOrder K] [DecidableEq V] in
theorem steps_get {kd : Kind K V} {Q : Disk kd → Disk kd → Prop} : ∀ {tr : List (Disk kd)} {d a e : Disk kd} {i : Nat},
    Steps Q d tr → (d :: tr)[i]? = some a → (d :: tr)[i + 1]? = some e → Q a e
  | [], d, a, e, i, _, _, h2 => by simp at h2
  | b :: tr, d, a, e, 0, h, h1, h2 => by
    simp only [List.getElem?_cons_zero, Option.some.injEq, Nat.zero_add, List.getElem?_cons_succ] at h1 h2
    subst h1; subst h2
    exact h.1
  | b :: tr, d, a, e, i + 1, h, h1, h2 => by
    rw [List.getElem?_cons_succ] at h1 h2
    exact steps_get h.2 h1 h2

/-- A crash point during the call that leads from `s` to `s'`: the last write of the call before it changed the files
from `a` to `e`. -/
structure Crash {kd : Kind K V} (s s' : Store kd) (a e : Disk kd) : Prop where
  ex : ∃ (tr : List (Disk kd)) (i : Nat), s'.trace = s.trace ++ tr ∧ (s.disk :: tr)[i]? = some a ∧
    (s.disk :: tr)[i + 1]? = some e

/-- A crash point during a call whose last write to the files deleted no directory. -/
structure CrashAt {kd : Kind K V} (s s' : Store kd) (e : Disk kd) : Prop where
  ex : ∃ a, Crash s s' a e ∧ ∀ t ∈ a.dirs, t ∈ e.dirs

/-- The files `f` are `e`, but for table directories that have been created or deleted in addition (what the thread was
about to write, or what was about to be deleted); names are unique. -/
structure Found {kd : Kind K V} (e f : Disk kd) : Prop where
  md : f.md = e.md
  time : f.time = e.time
  ids : (f.dirs.map (·.id)).Nodup

omit [DecidableEq V] in
theorem ok_found {kd : Kind K V} {x : Bool} {L : Laws kd x} {ins : K → V → Prop} {d f : Disk kd} {W : K → Option (Val V)}
    (h : DiskOk L ins d W) (hf : Found d f) (ha : ∀ t ∈ kd.tabs f.md, t ∈ f.dirs) : DiskOk L ins f W :=
  ⟨hf.md ▸ h.inv, hf.md ▸ h.sees, hf.md ▸ h.ids, ha, hf.ids, hf.md ▸ hf.time ▸ h.time, hf.md ▸ hf.time ▸ h.none,
    hf.md ▸ h.vals⟩

theorem open_files {kd : Kind K V} {fresh : Nat} {tr : List (Disk kd)} {f : Disk kd} {s : Store kd}
    (h : openDir fresh tr f = some s) : f.time ≠ none ∧ ∀ t ∈ kd.tabs f.md, t ∈ f.dirs := by
  unfold openDir at h
  split at h
  · simp at h
  · rename_i n hn
    split at h
    · rename_i ha
      exact ⟨by simp [hn], fun t ht => List.mem_of_find?_eq_some (ha t ht)⟩
    · simp at h

/-- What had reached the tables when the files held the writes `W`: the contents after the first `n` calls, and the
calls that settle everything are among these. -/
structure Upto (ops : List (KvOp K V × Nat)) (op : KvOp K V) (W : K → Option (Val V)) (n : Nat) : Prop where
  le : n ≤ ops.length + 1
  settled : ∀ (i : Nat) (o : KvOp K V), (ops.map (·.1))[i]? = some o → o.Settles → i < n
  base : look [] W = contents ((ops.map (·.1) ++ [op]).take n)

theorem crash_reach {kd : Kind K V} {x : Bool} {L : Laws kd x} (hL : ∀ l, L.good l) {c : Cfg K V}
    {ops : List (KvOp K V × Nat)} {s s' : Store kd} {rs : List (KvRes K V)} {op : KvOp K V} {r : KvRes K V} {d : Nat}
    (hr : run c (new kd) ops = some (s, rs)) (hs : s.step c op d = some (s', r)) {a e : Disk kd}
    (he : Crash s s' a e) :
    ∃ W n, Wr (op ≠ .clear) L (fun a y => .insert a y ∈ ops.map (·.1) ++ [op]) W a e ∧ Upto ops op W n := by
  have hg := goodRun_true (kd := kd) (good := L.good) (c := c) hL ops (new _)
  obtain ⟨W, n, h⟩ := hist_reach hg hr
  obtain ⟨tr, i, e1, e2, e3⟩ := he
  have hins : ∀ k y, (Ghost.after (ghost (ops.map (·.1)) W) op W).ins k y → .insert k y ∈ ops.map (·.1) ++ [op] := by
    rintro k y (h | h)
    · exact List.mem_append_left _ h
    · rw [h]; exact List.mem_append_right _ (by simp)
  have hle : n ≤ ops.length := by simpa using h.le
  have key := traced_step (nm := op ≠ .clear) (Q := fun a e => ∃ W n, Wr (op ≠ .clear) L
      (fun a y => .insert a y ∈ ops.map (·.1) ++ [op]) W a e ∧ Upto ops op W n) (g := ghost (ops.map (·.1)) W)
      (op := op) (s := s) (s' := s') (L := L) (c := c) (d := d) (r := r)
  obtain ⟨tr', t1, t2, t3⟩ := key id (fun a e hd => ⟨W, n, hd.mono hins, by omega, h.settled, by
      rw [List.take_append_of_le_length h.le]; exact h.base⟩) (fun a e W' hd hl => by
      refine ⟨W', ops.length + 1, hd.mono hins, le_rfl, ?_, ?_⟩
      · intro i o hi _
        have := (List.getElem?_eq_some_iff.1 hi).1
        rw [List.length_map] at this
        omega
      · rw [hl, List.take_of_length_le (by simp), contents_snoc, ← h.look]; rfl) h.inv h.hand (fun l _ => hL l) hs
  have htr : tr' = tr := by rw [e1] at t1; exact (List.append_cancel_left t1).symm
  subst htr
  exact steps_get t2 e2 e3

theorem done_reach {kd : Kind K V} {x : Bool} {L : Laws kd x} (hL : ∀ l, L.good l) {c : Cfg K V}
    {ops : List (KvOp K V × Nat)} {s s' : Store kd} {rs : List (KvRes K V)} {op : KvOp K V} {r : KvRes K V} {d : Nat}
    (hr : run c (new kd) ops = some (s, rs)) (hs : s.step c op d = some (s', r)) :
    ∃ W n, DiskOk L (fun a y => .insert a y ∈ ops.map (·.1) ++ [op]) s'.disk W ∧ Upto ops op W n := by
  have hg := goodRun_true (kd := kd) (good := L.good) (c := c) hL ops (new _)
  obtain ⟨W, n, h⟩ := hist_reach hg hr
  obtain ⟨W', n', h', _⟩ := hist_step h (fun l _ => hL l) hs
  refine ⟨W', n', h'.inv.disk, by simpa using h'.le, fun i o hi ho => ?_, h'.base⟩
  have hlt := (List.getElem?_eq_some_iff.1 hi).1
  exact h'.settled i o (by rw [List.getElem?_append_left hlt]; exact hi) ho

/-- At every crash point the metadata and the time are those of files that hold the writes. -/
theorem crash_any {kd : Kind K V} {x : Bool} {L : Laws kd x} (hL : ∀ l, L.good l) {c : Cfg K V}
    {ops : List (KvOp K V × Nat)} {s s' : Store kd} {rs : List (KvRes K V)} {op : KvOp K V} {r : KvRes K V} {d : Nat}
    (hr : run c (new kd) ops = some (s, rs)) (hs : s.step c op d = some (s', r)) {e : Disk kd}
    (he : (∃ a, Crash s s' a e) ∨ e = s'.disk) :
    ∃ W n f, DiskOk L (fun a y => .insert a y ∈ ops.map (·.1) ++ [op]) f W ∧ Upto ops op W n ∧ f.md = e.md ∧
      f.time = e.time := by
  rcases he with ⟨a, he⟩ | rfl
  · obtain ⟨W, n, ⟨h1, -⟩ | ⟨f, h1, h2⟩, h3⟩ := crash_reach hL hr hs he
    · exact ⟨W, n, e, h1, h3, rfl, rfl⟩
    · exact ⟨W, n, f, h1, h3, h2.md.2.symm, h2.time.2.symm⟩
  · obtain ⟨W, n, h1, h2⟩ := done_reach hL hr hs
    exact ⟨W, n, _, h1, h2, rfl, rfl⟩

/-- At a crash point right after a write that deleted nothing, the files hold the writes. -/
theorem crash_ok {kd : Kind K V} {x : Bool} {L : Laws kd x} (hL : ∀ l, L.good l) {c : Cfg K V}
    {ops : List (KvOp K V × Nat)} {s s' : Store kd} {rs : List (KvRes K V)} {op : KvOp K V} {r : KvRes K V} {d : Nat}
    (hr : run c (new kd) ops = some (s, rs)) (hs : s.step c op d = some (s', r)) {e : Disk kd}
    (he : CrashAt s s' e ∨ e = s'.disk) :
    ∃ W n, DiskOk L (fun a y => .insert a y ∈ ops.map (·.1) ++ [op]) e W ∧ Upto ops op W n := by
  rcases he with ⟨a, he, hsub⟩ | rfl
  · obtain ⟨W, n, ⟨h1, -⟩ | ⟨f, h1, h2⟩, h3⟩ := crash_reach hL hr hs he
    · exact ⟨W, n, h1, h3⟩
    · obtain ⟨t, ht, h4, -⟩ := h2.one
      have := hsub t ht
      rw [h4] at this
      simp at this
  · exact done_reach hL hr hs

/-- Without a time nothing was ever written out. -/
theorem no_time {kd : Kind K V} {x : Bool} {L : Laws kd x} {ins : K → V → Prop} {f : Disk kd} {W : K → Option (Val V)}
    (h : DiskOk L ins f W) (ht : f.time = none) (k : K) : look [] W k = none := by
  rw [look_nil]
  cases hw : W k with
  | none => rfl
  | some w =>
    cases hd : w.data with
    | none => exact hd
    | some y =>
      obtain ⟨t, ht', _⟩ := h.sees.live k w hw (by simp [hd])
      exact absurd ht' (h.none ht t)

/-- What a map opened with `LeveledStrategy` answers. -/
theorem opened_exact {c : Cfg K V} {p : Leveled.Params} {ins : K → V → Prop} {f : Disk (Leveled.kind c p)}
    {W : K → Option (Val V)} (h : DiskOk (Leveled.laws c p) ins f W) {fresh : Nat} (hf : ∀ t ∈ f.dirs, t.id < fresh)
    {s2 s3 s4 : Store (Leveled.kind c p)} (ho : openDir fresh [] f = some s2) {ops' : List (KvOp K V × Nat)}
    {rs' : List (KvRes K V)} (hr' : run c s2 ops' = some (s3, rs')) {op' : KvOp K V} {d' : Nat} {r' : KvRes K V}
    (hop : op'.Reads) (hs' : s3.step c op' d' = some (s4, r')) :
    op'.Answer ((ops'.map (·.1)).foldl KvOp.apply (look [] W)) r' := by
  obtain ⟨m, hm⟩ := Option.ne_none_iff_exists'.1 (open_files ho).1
  obtain ⟨s2', k1, k2, k3, k4, k5⟩ := h.open c hm hf []
  rw [ho] at k1
  simp only [Option.some.injEq] at k1
  subst k1
  obtain ⟨W3, j1, j2, j3⟩ := inv_run ops' k2 k3 (goodRun_true (fun _ => trivial) ops' _) hr'
  obtain ⟨W4, i1, i2, i3, i4, _⟩ := inv_step j1 j2 (fun _ _ => trivial) hs'
  have ha : op'.Answer (look s4.mem W4) r' := answer_exact i1 hop i4
  rw [i3, apply_reads hop] at ha
  have hj : look s3.mem W3 = _ := j3
  rw [show look s3.mem _ = _ from hj, k4] at ha
  exact ha

/-- What a map opened with `SizeTieredStrategy` answers. -/
theorem opened_weak {c : Cfg K V} {p : SizeTiered.Params} {ins : K → V → Prop} {f : Disk (SizeTiered.kind c p)}
    {W : K → Option (Val V)} (h : DiskOk (SizeTiered.laws c p) ins f W) {fresh : Nat} (hf : ∀ t ∈ f.dirs, t.id < fresh)
    {s2 : Store (SizeTiered.kind c p)} (ho : openDir fresh [] f = some s2) (k : K) (d' : Nat) :
    ∃ s3 o, s2.step c (.get k) d' = some (s3, .val o) ∧ (∀ v, look [] W k = some v → o = some v) ∧
      ∀ v, o = some v → ins k v := by
  obtain ⟨m, hm⟩ := Option.ne_none_iff_exists'.1 (open_files ho).1
  obtain ⟨s2', k1, k2, k3, k4, k5⟩ := h.open c hm hf []
  rw [ho] at k1
  simp only [Option.some.injEq] at k1
  subst k1
  obtain ⟨⟨s3, o, e1⟩, _⟩ := get_returns k2 k d'
  obtain ⟨W3, j1, j2, j3, j4, _⟩ := inv_step k2 k3 (fun _ _ => trivial) e1
  obtain ⟨a1, a2⟩ := get_weak j1 k
  have ho : o = s3.found k := by
    have : KvRes.val o = KvRes.val (s3.found k) := j4
    simpa using this
  have hl : look s3.mem W3 = look [] W := by rw [j3, k4]; rfl
  refine ⟨s3, o, e1, fun v hv => ?_, fun v hv => ?_⟩
  · rw [ho]; exact a1 v ((congrFun hl k).trans hv)
  · have h : _ ∨ _ := a2 v (ho ▸ hv)
    rcases h with h | h
    · exact h
    · simp at h

/-- C41 with `LeveledStrategy`: a crash at any time during or after any call, unless the last thing done to the files was
to delete a table directory, leaves files that can be opened again (if anything was ever written), also if further
directories that nothing names are there; the recovered map has the contents after a prefix of the calls, at least
up to the last call that wrote the memory out; and it goes on from there as specified.  Missing: crashes between the
deletion of a directory and the next write (see `C41_deleting` and `C41_sound_leveled`). -/
theorem C41_leveled_partial (c : Cfg K V) (p : Leveled.Params) (ops : List (KvOp K V × Nat)) (op : KvOp K V) (d : Nat)
    {s s' : Store (Leveled.kind c p)} {rs : List (KvRes K V)} {r : KvRes K V}
    (hr : run c (new (Leveled.kind c p)) ops = some (s, rs)) (hs : s.step c op d = some (s', r))
    {e f : Disk (Leveled.kind c p)} (he : CrashAt s s' e ∨ e = s'.disk) (hf : Found e f) (hd : ∀ t ∈ e.dirs, t ∈ f.dirs) :
    ∃ n ≤ ops.length + 1, (∀ (i : Nat) (o : KvOp K V), (ops.map (·.1))[i]? = some o → o.Settles → i < n) ∧
      (f.time = none → ∀ k, contents ((ops.map (·.1) ++ [op]).take n) k = none) ∧
      (f.time ≠ none → ∀ fresh, (∀ t ∈ f.dirs, t.id < fresh) → ∃ s2, openDir fresh [] f = some s2 ∧
        ∀ ops' s3 rs' op' d' s4 r', run c s2 ops' = some (s3, rs') → op'.Reads → s3.step c op' d' = some (s4, r') →
          op'.Answer ((ops'.map (·.1)).foldl KvOp.apply (contents ((ops.map (·.1) ++ [op]).take n))) r') := by
  obtain ⟨W, n, h1, h2⟩ := crash_ok (L := Leveled.laws c p) (fun _ => trivial) hr hs he
  have h3 := ok_found h1 hf (fun t ht => hd t (h1.files t (hf.md ▸ ht)))
  refine ⟨n, h2.le, h2.settled, fun ht k => h2.base ▸ no_time h3 ht k, fun ht fresh hfr => ?_⟩
  obtain ⟨m, hm⟩ := Option.ne_none_iff_exists'.1 ht
  obtain ⟨s2, k1, -⟩ := h3.open c hm hfr []
  refine ⟨s2, k1, ?_⟩
  intro ops' s3 rs' op' d' s4 r' hr' hop hs'
  rw [← h2.base]
  exact opened_exact h3 hfr k1 hr' hop hs'

/-- C41 with `SizeTieredStrategy`: the same crash points, and the recovered map returns the latest value of every key that
was live at that point (see C35 for keys that were removed). -/
theorem C41_sizeTiered_partial (c : Cfg K V) (p : SizeTiered.Params) (ops : List (KvOp K V × Nat)) (op : KvOp K V)
    (d : Nat) {s s' : Store (SizeTiered.kind c p)} {rs : List (KvRes K V)} {r : KvRes K V}
    (hr : run c (new (SizeTiered.kind c p)) ops = some (s, rs)) (hs : s.step c op d = some (s', r))
    {e f : Disk (SizeTiered.kind c p)} (he : CrashAt s s' e ∨ e = s'.disk) (hf : Found e f)
    (hd : ∀ t ∈ e.dirs, t ∈ f.dirs) :
    ∃ n ≤ ops.length + 1, (∀ (i : Nat) (o : KvOp K V), (ops.map (·.1))[i]? = some o → o.Settles → i < n) ∧
      (f.time = none → ∀ k, contents ((ops.map (·.1) ++ [op]).take n) k = none) ∧
      (f.time ≠ none → ∀ fresh, (∀ t ∈ f.dirs, t.id < fresh) → ∃ s2, openDir fresh [] f = some s2 ∧
        ∀ k d', ∃ s3 o, s2.step c (.get k) d' = some (s3, .val o) ∧
          (∀ v, contents ((ops.map (·.1) ++ [op]).take n) k = some v → o = some v) ∧
          ∀ v, o = some v → .insert k v ∈ ops.map (·.1) ++ [op]) := by
  obtain ⟨W, n, h1, h2⟩ := crash_ok (L := SizeTiered.laws c p) (fun _ => trivial) hr hs he
  have h3 := ok_found h1 hf (fun t ht => hd t (h1.files t (hf.md ▸ ht)))
  refine ⟨n, h2.le, h2.settled, fun ht k => h2.base ▸ no_time h3 ht k, fun ht fresh hfr => ?_⟩
  obtain ⟨m, hm⟩ := Option.ne_none_iff_exists'.1 ht
  obtain ⟨s2, k1, -⟩ := h3.open c hm hfr []
  refine ⟨s2, k1, fun k d' => ?_⟩
  rw [← h2.base]
  exact opened_weak h3 hfr k1 k d'

/-- C41 with `LeveledStrategy`, without a restriction on the crash point: after a crash at any time during or after any
call, and whatever table directories have been created or deleted in addition and in whatever order, if the directory
can be opened at all, then nothing that was flushed is lost: the opened map has the contents after a prefix of the calls,
at least up to the last call that wrote the memory out, and goes on from there as specified. -/
theorem C41_sound_leveled (c : Cfg K V) (p : Leveled.Params) (ops : List (KvOp K V × Nat)) (op : KvOp K V) (d : Nat)
    {s s' : Store (Leveled.kind c p)} {rs : List (KvRes K V)} {r : KvRes K V}
    (hr : run c (new (Leveled.kind c p)) ops = some (s, rs)) (hs : s.step c op d = some (s', r))
    {e f : Disk (Leveled.kind c p)} (he : (∃ a, Crash s s' a e) ∨ e = s'.disk) (hf : Found e f) :
    ∃ n ≤ ops.length + 1, (∀ (i : Nat) (o : KvOp K V), (ops.map (·.1))[i]? = some o → o.Settles → i < n) ∧
      ∀ fresh s2, (∀ t ∈ f.dirs, t.id < fresh) → openDir fresh [] f = some s2 →
        ∀ ops' s3 rs' op' d' s4 r', run c s2 ops' = some (s3, rs') → op'.Reads → s3.step c op' d' = some (s4, r') →
          op'.Answer ((ops'.map (·.1)).foldl KvOp.apply (contents ((ops.map (·.1) ++ [op]).take n))) r' := by
  obtain ⟨W, n, g, h1, h2, h3, h4⟩ := crash_any (L := Leveled.laws c p) (fun _ => trivial) hr hs he
  refine ⟨n, h2.le, h2.settled, ?_⟩
  intro fresh s2 hfr ho ops' s3 rs' op' d' s4 r' hr' hop hs'
  have h5 := ok_found h1 ⟨hf.md.trans h3.symm, hf.time.trans h4.symm, hf.ids⟩ (open_files ho).2
  rw [← h2.base]
  exact opened_exact h5 hfr ho hr' hop hs'

/-- C41 with `SizeTieredStrategy`, without a restriction on the crash point: the same, for the latest value of every key
that was live. -/
theorem C41_sound_sizeTiered (c : Cfg K V) (p : SizeTiered.Params) (ops : List (KvOp K V × Nat)) (op : KvOp K V)
    (d : Nat) {s s' : Store (SizeTiered.kind c p)} {rs : List (KvRes K V)} {r : KvRes K V}
    (hr : run c (new (SizeTiered.kind c p)) ops = some (s, rs)) (hs : s.step c op d = some (s', r))
    {e f : Disk (SizeTiered.kind c p)} (he : (∃ a, Crash s s' a e) ∨ e = s'.disk) (hf : Found e f) :
    ∃ n ≤ ops.length + 1, (∀ (i : Nat) (o : KvOp K V), (ops.map (·.1))[i]? = some o → o.Settles → i < n) ∧
      ∀ fresh s2, (∀ t ∈ f.dirs, t.id < fresh) → openDir fresh [] f = some s2 →
        ∀ k d', ∃ s3 o, s2.step c (.get k) d' = some (s3, .val o) ∧
          (∀ v, contents ((ops.map (·.1) ++ [op]).take n) k = some v → o = some v) ∧
          ∀ v, o = some v → .insert k v ∈ ops.map (·.1) ++ [op] := by
  obtain ⟨W, n, g, h1, h2, h3, h4⟩ := crash_any (L := SizeTiered.laws c p) (fun _ => trivial) hr hs he
  refine ⟨n, h2.le, h2.settled, ?_⟩
  intro fresh s2 hfr ho k d'
  have h5 := ok_found h1 ⟨hf.md.trans h3.symm, hf.time.trans h4.symm, hf.ids⟩ (open_files ho).2
  rw [← h2.base]
  exact opened_weak h5 hfr ho k d'

theorem deleting {kd : Kind K V} {x : Bool} {L : Laws kd x} (hL : ∀ l, L.good l) {c : Cfg K V}
    {ops : List (KvOp K V × Nat)} {s s' : Store kd} {rs : List (KvRes K V)} {op : KvOp K V} {r : KvRes K V} {d : Nat}
    (hr : run c (new kd) ops = some (s, rs)) (hs : s.step c op d = some (s', r)) (hop : op ≠ .clear) {a e : Disk kd}
    (he : Crash s s' a e) (hd : ¬ ∀ t ∈ a.dirs, t ∈ e.dirs) (fresh : Nat) (tr : List (Disk kd)) :
    openDir fresh tr e = none := by
  obtain ⟨W, n, ⟨h1, h2⟩ | ⟨f, h1, h2⟩, h3⟩ := crash_reach hL hr hs he
  · exact absurd h2 hd
  · obtain ⟨t, ht, h4, h5⟩ := h2.one
    obtain ⟨u, hu, hut⟩ := h5 hop
    cases ho : openDir fresh tr e with
    | none => rfl
    | some s2 =>
      have := (open_files ho).2 u (h2.md.2 ▸ hu)
      rw [h4, List.mem_filter] at this
      simp [hut] at this

/-- C41, exactly: in every call other than `clear`, every crash right after the deletion of a table directory leaves files
that cannot be opened, whatever was flushed before. -/
theorem C41_deleting_sizeTiered (c : Cfg K V) (p : SizeTiered.Params) (ops : List (KvOp K V × Nat)) (op : KvOp K V)
    (d : Nat) {s s' : Store (SizeTiered.kind c p)} {rs : List (KvRes K V)} {r : KvRes K V}
    (hr : run c (new (SizeTiered.kind c p)) ops = some (s, rs)) (hs : s.step c op d = some (s', r)) (hop : op ≠ .clear)
    {a e : Disk (SizeTiered.kind c p)} (he : Crash s s' a e) (hd : ¬ ∀ t ∈ a.dirs, t ∈ e.dirs) (fresh : Nat)
    (tr : List (Disk (SizeTiered.kind c p))) : openDir fresh tr e = none :=
  deleting (L := SizeTiered.laws c p) (fun _ => trivial) hr hs hop he hd fresh tr

/-- The same with `LeveledStrategy`. -/
theorem C41_deleting_leveled (c : Cfg K V) (p : Leveled.Params) (ops : List (KvOp K V × Nat)) (op : KvOp K V)
    (d : Nat) {s s' : Store (Leveled.kind c p)} {rs : List (KvRes K V)} {r : KvRes K V}
    (hr : run c (new (Leveled.kind c p)) ops = some (s, rs)) (hs : s.step c op d = some (s', r)) (hop : op ≠ .clear)
    {a e : Disk (Leveled.kind c p)} (he : Crash s s' a e) (hd : ¬ ∀ t ∈ a.dirs, t ∈ e.dirs) (fresh : Nat)
    (tr : List (Disk (Leveled.kind c p))) : openDir fresh tr e = none :=
  deleting (L := Leveled.laws c p) (fun _ => trivial) hr hs hop he hd fresh tr

theorem trace_step {kd : Kind K V} {x : Bool} {L : Laws kd x} (hL : ∀ l, L.good l) {c : Cfg K V}
    {ops : List (KvOp K V × Nat)} {s s' : Store kd} {rs : List (KvRes K V)} {op : KvOp K V} {r : KvRes K V} {d : Nat}
    (hr : run c (new kd) ops = some (s, rs)) (hs : s.step c op d = some (s', r)) :
    s'.trace = s.trace ++ s'.trace.drop s.trace.length := by
  obtain ⟨W, h1, h2, -⟩ := inv_reach (goodRun_true (good := L.good) hL ops (new _)) hr
  obtain ⟨tr, h, -⟩ := traced_step (Q := fun _ _ => True) (nm := False) (fun h => h.elim) (fun _ _ _ => trivial) (fun _ _ _ _ _ => trivial) h1 h2 (fun l _ => hL l) hs
  rw [h]; simp

namespace Example

/-- Two insertions. -/
def before : Store (Leveled.kind cfg leveled) × List (KvRes Nat Nat) :=
  (run cfg (new _) [(.insert 1 10, 0), (.insert 2 20, 0)]).get (by decide +kernel)

/-- And `flush`. -/
def after : Store (Leveled.kind cfg leveled) × KvRes Nat Nat := (before.1.step cfg .flush 0).get (by decide +kernel)

end Example

/-- A crash point in the middle of a call: `flush` has written the table, and not yet the metadata that names it. -/
example : ∃ e, CrashAt Example.before.1 Example.after.1 e ∧ e.time ≠ none ∧
    Example.after.1.disk.md.l0.length = 1 ∧ e.md.l0.length = 0 ∧ e.dirs.length = 1 := by
  have h := trace_step (L := Leveled.laws Example.cfg Example.leveled) (fun _ => trivial) (c := Example.cfg)
    (ops := [(.insert 1 10, 0), (.insert 2 20, 0)]) (s := Example.before.1) (rs := Example.before.2) (s' := Example.after.1)
    (op := .flush) (d := 0) (r := Example.after.2) (Option.some_get (by decide +kernel)).symm (Option.some_get (by decide +kernel)).symm
  refine ⟨(Example.after.1.trace.drop Example.before.1.trace.length)[0]'(by decide +kernel),
    ⟨_, ⟨_, 0, h, List.getElem?_cons_zero, ?_⟩, ?_⟩, by decide +kernel, by decide +kernel, by decide +kernel, by decide +kernel⟩
  · rw [List.getElem?_cons_succ, List.getElem?_eq_getElem]
  · decide +kernel

namespace Example

/-- Two tables were flushed, and another insertion. -/
def before2 : Store (SizeTiered.kind cfg tiered) × List (KvRes Nat Nat) :=
  (run cfg (new _) [(.insert 1 10, 0), (.flush, 0), (.insert 2 20, 0), (.flush, 0), (.insert 3 30, 0)]).get (by decide +kernel)

/-- And `flush`, which takes over a compaction. -/
def after2 : Store (SizeTiered.kind cfg tiered) × KvRes Nat Nat := (before2.1.step cfg .flush 0).get (by decide +kernel)

/-- The states of the files during `flush`. -/
def during2 : List (Disk (SizeTiered.kind cfg tiered)) := before2.1.disk :: after2.1.trace.drop before2.1.trace.length

theorem lt4 : 4 < during2.length := by decide +kernel
theorem lt3 : 3 < during2.length := by decide +kernel

end Example

/-- A crash point right after a deletion, in `flush`; and what opening would find if the thread had left a directory that
nothing names, in addition. -/
example : ∃ a e f, Crash Example.before2.1 Example.after2.1 a e ∧ (¬ ∀ t ∈ a.dirs, t ∈ e.dirs) ∧ e.time ≠ none ∧
    Found e f ∧ f.dirs.length = e.dirs.length + 1 := by
  have h := trace_step (L := SizeTiered.laws Example.cfg Example.tiered) (fun _ => trivial) (c := Example.cfg)
    (ops := [(.insert 1 10, 0), (.flush, 0), (.insert 2 20, 0), (.flush, 0), (.insert 3 30, 0)]) (s := Example.before2.1)
    (rs := Example.before2.2) (s' := Example.after2.1)
    (op := .flush) (d := 0) (r := Example.after2.2) (Option.some_get (by decide +kernel)).symm (Option.some_get (by decide +kernel)).symm
  refine ⟨Example.during2[3]'Example.lt3, Example.during2[4]'Example.lt4,
    { Example.during2[4]'Example.lt4 with dirs := ⟨100, 0, 0, 0, (0, 0), (0, 0), []⟩ :: (Example.during2[4]'Example.lt4).dirs },
    ⟨_, 3, h, List.getElem?_eq_getElem Example.lt3, List.getElem?_eq_getElem Example.lt4⟩, by decide +kernel,
    by decide +kernel, ⟨rfl, rfl, by decide +kernel⟩, rfl⟩

/-! ### C44: the memory budget -/

theorem budget_reach {kd : Kind K V} {x : Bool} {L : Laws kd x} (hL : ∀ l, L.good l) {c : Cfg K V}
    {ops : List (KvOp K V × Nat)} {s : Store kd} {rs : List (KvRes K V)} (hr : run c (new kd) ops = some (s, rs))
    {op : KvOp K V} (hop : (∃ k v, op = .insert k v) ∨ ∃ k, op = .remove k) (d : Nat) :
    ∃ s', s.step c op d = some (s', .unit) ∧ memSize c.sizes s'.mem ≤ c.maxMem ∧ s'.usage ≤ c.maxMem ∧
      memSize c.sizes s'.mem ≤ s'.usage ∧ (.clear ∉ ops.map (·.1) → s'.usage = memSize c.sizes s'.mem) := by
  obtain ⟨W, h1, h2, h3⟩ := inv_reach (goodRun_true (good := L.good) hL ops (new _)) hr
  have key : ∀ k data, ∃ s' W' ins, (work d s).write c k data = some s' ∧
      Store.Inv L c s' ⟨W', ins, .clear ∈ ops.map (·.1)⟩ ∧ memSize c.sizes s'.mem ≤ c.maxMem ∧ s'.usage ≤ c.maxMem := by
    intro k data
    obtain ⟨s', W', k1, k2, _, _, k5, k6, _⟩ := inv_write (inv_work d h1) (hand_work d h2) k data (fun l _ => hL l)
    exact ⟨s', W', _, k1, k2, k5, k6⟩
  rcases hop with ⟨k, v, rfl⟩ | ⟨k, rfl⟩
  · obtain ⟨s', W', ins, e, i, a, b⟩ := key k (some v)
    exact ⟨s', by simp [step, e], a, b, i.used, i.usedEq⟩
  · obtain ⟨s', W', ins, e, i, a, b⟩ := key k none
    exact ⟨s', by simp [step, e], a, b, i.used, i.usedEq⟩

/-- C44: after every `insert` and `remove` (which always return) the serialized size of the in-memory tree and the
value kept for it are within the budget, and the value is at least the size; it is the size as long as `clear` has
not been called.  Missing: the value is the size also after `clear`. -/
theorem C44_sizeTiered_partial (c : Cfg K V) (p : SizeTiered.Params) (ops : List (KvOp K V × Nat))
    {s : Store (SizeTiered.kind c p)} {rs : List (KvRes K V)}
    (hr : run c (new (SizeTiered.kind c p)) ops = some (s, rs))
    (op : KvOp K V) (hop : (∃ k v, op = .insert k v) ∨ ∃ k, op = .remove k) (d : Nat) :
    ∃ s', s.step c op d = some (s', .unit) ∧ memSize c.sizes s'.mem ≤ c.maxMem ∧ s'.usage ≤ c.maxMem ∧
      memSize c.sizes s'.mem ≤ s'.usage ∧ (.clear ∉ ops.map (·.1) → s'.usage = memSize c.sizes s'.mem) :=
  budget_reach (L := SizeTiered.laws c p) (fun _ => trivial) hr hop d

/-- C44 with `LeveledStrategy`, the same. -/
theorem C44_leveled_partial (c : Cfg K V) (p : Leveled.Params) (ops : List (KvOp K V × Nat))
    {s : Store (Leveled.kind c p)} {rs : List (KvRes K V)}
    (hr : run c (new (Leveled.kind c p)) ops = some (s, rs))
    (op : KvOp K V) (hop : (∃ k v, op = .insert k v) ∨ ∃ k, op = .remove k) (d : Nat) :
    ∃ s', s.step c op d = some (s', .unit) ∧ memSize c.sizes s'.mem ≤ c.maxMem ∧ s'.usage ≤ c.maxMem ∧
      memSize c.sizes s'.mem ≤ s'.usage ∧ (.clear ∉ ops.map (·.1) → s'.usage = memSize c.sizes s'.mem) :=
  budget_reach (L := Leveled.laws c p) (fun _ => trivial) hr hop d

/-- C44: `clear` empties the in-memory tree and keeps its size as it was. -/
theorem C44_violated :
    (run Example.cfg (new (SizeTiered.kind Example.cfg Example.tiered)) [(.insert 1 10, 0), (.clear, 0), (.insert 2 20, 0)]).map
      (fun q => decide (memSize Example.cfg.sizes q.1.mem < q.1.usage)) = some true ∧
    (run Example.cfg (new (Leveled.kind Example.cfg Example.leveled)) [(.insert 1 10, 0), (.clear, 0), (.insert 2 20, 0)]).map
      (fun q => decide (memSize Example.cfg.sizes q.1.mem < q.1.usage)) = some true := by
  constructor <;> decide +kernel

example : (run Example.small (new (SizeTiered.kind Example.small Example.tiered)) Example.ops).isSome = true ∧
    .clear ∉ Example.ops.map (·.1) := by
  constructor
  · decide +kernel
  · simp [Example.ops]

/-! ### C45: levels -/

/-- C45: in every reachable state, any two different tables of a level have disjoint key ranges, and looking at the one
table of the level whose greatest key is the least that is not below `k` finds the version of `k` that the level
has, if there is one; and a level never has two. -/
theorem C45_levels (c : Cfg K V) (p : Leveled.Params) (ops : List (KvOp K V × Nat))
    {s : Store (Leveled.kind c p)} {rs : List (KvRes K V)}
    (hr : run c (new (Leveled.kind c p)) ops = some (s, rs)) : ∀ l ∈ s.cur.levels,
      (l.map (·.2)).Pairwise (fun t u => t.range.2 < u.range.1) ∧
      (∀ t ∈ l.map (·.2), t.range.1 ≤ t.range.2 ∧ ∀ e ∈ t.entries, t.range.1 ≤ e.1 ∧ e.1 ≤ t.range.2) ∧
      ∀ k v, Leveled.levelGet l k = some v ↔ ∃ t ∈ l.map (·.2), (k, v) ∈ t.entries := by
  intro l hl
  obtain ⟨W, h1, -, -⟩ := inv_reach (L := Leveled.laws c p) (goodRun_true (fun _ => trivial) ops (new _)) hr
  have hi : Leveled.Inv s.cur := h1.inv
  have ho := hi.levels.level l hl
  refine ⟨?_, ?_, fun k v => Leveled.levelGet_some ho⟩
  · rw [List.pairwise_map]
    refine ho.sorted.imp_of_mem fun {a b} ha hb hab => ?_
    rw [← ho.key a ha]
    exact ho.apart a ha b hb hab
  · intro t ht
    obtain ⟨e, he, rfl⟩ := List.mem_map.1 ht
    have hk := ho.ok e he
    refine ⟨?_, fun x hx => ⟨hk.lo_le hx, hk.le_hi hx⟩⟩
    obtain ⟨x, l', hx⟩ := List.exists_cons_of_ne_nil hk.ne_nil
    have hx : x ∈ e.2.entries := by rw [hx]; simp
    exact (hk.lo_le hx).trans (hk.le_hi hx)

/-- C45: a compaction ends if `max_initial_level_count` and `growth_factor` are positive.  Missing: other values. -/
theorem C45_ends_partial (c : Cfg K V) (p : Leveled.Params) (h1 : 1 ≤ p.initCount) (h2 : 1 ≤ p.growth)
    (ops : List (KvOp K V × Nat)) {s : Store (Leveled.kind c p)} {rs : List (KvRes K V)}
    (hr : run c (new (Leveled.kind c p)) ops = some (s, rs)) (f : Nat) :
    (∀ m, s.job = some m → ∃ r, Leveled.compact c p m f = some r) ∧ ∃ r, Leveled.compact c p s.cur f = some r := by
  obtain ⟨W, hi, -, -⟩ := inv_reach (L := Leveled.laws c p) (goodRun_true (fun _ => trivial) ops (new _)) hr
  refine ⟨fun m hm => ?_, Leveled.compact_total hi.inv (fun i => Leveled.limit_pos h1 h2 i) f⟩
  obtain ⟨-, -, S, k1, k2, k3⟩ := hi.job m hm
  exact Leveled.laws_total c p h1 h2 k1 k3 f

/-- C45: with `max_initial_level_count` 0 no number of rounds ends a compaction of tables in which some key is live. -/
theorem C45_never_ends (c : Cfg K V) (p : Leveled.Params) (hp : p.initCount = 0) {m : Leveled.Meta K V}
    (hm : Leveled.Inv m) {k : K} {v : Val V} (hv : Leveled.IsNewest (m.l0 ++ Leveled.tabsL m.levels) k v)
    (hd : v.data ≠ none) (n f : Nat) : Leveled.compactN c p n m f = none := by
  cases hc : Leveled.compactN c p n m f with
  | none => rfl
  | some r =>
    obtain ⟨C, new⟩ := r
    have h := Leveled.compactN_spec hm hc
    exfalso
    rcases h.faith.keep k v hv with ⟨t, ht, _⟩ | ⟨h', _⟩
    · obtain ⟨l, hl, htl⟩ := List.mem_flatMap.1 ht
      obtain ⟨i, hi, rfl⟩ := List.getElem_of_mem hl
      have h1 := h.limit i hi
      have h2 : 0 < (Leveled.tabsOf C.levels[i]).length := List.length_pos_of_mem htl
      simp only [Leveled.limit, hp, Nat.zero_mul, Leveled.tabsOf, List.length_map] at h1 h2
      omega
    · exact hd h'

/-- C45: with `max_initial_level_count` 0, a single insertion followed by `flush` does not return. -/
theorem C45_violated : run Example.cfg (new (Leveled.kind Example.cfg ⟨0, 1000, 0, 10⟩)) [(.insert 1 10, 0), (.flush, 0)] = none :=
  Option.isNone_iff_eq_none.1 (by decide +kernel)

example : (run Example.small (new (Leveled.kind Example.small Example.leveled)) (Example.ops ++ [(.insert 9 9, 0),
    (.insert 10 10, 0), (.insert 11 11, 0), (.insert 12 12, 0), (.flush, 0), (.insert 13 9, 0), (.insert 14 10, 0),
    (.insert 15 11, 0), (.insert 16 12, 0), (.flush, 0)])).map (fun q => q.1.cur.levels.map List.length) =
    some [1, 2, 1] := by decide +kernel

end Verif.Lsm
