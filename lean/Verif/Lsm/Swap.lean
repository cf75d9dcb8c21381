/-
The map with another function for the compaction: if all compactions that a history can start have the same result,
the calls have the same results.  And: the tables that a history writes have only keys that it writes.
-/
import Verif.Lsm.StoreRun

namespace Verif.Lsm

open Verif Verif.Spec

variable {K V : Type}

/-! ### The same map with another compaction -/

/-- The strategy `kd` with another function for the compaction. -/
abbrev Kind.withCompact (kd : Kind K V) (g : kd.Job → Nat → Option (kd.M × List (Table K V))) : Kind K V :=
  { kd with compact := g }

namespace Store

section Conv

variable {kd : Kind K V} (g : kd.Job → Nat → Option (kd.M × List (Table K V)))

/-- The files, for the other strategy. -/
def convDisk (d : Disk kd) : Disk (kd.withCompact g) := ⟨d.md, d.dirs, d.time⟩

/-- The state, for the other strategy. -/
def conv (s : Store kd) : Store (kd.withCompact g) :=
  ⟨s.mem, s.usage, s.cur, s.next, s.job, s.busy, s.handle, s.clock, s.locks, s.fresh, convDisk g s.disk,
    s.trace.map (convDisk g)⟩

/-- The compaction that runs in `s` gives the same result with `g`. -/
def Agrees (s : Store kd) : Prop := ∀ j, s.job = some j → ∀ f, kd.compact j f = g j f

theorem conv_put (s : Store kd) (d : Disk kd) : (conv g s).put (convDisk g d) = conv g (s.put d) := by
  simp [put, conv]

theorem conv_writeMeta (s : Store kd) : (conv g s).writeMeta = conv g s.writeMeta :=
  conv_put g s { s.disk with md := s.cur }

theorem conv_deliver {s : Store kd} (h : Agrees g s) : (conv g s).deliver = conv g s.deliver := by
  cases hj : s.job with
  | none => unfold deliver; rw [show (conv g s).job = none from hj, hj]; rfl
  | some j =>
    have h1 := h j hj s.fresh
    cases hc : kd.compact j s.fresh with
    | none =>
      rw [hc] at h1
      unfold deliver
      rw [show (conv g s).job = some j from hj, hj]
      simp only
      rw [hc, show g j (conv g s).fresh = none from h1.symm]
    | some r =>
      obtain ⟨m, new⟩ := r
      rw [hc] at h1
      unfold deliver
      rw [show (conv g s).job = some j from hj, hj]
      simp only
      rw [hc, show g j (conv g s).fresh = some (m, new) from h1.symm]
      exact conv_put g { s with next := some m, job := none, fresh := s.fresh + new.length }
        { s.disk with dirs := s.disk.dirs ++ new }

theorem agrees_deliver {s : Store kd} (h : Agrees g s) : Agrees g s.deliver := by
  intro j hj
  unfold deliver at hj
  split at hj
  · rename_i h1; simp [h1] at hj
  · split at hj
    · exact h j hj
    · simp [put] at hj

theorem conv_work : ∀ (n : Nat) {s : Store kd}, Agrees g s → work n (conv g s) = conv g (work n s)
  | 0, _, _ => rfl
  | n + 1, s, h => by
    unfold work
    rw [conv_deliver g h]
    exact conv_work n (agrees_deliver g h)

theorem conv_removeDirs : ∀ (is : List Nat) (s : Store kd),
    removeDirs is (conv g s) = (removeDirs is s).map (conv g)
  | [], _ => rfl
  | i :: is, s => by
    unfold removeDirs
    show (if i ∈ s.disk.dirs.map (·.id) then _ else _) = _
    split
    · rw [← conv_removeDirs is]
      exact congrArg (removeDirs is) (conv_put g s { s.disk with dirs := s.disk.dirs.filter fun t => t.id ≠ i })
    · rfl

theorem conv_tryReplace (s : Store kd) : (conv g s).tryReplace = s.tryReplace.map (conv g) := by
  unfold tryReplace
  cases hn : s.next with
  | none => rw [show (conv g s).next = none from hn]; rfl
  | some m =>
    rw [show (conv g s).next = some m from hn]
    simp only
    refine (congrArg (Option.map writeMeta) (conv_removeDirs g _
      { s with cur := kd.replace s.cur m, next := none })).trans ?_
    rw [Option.map_map, Option.map_map]
    congr 1
    funext x
    exact conv_writeMeta g x

theorem conv_pushTable (s : Store kd) (t : Table K V) : (conv g s).pushTable t = conv g (s.pushTable t) := by
  unfold pushTable
  rw [← conv_writeMeta]
  congr 1
  exact conv_put g { s with usage := 0, mem := [], fresh := s.fresh + 1, cur := kd.push s.cur t }
    { s.disk with dirs := s.disk.dirs ++ [t] }

theorem conv_start (s : Store kd) : (conv g s).start = s.start.map (conv g) := by
  unfold start
  show (if s.busy ∨ s.locks ≠ 0 then _ else _) = _
  split
  · rfl
  · rw [conv_tryReplace]
    cases s.tryReplace with
    | none => rfl
    | some s1 =>
      simp only [Option.map_some]
      rw [show kd.plan (conv g s1).cur = kd.plan s1.cur from rfl]
      cases kd.plan s1.cur <;> rfl

theorem conv_tryCompact [LinearOrder K] (c : Cfg K V) (s : Store kd) :
    (conv g s).tryCompact c = (s.tryCompact c).map (conv g) := by
  unfold tryCompact
  show (match build c.sizes (c.block s.mem.length) s.mem s.fresh with | none => _ | some t => _) = _
  cases build c.sizes (c.block s.mem.length) s.mem s.fresh with
  | none => rfl
  | some t =>
    simp only
    rw [conv_pushTable, conv_start]

theorem conv_join {s : Store kd} (h : Agrees g s) : (conv g s).join = s.join.map (conv g) := by
  unfold join
  rw [conv_work g 2 h]
  simp only
  show (if (work 2 s).job.isSome then _ else _) = _
  split <;> rfl

theorem conv_settle {s : Store kd} (h : Agrees g s) : s.settle.map (conv g) = (conv g s).settle := by
  unfold settle
  show _ = if s.handle then _ else _
  split
  · rw [conv_join g h]
    cases s.join with
    | none => rfl
    | some s1 =>
      simp only [Option.map_some]
      exact (conv_tryReplace g { s1 with handle := false }).symm
  · rfl

theorem conv_write [LinearOrder K] (c : Cfg K V) (s : Store kd) (k : K) (data : Option V) :
    (conv g s).write c k data = (s.write c k data).map (conv g) := by
  have ht : (conv g s).tick = (conv g s.tick.1, s.clock) := by
    simp only [tick_eq]
    simp [conv, convDisk]
  have ht' : s.tick = (s.tick.1, s.clock) := rfl
  unfold write
  rw [ht, ht']
  simp only
  have hu : (conv g s.tick.1).usageAfter c k ⟨data, s.clock⟩ = s.tick.1.usageAfter c k ⟨data, s.clock⟩ := rfl
  rw [hu]
  cases s.tick.1.usageAfter c k ⟨data, s.clock⟩ with
  | none => rfl
  | some u =>
    simp only
    split
    · exact conv_tryCompact g c { s.tick.1 with usage := u, mem := SL.ins k ⟨data, s.clock⟩ s.tick.1.mem }
    · rfl

theorem conv_clear {s : Store kd} (h : Agrees g s) : (conv g s).clear = s.clear.map (conv g) := by
  have key : (if (conv g s).handle then join { conv g s with mem := [] } else some { conv g s with mem := [] }) =
      (if s.handle then join { s with mem := [] } else some { s with mem := [] }).map (conv g) := by
    show (if s.handle then _ else _) = _
    split
    · exact conv_join g (s := { s with mem := [] }) h
    · rfl
  unfold clear
  simp only
  rw [key]
  cases (if s.handle then join { s with mem := [] } else some { s with mem := [] }) with
  | none => rfl
  | some s1 =>
    simp only [Option.map_some]
    refine (congrArg (Option.map writeMeta) (conv_removeDirs g _
      { s1 with handle := false, cur := kd.empty, next := none })).trans ?_
    rw [Option.map_map, Option.map_map]
    congr 1
    funext x
    exact conv_writeMeta g x

theorem conv_openDir [DecidableEq K] [DecidableEq V] (f : Nat) (tr : List (Disk kd)) (d : Disk kd) :
    openDir f (tr.map (convDisk g)) (convDisk g d) = (openDir f tr d).map (conv g) := by
  unfold openDir
  show (match d.time with | none => _ | some t => _) = _
  cases d.time with
  | none => rfl
  | some t =>
    simp only
    show (if ∀ t ∈ kd.tabs d.md, d.dirs.find? (fun u => u.id = t.id) = some t then _ else _) = _
    split <;> rfl

theorem conv_items [LinearOrder K] (s : Store kd) : (conv g s).items = s.items := rfl

end Conv

variable [LinearOrder K] {kd : Kind K V} {x : Bool} (g : kd.Job → Nat → Option (kd.M × List (Table K V)))

theorem agrees_inv {L : Laws kd x} (hag : ∀ S j f, L.inv S → kd.plan S = some j → kd.compact j f = g j f)
    {c : Cfg K V} {s : Store kd} {gh : Ghost K V} (h : Inv L c s gh) : Agrees g s := by
  intro j hj f
  obtain ⟨-, -, S, h1, -, h2⟩ := h.job j hj
  exact hag S j f h1 h2

theorem conv_flush {L : Laws kd x} (hag : ∀ S j f, L.inv S → kd.plan S = some j → kd.compact j f = g j f)
    {c : Cfg K V} {s : Store kd} {gh : Ghost K V} (h : Inv L c s gh) (hh : s.Hand)
    (hg : s.mem ≠ [] → L.good s.mem) : (conv g s).flush c = (s.flush c).map (conv g) := by
  unfold flush
  show (match s.mem with | [] => _ | _ :: _ => _) = _
  cases hm : s.mem with
  | nil => exact (conv_settle g (agrees_inv g hag h)).symm
  | cons e l =>
    simp only
    rw [conv_tryCompact]
    obtain ⟨s', h1, h2, -⟩ := inv_tryCompact h hh (by simp [hm]) (hg (by simp [hm]))
    rw [h1]
    simp only [Option.map_some]
    exact (conv_settle g (agrees_inv g hag h2)).symm

theorem conv_step [DecidableEq V] {L : Laws kd x}
    (hag : ∀ S j f, L.inv S → kd.plan S = some j → kd.compact j f = g j f)
    {c : Cfg K V} {s : Store kd} {gh : Ghost K V} {op : KvOp K V} {d : Nat} (h : Inv L c s gh) (hh : s.Hand)
    (hg : ∀ l, s.spill c op = some l → L.good l) :
    (conv g s).step c op d = (s.step c op d).map fun q => (conv g q.1, q.2) := by
  have hw : Inv L c (work d s) gh := inv_work d h
  have hhw : (work d s).Hand := hand_work d hh
  have ha := agrees_inv g hag hw
  have e1 : work d (conv g s) = conv g (work d s) := conv_work g d (agrees_inv g hag h)
  have fl : (op = .len ∨ op = .isEmpty ∨ op = .iter ∨ op = .hold ∨ op = .flush ∨ op = .reopen) →
      (conv g (work d s)).flush c = ((work d s).flush c).map (conv g) := fun hop =>
    conv_flush g hag hw hhw (good_flush hop hg)
  unfold step
  simp only
  rw [e1]
  generalize work d s = t at fl ha
  cases op with
  | insert k v => simp only [conv_write, Option.map_map]; rfl
  | remove k => simp only [conv_write, Option.map_map]; rfl
  | get k =>
    simp only [show (conv g t).mem = t.mem from rfl]
    cases SL.find k t.mem with
    | some e => rfl
    | none => simp only [conv_tryReplace, Option.map_map]; rfl
  | containsKey k =>
    simp only [show (conv g t).mem = t.mem from rfl]
    cases SL.find k t.mem with
    | some e => rfl
    | none => simp only [conv_tryReplace, Option.map_map]; rfl
  | lenHint =>
    simp only [conv_tryReplace]
    cases t.tryReplace with
    | none => rfl
    | some u =>
      simp only [Option.map_some, Option.bind_some, Option.map_map]
      rfl
  | len =>
    simp only [fl (by simp)]
    cases t.flush c with
    | none => rfl
    | some u => simp only [Option.map_some, Option.bind_some, conv_tryReplace, Option.map_map]; rfl
  | isEmpty =>
    simp only [fl (by simp)]
    cases t.flush c with
    | none => rfl
    | some u => simp only [Option.map_some, Option.bind_some, conv_tryReplace, Option.map_map]; rfl
  | min => simp only [conv_tryReplace, Option.map_map]; rfl
  | max => simp only [conv_tryReplace, Option.map_map]; rfl
  | iter =>
    simp only [fl (by simp)]
    cases t.flush c with
    | none => rfl
    | some u => simp only [Option.map_some, Option.bind_some, conv_tryReplace, Option.map_map]; rfl
  | hold =>
    simp only [fl (by simp)]
    cases t.flush c with
    | none => rfl
    | some u => simp only [Option.map_some, Option.bind_some, conv_tryReplace, Option.map_map]; rfl
  | release => rfl
  | flush => simp only [fl (by simp), Option.map_map]; rfl
  | clear => simp only [conv_clear g ha, Option.map_map]; rfl
  | reopen =>
    simp only [fl (by simp)]
    cases t.flush c with
    | none => rfl
    | some u =>
      simp only [Option.map_some, Option.bind_some, Option.map_map]
      rw [show openDir (conv g u).fresh (conv g u).trace (conv g u).disk = (openDir u.fresh u.trace u.disk).map (conv g)
        from conv_openDir g _ _ _, Option.map_map]
      rfl

/-- If all compactions that a history can start have the same results, so have all its calls. -/
theorem conv_run [DecidableEq V] {L : Laws kd x}
    (hag : ∀ S j f, L.inv S → kd.plan S = some j → kd.compact j f = g j f) {c : Cfg K V} :
    ∀ (ops : List (KvOp K V × Nat)) {s : Store kd} {gh : Ghost K V}, Inv L c s gh → s.Hand → GoodRun L.good c s ops →
    run c (conv g s) ops = (run c s ops).map fun q => (conv g q.1, q.2)
  | [], _, _, _, _, _ => rfl
  | (op, d) :: ops, s, gh, h, hh, hg => by
    unfold run
    rw [conv_step g hag h hh hg.1]
    cases hs : s.step c op d with
    | none => rfl
    | some q =>
      obtain ⟨s1, r⟩ := q
      obtain ⟨W1, k1, k2, -⟩ := inv_step h hh hg.1 hs
      simp only [Option.map_some]
      rw [conv_run hag ops k1 k2 (hg.2 _ _ hs), Option.map_map, Option.map_map]
      rfl

/-! ### The keys in memory -/

omit [LinearOrder K] in
theorem removeDirs_mem : ∀ (is : List Nat) {s s' : Store kd}, removeDirs is s = some s' → s'.mem = s.mem
  | [], s, s', h => by cases h; rfl
  | i :: is, s, s', h => by
    unfold removeDirs at h
    split at h
    · have h1 := removeDirs_mem is h
      exact h1
    · cases h

omit [LinearOrder K] in
theorem tryReplace_mem {s s' : Store kd} (h : s.tryReplace = some s') : s'.mem = s.mem := by
  unfold tryReplace at h
  split at h
  · cases h; rfl
  · simp only [Option.map_eq_some_iff] at h
    obtain ⟨s1, h1, rfl⟩ := h
    have h2 := removeDirs_mem _ h1
    exact h2

omit [LinearOrder K] in
theorem start_mem {s s' : Store kd} (h : s.start = some s') : s'.mem = s.mem := by
  unfold start at h
  split at h
  · cases h; rfl
  · split at h
    · cases h
    · rename_i s1 h1
      have h2 := tryReplace_mem h1
      split at h <;> cases h <;> exact h2

theorem join_mem {s s' : Store kd} (h : s.join = some s') : s'.mem = s.mem := by
  unfold join at h
  simp only at h
  split at h
  · cases h
  · cases h; exact (work_frame 2 s).1

theorem settle_mem {s s' : Store kd} (h : s.settle = some s') : s'.mem = s.mem := by
  unfold settle at h
  split at h
  · split at h
    · cases h
    · rename_i s1 h1
      have h2 := tryReplace_mem h
      have h3 := join_mem h1
      exact h2.trans h3
  · cases h; rfl

theorem tryCompact_mem {c : Cfg K V} {s s' : Store kd} (h : s.tryCompact c = some s') : s'.mem = [] := by
  unfold tryCompact at h
  split at h
  · cases h
  · exact start_mem h

theorem flush_mem {c : Cfg K V} {s s' : Store kd} (h : s.flush c = some s') : s'.mem = [] := by
  unfold flush at h
  split at h
  · rename_i h1; exact (settle_mem h).trans h1
  · split at h
    · cases h
    · rename_i s1 h1; exact (settle_mem h).trans (tryCompact_mem h1)

theorem write_mem {c : Cfg K V} {s s' : Store kd} {k : K} {data : Option V} (h : s.write c k data = some s') :
    s'.mem = [] ∨ s'.mem = SL.ins k ⟨data, s.clock⟩ s.mem := by
  unfold write at h
  simp only [tick_eq] at h
  split at h
  · cases h
  · split at h
    · exact .inl (tryCompact_mem h)
    · cases h; exact .inr rfl

theorem clear_mem {s s' : Store kd} (h : s.clear = some s') : s'.mem = [] := by
  unfold clear at h
  simp only at h
  split at h
  · cases h
  · rename_i s1 h1
    simp only [Option.map_eq_some_iff] at h
    obtain ⟨s2, h2, rfl⟩ := h
    refine (removeDirs_mem _ h2).trans ?_
    split at h1
    · exact join_mem h1
    · cases h1; rfl

theorem mem_ins_or {A : Type} {k : K} {v : A} {e : K × A} : ∀ {l : List (K × A)}, e ∈ SL.ins k v l → e = (k, v) ∨ e ∈ l
  | [], h => by simpa [SL.ins] using h
  | (y, w) :: l, h => by
    unfold SL.ins at h
    split at h
    · simpa using h
    · split at h
      · rcases List.mem_cons.1 h with h | h
        · exact .inr (by simp [h])
        · exact (mem_ins_or h).imp id fun h => by simp [h]
      · rcases List.mem_cons.1 h with h | h
        · exact .inl h
        · exact .inr (by simp [h])

/-- The call writes the key. -/
def Writes (op : KvOp K V) (k : K) : Prop := (∃ v, op = .insert k v) ∨ op = .remove k

theorem step_mem [DecidableEq V] {c : Cfg K V} {s s' : Store kd} {op : KvOp K V} {d : Nat} {r : KvRes K V}
    (hs : s.step c op d = some (s', r)) : ∀ e ∈ s'.mem, e ∈ s.mem ∨ Writes op e.1 := by
  have f1 := (work_frame d s).1
  have wr : ∀ {k data s2}, (work d s).write c k data = some s2 → ∀ e ∈ s2.mem, e ∈ s.mem ∨ e.1 = k := by
    intro k data s2 h e he
    rcases write_mem h with h1 | h1
    · rw [h1] at he; simp at he
    · rw [h1] at he
      rcases mem_ins_or he with rfl | he
      · exact .inr rfl
      · exact .inl (f1 ▸ he)
  have nil : s'.mem = [] → ∀ e ∈ s'.mem, e ∈ s.mem ∨ Writes op e.1 := by
    intro h e he; rw [h] at he; simp at he
  have same : s'.mem = (work d s).mem → ∀ e ∈ s'.mem, e ∈ s.mem ∨ Writes op e.1 := by
    intro h e he; rw [h, f1] at he; exact .inl he
  cases op with
  | insert k v =>
    simp only [step, Option.map_eq_some_iff, Prod.mk.injEq] at hs
    obtain ⟨s2, h2, rfl, rfl⟩ := hs
    exact fun e he => (wr h2 e he).imp id fun h => .inl ⟨v, by rw [h]⟩
  | remove k =>
    simp only [step, Option.map_eq_some_iff, Prod.mk.injEq] at hs
    obtain ⟨s2, h2, rfl, rfl⟩ := hs
    exact fun e he => (wr h2 e he).imp id fun h => .inr (by rw [h])
  | get k =>
    simp only [step] at hs
    split at hs
    · cases hs; exact same rfl
    · simp only [Option.map_eq_some_iff, Prod.mk.injEq] at hs
      obtain ⟨s2, h2, rfl, rfl⟩ := hs
      exact same (tryReplace_mem h2)
  | containsKey k =>
    simp only [step] at hs
    split at hs
    · cases hs; exact same rfl
    · simp only [Option.map_eq_some_iff, Prod.mk.injEq] at hs
      obtain ⟨s2, h2, rfl, rfl⟩ := hs
      exact same (tryReplace_mem h2)
  | lenHint =>
    simp only [step, Option.bind_eq_some_iff, Option.map_eq_some_iff, Prod.mk.injEq] at hs
    obtain ⟨s2, h2, n, h3, rfl, rfl⟩ := hs
    exact same (tryReplace_mem h2)
  | min =>
    simp only [step, Option.map_eq_some_iff, Prod.mk.injEq] at hs
    obtain ⟨s2, h2, rfl, rfl⟩ := hs
    exact same (tryReplace_mem h2)
  | max =>
    simp only [step, Option.map_eq_some_iff, Prod.mk.injEq] at hs
    obtain ⟨s2, h2, rfl, rfl⟩ := hs
    exact same (tryReplace_mem h2)
  | len =>
    simp only [step, Option.bind_eq_some_iff, Option.map_eq_some_iff, Prod.mk.injEq] at hs
    obtain ⟨s2, h2, s3, h3, rfl, rfl⟩ := hs
    exact nil ((tryReplace_mem h3).trans (flush_mem h2))
  | isEmpty =>
    simp only [step, Option.bind_eq_some_iff, Option.map_eq_some_iff, Prod.mk.injEq] at hs
    obtain ⟨s2, h2, s3, h3, rfl, rfl⟩ := hs
    exact nil ((tryReplace_mem h3).trans (flush_mem h2))
  | iter =>
    simp only [step, Option.bind_eq_some_iff, Option.map_eq_some_iff, Prod.mk.injEq] at hs
    obtain ⟨s2, h2, s3, h3, rfl, rfl⟩ := hs
    exact nil ((tryReplace_mem h3).trans (flush_mem h2))
  | hold =>
    simp only [step, Option.bind_eq_some_iff, Option.map_eq_some_iff, Prod.mk.injEq] at hs
    obtain ⟨s2, h2, s3, h3, rfl, rfl⟩ := hs
    exact nil ((tryReplace_mem h3).trans (flush_mem h2))
  | release =>
    simp only [step, Option.some.injEq, Prod.mk.injEq] at hs
    obtain ⟨rfl, rfl⟩ := hs
    exact same rfl
  | flush =>
    simp only [step, Option.map_eq_some_iff, Prod.mk.injEq] at hs
    obtain ⟨s2, h2, rfl, rfl⟩ := hs
    exact nil (flush_mem h2)
  | clear =>
    simp only [step, Option.map_eq_some_iff, Prod.mk.injEq] at hs
    obtain ⟨s2, h2, rfl, rfl⟩ := hs
    exact nil (clear_mem h2)
  | reopen =>
    simp only [step, Option.bind_eq_some_iff, Option.map_eq_some_iff, Prod.mk.injEq] at hs
    obtain ⟨s2, h2, s3, h3, rfl, rfl⟩ := hs
    refine nil ?_
    unfold openDir at h3
    split at h3
    · cases h3
    · split at h3
      · cases h3; rfl
      · cases h3

/-- All tables that a history writes have only keys that it writes. -/
theorem goodRun_keys [DecidableEq V] {c : Cfg K V} {ks : List K} : ∀ (ops : List (KvOp K V × Nat)) (s : Store kd),
    (∀ e ∈ s.mem, e.1 ∈ ks) → (∀ op ∈ ops.map (·.1), ∀ k, Writes op k → k ∈ ks) →
    GoodRun (fun l => ∀ e ∈ l, e.1 ∈ ks) c s ops
  | [], _, _, _ => trivial
  | (op, d) :: ops, s, hm, hk => by
    refine ⟨fun l hl => ?_, fun s' r hs => goodRun_keys ops s' (fun e he => ?_) fun o ho => hk o (by simp [ho])⟩
    · have wr : ∀ {k data}, (k ∈ ks) → s.written c k data = some l → ∀ e ∈ l, e.1 ∈ ks := by
        intro k data hks h e he
        unfold written at h
        split at h
        · cases h
        · split at h
          · cases h
            rcases mem_ins_or he with rfl | he
            · exact hks
            · exact hm e he
          · cases h
      have fl : (match s.mem with | [] => none | e :: l => some (e :: l)) = some l → ∀ e ∈ l, e.1 ∈ ks := by
        intro h e he
        split at h
        · cases h
        · rename_i h1; cases h; exact hm e (h1 ▸ he)
      have hop := hk op (by simp)
      cases op with
      | insert k v => exact wr (hop k (.inl ⟨v, rfl⟩)) hl
      | remove k => exact wr (hop k (.inr rfl)) hl
      | len => exact fl hl
      | isEmpty => exact fl hl
      | iter => exact fl hl
      | hold => exact fl hl
      | flush => exact fl hl
      | reopen => exact fl hl
      | get k => cases hl
      | containsKey k => cases hl
      | lenHint => cases hl
      | min => cases hl
      | max => cases hl
      | release => cases hl
      | clear => cases hl
    · rcases step_mem hs e he with h | h
      · exact hm e h
      · exact hk op (by simp) _ h

end Store

end Verif.Lsm
