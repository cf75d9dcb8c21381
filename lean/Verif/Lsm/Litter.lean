/-
C67: what is left in the directory of an LSM map.  The compaction thread creates a directory for every table it
writes.  Taking over a result deletes the directories of the tables that are replaced (size_tiered.rs:370-377,
leveled.rs:271-286).  Tables that a leveled compaction writes and merges again before it ends were never part of the
metadata, so nobody deletes them.  A builder that gets no entry leaves a directory without a table
(sstable.rs:102-117).  Only `clear` deletes everything (size_tiered.rs:512-517, leveled.rs:615-620).
-/
import Verif.Lsm.Revive

namespace Verif.Lsm

open Verif Verif.Spec Store

variable {K V : Type}

/-! ### Which compactions end -/

namespace Store

variable {kd : Kind K V}

/-- The compactions that end during `n` events of the thread (size_tiered.rs:297-317, leveled.rs:294-435): what they
were started with, and the first directory name they use. -/
def ended : Nat → Store kd → List (kd.Job × Nat)
  | 0, _ => []
  | n + 1, s =>
    (match s.job with
    | none => []
    | some j => if (kd.compact j s.fresh).isSome then [(j, s.fresh)] else []) ++ ended n s.deliver

/-- The compactions that end while `flush` of the strategy (size_tiered.rs:436-450, leveled.rs:512-526) joins. -/
def endedSettle (s : Store kd) : List (kd.Job × Nat) := if s.handle then ended 2 s else []

/-- The compactions that end while `flush` (map.rs:476-481) runs. -/
def endedFlush [LinearOrder K] (c : Cfg K V) (s : Store kd) : List (kd.Job × Nat) :=
  match s.mem with
  | [] => endedSettle s
  | _ :: _ => match s.tryCompact c with
    | none => []
    | some s => endedSettle s

/-- The compactions that end during a call (map.rs:129-514) after `d` events of the thread. -/
def endedStep [LinearOrder K] (c : Cfg K V) (s : Store kd) (op : KvOp K V) (d : Nat) : List (kd.Job × Nat) :=
  ended d s ++ match op with
    | .len | .isEmpty | .iter | .hold | .flush | .reopen => endedFlush c (work d s)
    | _ => []

/-- What is left over by the compactions of a history since the last `clear`, when each leaves what `w` says, and
`acc` was there before. -/
def left {α : Type} [LinearOrder K] [DecidableEq V] (c : Cfg K V) (w : kd.Job → Nat → List α) :
    Store kd → List (KvOp K V × Nat) → List α → List α
  | _, [], acc => acc
  | s, (op, d) :: ops, acc =>
    match s.step c op d with
    | none => acc
    | some (s', _) =>
      left c w s' ops (if op = .clear then [] else acc ++ (endedStep c s op d).flatMap fun x => w x.1 x.2)

/-- The tables that a compaction writes and that are not part of its result. -/
def waste (kd : Kind K V) (j : kd.Job) (f : Nat) : List (Table K V) :=
  match kd.compact j f with
  | none => []
  | some (m, new) => new.filter fun t => t.id ∉ (kd.tabs m).map (·.id)

/-- The names of the directories that the map uses: the tables it reads, and those of a result not yet taken over. -/
def inUse (s : Store kd) : List Nat :=
  (kd.tabs s.cur).map (·.id) ++ match s.next with
    | none => []
    | some m => (kd.tabs m).map (·.id)

/-- The tables on the disk that the map does not use. -/
def lost (s : Store kd) : List (Table K V) := s.disk.dirs.filter fun t => t.id ∉ s.inUse

end Store

/-! ### Every call -/

section

variable [LinearOrder K] {kd : Kind K V} {x : Bool} {L : Laws kd x} {c : Cfg K V}

/-- A result that is taken over stays, and nothing else but tables that were there. -/
def Takes (kd : Kind K V) : Prop :=
  (∀ cur m, ∀ t ∈ kd.tabs m, t ∈ kd.tabs (kd.replace cur m)) ∧
  ∀ cur m, ∀ t ∈ kd.tabs (kd.replace cur m), t ∈ kd.tabs m ∨ t ∈ kd.tabs cur

omit [LinearOrder K] in
theorem lost_congr {s s' : Store kd} (h1 : s'.cur = s.cur) (h2 : s'.next = s.next) (h3 : s'.disk.dirs = s.disk.dirs) :
    s'.lost = s.lost := by
  unfold lost inUse; rw [h1, h2, h3]

theorem lost_deliver {s : Store kd} {g : Ghost K V} (h : Store.Inv L c s g) :
    s.deliver.lost = s.lost ++ (ended 1 s).flatMap fun x : kd.Job × Nat => waste kd x.1 x.2 := by
  simp only [ended, List.append_nil]
  cases hj : s.job with
  | none => rw [deliver_none hj]; simp only [List.flatMap_nil, List.append_nil]; rfl
  | some j =>
    obtain ⟨h1, -, S, h3, h4, h5⟩ := h.job j hj
    cases hc : kd.compact j s.fresh with
    | none =>
      have : s.deliver = s := by unfold deliver; rw [hj]; simp only; rw [hc]
      rw [this]
      simp only [hc, Option.isSome_none, Bool.false_eq_true, if_false, List.flatMap_nil, List.append_nil]
    | some q =>
      obtain ⟨m, new⟩ := q
      obtain ⟨k1, k2⟩ := L.compact_new h3 h5 hc
      have hid : ∀ u ∈ new, s.fresh ≤ u.id := by
        intro u hu
        have : u.id ∈ new.map (·.id) := List.mem_map.2 ⟨u, hu, rfl⟩
        rw [k1, List.mem_range'_1] at this
        exact this.1
      have hsub := Ext.sub L h4
      simp only [hc, waste, Option.isSome_some, if_true, List.append_nil, List.flatMap_cons, List.flatMap_nil]
      have e : s.deliver = put { s with next := some m, job := none, fresh := s.fresh + new.length }
          { s.disk with dirs := s.disk.dirs ++ new } := by
        unfold deliver; rw [hj]; simp only; rw [hc]
      rw [e]
      unfold Store.lost inUse put
      simp only [h1, List.append_nil, List.filter_append]
      congr 1
      · apply List.filter_congr
        intro t ht
        have hlt := h.dirNew t ht
        simp only [List.mem_append, not_or, decide_eq_decide]
        refine ⟨fun h => h.1, fun hn => ⟨hn, fun hm => ?_⟩⟩
        obtain ⟨u, hu, e⟩ := List.mem_map.1 hm
        rcases k2 u hu with h6 | h6
        · exact hn (List.mem_map.2 ⟨u, hsub u h6, e⟩)
        · have := hid u h6; omega
      · apply List.filter_congr
        intro t ht
        simp only [List.mem_append, not_or, decide_eq_decide]
        refine ⟨fun h => h.2, fun hn => ⟨fun hm => ?_, hn⟩⟩
        obtain ⟨u, hu, e⟩ := List.mem_map.1 hm
        have h6 := h.dirNew u (h.files u hu)
        have := hid t ht
        omega

theorem lost_work {g : Ghost K V} : ∀ (n : Nat) {s : Store kd}, Store.Inv L c s g →
    (work n s).lost = s.lost ++ (ended n s).flatMap fun x : kd.Job × Nat => waste kd x.1 x.2
  | 0, s, _ => by simp [work, ended]
  | n + 1, s, h => by
    have h1 := lost_work n (inv_deliver h)
    have h2 := lost_deliver h
    simp only [work]
    rw [h1, h2]
    simp only [ended, List.append_nil, List.flatMap_append, List.append_assoc]

theorem lost_tryReplace (hT : Takes kd) {s s' : Store kd} (ht : s.tryReplace = some s') :
    s'.lost = s.lost := by
  unfold tryReplace at ht
  cases hn : s.next with
  | none => rw [hn] at ht; cases ht; rfl
  | some m =>
    rw [hn] at ht
    simp only [Option.map_eq_some_iff] at ht
    obtain ⟨s2, h2, rfl⟩ := ht
    obtain ⟨tr, rfl, -⟩ := removeDirs_some h2
    unfold lost inUse writeMeta put
    simp only [hn, List.append_nil, List.filter_filter]
    apply List.filter_congr
    intro t ht
    rw [Bool.eq_iff_iff]
    simp only [Bool.and_eq_true, decide_eq_true_eq, List.mem_append, not_or]
    have hin : ∀ (l : List (Table K V)) (i : Nat), i ∈ l.map (·.id) ↔ ∃ u ∈ l, u.id = i := by
      intro l i; simp
    constructor
    · rintro ⟨a, b⟩
      refine ⟨fun hm => ?_, fun hm => ?_⟩
      · obtain ⟨u, hu, e⟩ := (hin _ _).1 hm
        apply b
        refine (hin _ _).2 ⟨u, List.mem_filter.2 ⟨hu, ?_⟩, e⟩
        simp only [decide_eq_true_eq]
        rw [e]
        exact a
      · obtain ⟨u, hu, e⟩ := (hin _ _).1 hm
        exact a ((hin _ _).2 ⟨u, hT.1 _ _ u hu, e⟩)
    · rintro ⟨a, b⟩
      refine ⟨fun hm => ?_, fun hm => ?_⟩
      · obtain ⟨u, hu, e⟩ := (hin _ _).1 hm
        rcases hT.2 _ _ u hu with h3 | h3
        · exact b ((hin _ _).2 ⟨u, h3, e⟩)
        · exact a ((hin _ _).2 ⟨u, h3, e⟩)
      · obtain ⟨u, hu, e⟩ := (hin _ _).1 hm
        exact a ((hin _ _).2 ⟨u, (List.mem_filter.1 hu).1, e⟩)

theorem lost_tryCompact (hT : Takes kd) {s s' : Store kd} {g : Ghost K V} (h : Store.Inv L c s g) (hm : s.mem ≠ [])
    (hg : L.good s.mem) (ht : s.tryCompact c = some s') : s'.lost = s.lost := by
  obtain ⟨t, h1, -, hI⟩ := inv_pushTable h hm hg
  obtain ⟨t', h1', h2', h3', h4'⟩ := build_ok (z := c.sizes) (n := c.block s.mem.length) h.memSorted hm s.fresh
  rw [h1] at h1'
  cases h1'
  have hp : (s.pushTable t).lost = s.lost := by
    unfold pushTable lost inUse writeMeta put
    simp only [List.filter_append]
    have hmem : ∀ i, i ∈ (kd.tabs (kd.push s.cur t)).map (·.id) ↔ i = t.id ∨ i ∈ (kd.tabs s.cur).map (·.id) := by
      intro i
      rw [((L.tabs_push s.cur t).map (·.id)).mem_iff]
      simp
    have e2 : ([t] : List (Table K V)).filter (fun u => decide (u.id ∉ (kd.tabs (kd.push s.cur t)).map (·.id) ++
        match s.next with | none => [] | some m => (kd.tabs m).map (·.id))) = [] := by
      simp only [List.filter_eq_nil_iff, List.mem_singleton, decide_eq_true_eq, not_not]
      rintro u rfl
      exact List.mem_append_left _ ((hmem _).2 (.inl rfl))
    rw [e2, List.append_nil]
    apply List.filter_congr
    intro u hu
    have := h.dirNew u hu
    simp only [List.mem_append, not_or, decide_eq_decide, hmem]
    constructor
    · rintro ⟨⟨-, a⟩, b⟩; exact ⟨a, b⟩
    · rintro ⟨a, b⟩
      refine ⟨⟨?_, a⟩, b⟩
      intro e
      rw [h4'] at e
      omega
  unfold tryCompact at ht
  rw [h1] at ht
  simp only at ht
  rw [← hp]
  unfold start at ht
  split at ht
  · cases ht; rfl
  · split at ht
    · cases ht
    · rename_i s1 h2
      have := lost_tryReplace hT h2
      split at ht
      · cases ht; exact this
      · cases ht; exact this

theorem lost_settle (hT : Takes kd) {s s' : Store kd} {g : Ghost K V} (h : Store.Inv L c s g) (ht : s.settle = some s') :
    s'.lost = s.lost ++ (endedSettle s).flatMap fun x : kd.Job × Nat => waste kd x.1 x.2 := by
  unfold settle at ht
  unfold endedSettle
  split at ht
  · rename_i hc
    rw [if_pos hc]
    cases hj : s.join with
    | none => rw [hj] at ht; cases ht
    | some s1 =>
      rw [hj] at ht
      simp only at ht
      obtain ⟨h1, -⟩ := inv_join h hj
      have h1' : Store.Inv L c { s1 with handle := false } g :=
        ⟨h1.memSorted, h1.memTime, h1.memNew, h1.curTime, h1.inv, h1.sees, h1.ids, h1.job, h1.next, h1.locked, h1.files,
          h1.dirIds, h1.dirNew, h1.md, h1.time, h1.used, h1.usedEq, h1.vals, h1.memVals⟩
      rw [lost_tryReplace hT ht, ← lost_work 2 h]
      unfold join at hj
      simp only at hj
      split at hj
      · cases hj
      · cases hj; rfl
  · rename_i hc
    cases ht
    rw [if_neg hc]
    simp

theorem lost_flush (hT : Takes kd) {s s' : Store kd} {g : Ghost K V} (h : Store.Inv L c s g) (hh : s.Hand)
    (hg : s.mem ≠ [] → L.good s.mem) (ht : s.flush c = some s') :
    s'.lost = s.lost ++ (endedFlush c s).flatMap fun x : kd.Job × Nat => waste kd x.1 x.2 := by
  unfold flush at ht
  unfold endedFlush
  cases hm : s.mem with
  | nil =>
    rw [hm] at ht
    exact lost_settle hT h ht
  | cons e l =>
    rw [hm] at ht
    simp only at ht ⊢
    have hne : s.mem ≠ [] := by rw [hm]; simp
    obtain ⟨s1, h1, h2, -⟩ := inv_tryCompact h hh hne (hg hne)
    rw [h1] at ht ⊢
    rw [lost_settle hT h2 ht, lost_tryCompact hT h hne (hg hne) h1]

theorem lost_write (hT : Takes kd) (hgood : ∀ l, L.good l) {s s' : Store kd} {g : Ghost K V} (h : Store.Inv L c s g) (k : K)
    (data : Option V) (ht : s.write c k data = some s') : s'.lost = s.lost := by
  obtain ⟨u, hu, hu1, hu2⟩ := usageAfter_some h k ⟨data, s.clock⟩
  have hI := inv_noted h hu1 hu2
  have hf : (s.noted k data u).lost = s.lost := rfl
  rw [write_eq hu] at ht
  rw [← hf]
  split at ht
  · refine lost_tryCompact hT hI ?_ (hgood _) ht
    intro he
    have : (k, (⟨data, s.clock⟩ : Val V)) ∈ SL.ins k ⟨data, s.clock⟩ s.mem := mem_ins_key
    rw [show SL.ins k ⟨data, s.clock⟩ s.mem = (s.noted k data u).mem from rfl, he] at this
    simp at this
  · cases ht; rfl

variable [DecidableEq V]

theorem lost_step (hT : Takes kd) (hgood : ∀ l, L.good l) {s s' : Store kd} {g : Ghost K V} {op : KvOp K V} {d : Nat}
    {r : KvRes K V} (h : Store.Inv L c s g) (hh : s.Hand) (hs : s.step c op d = some (s', r)) :
    s'.lost = if op = .clear then [] else s.lost ++ (endedStep c s op d).flatMap fun x : kd.Job × Nat => waste kd x.1 x.2 := by
  have hw : Store.Inv L c (work d s) g := inv_work d h
  have hhw : (work d s).Hand := hand_work d hh
  have hl := lost_work d h
  have fl : ∀ {s2}, (work d s).flush c = some s2 → ∃ g', Store.Inv L c s2 g' ∧ s2.mem = [] ∧ s2.next = none ∧
      s2.lost = s.lost ++ (ended d s ++ endedFlush c (work d s)).flatMap fun x : kd.Job × Nat => waste kd x.1 x.2 := by
    intro s2 h2
    obtain ⟨k1, k2, k3, k4, -⟩ := inv_flush hw hhw (fun _ => hgood _) h2
    refine ⟨_, k1, k4, k3, ?_⟩
    rw [lost_flush hT hw hhw (fun _ => hgood _) h2, hl, List.flatMap_append, List.append_assoc]
  have rp : ∀ {s2}, (work d s).tryReplace = some s2 →
      s2.lost = s.lost ++ (ended d s ++ []).flatMap fun x : kd.Job × Nat => waste kd x.1 x.2 := by
    intro s2 h2
    rw [lost_tryReplace hT h2, hl, List.append_nil]
  have rd : ∀ {s2 s3 : Store kd}, (work d s).flush c = some s2 → s2.tryReplace = some s3 →
      s3.lost = s.lost ++ (ended d s ++ endedFlush c (work d s)).flatMap fun x : kd.Job × Nat => waste kd x.1 x.2 := by
    intro s2 s3 h2 h3
    obtain ⟨g', k1, -, -, k3⟩ := fl h2
    rw [lost_tryReplace hT h3, k3]
  have idl : ∀ {s2 : Store kd}, s2.lost = (work d s).lost →
      s2.lost = s.lost ++ (ended d s ++ []).flatMap fun x : kd.Job × Nat => waste kd x.1 x.2 := by
    intro s2 h2
    rw [h2, hl, List.append_nil]
  cases op with
  | insert k v =>
    simp only [step, Option.map_eq_some_iff, Prod.mk.injEq] at hs
    obtain ⟨s2, h2, rfl, rfl⟩ := hs
    rw [if_neg (by simp)]
    exact idl (lost_write hT hgood hw k (some v) h2)
  | remove k =>
    simp only [step, Option.map_eq_some_iff, Prod.mk.injEq] at hs
    obtain ⟨s2, h2, rfl, rfl⟩ := hs
    rw [if_neg (by simp)]
    exact idl (lost_write hT hgood hw k none h2)
  | get k =>
    rw [if_neg (by simp)]
    simp only [step] at hs
    cases hf : SL.find k (work d s).mem with
    | some e =>
      rw [hf] at hs
      simp only [Option.some.injEq, Prod.mk.injEq] at hs
      obtain ⟨rfl, rfl⟩ := hs
      exact idl rfl
    | none =>
      rw [hf] at hs
      simp only [Option.map_eq_some_iff, Prod.mk.injEq] at hs
      obtain ⟨s2, h2, rfl, rfl⟩ := hs
      exact rp h2
  | containsKey k =>
    rw [if_neg (by simp)]
    simp only [step] at hs
    cases hf : SL.find k (work d s).mem with
    | some e =>
      rw [hf] at hs
      simp only [Option.some.injEq, Prod.mk.injEq] at hs
      obtain ⟨rfl, rfl⟩ := hs
      exact idl rfl
    | none =>
      rw [hf] at hs
      simp only [Option.map_eq_some_iff, Prod.mk.injEq] at hs
      obtain ⟨s2, h2, rfl, rfl⟩ := hs
      exact rp h2
  | lenHint =>
    rw [if_neg (by simp)]
    simp only [step, Option.bind_eq_some_iff, Option.map_eq_some_iff, Prod.mk.injEq] at hs
    obtain ⟨s2, h2, n, h3, rfl, rfl⟩ := hs
    exact rp h2
  | min =>
    rw [if_neg (by simp)]
    simp only [step, Option.map_eq_some_iff, Prod.mk.injEq] at hs
    obtain ⟨s2, h2, rfl, rfl⟩ := hs
    exact rp h2
  | max =>
    rw [if_neg (by simp)]
    simp only [step, Option.map_eq_some_iff, Prod.mk.injEq] at hs
    obtain ⟨s2, h2, rfl, rfl⟩ := hs
    exact rp h2
  | len =>
    rw [if_neg (by simp)]
    simp only [step, Option.bind_eq_some_iff, Option.map_eq_some_iff, Prod.mk.injEq] at hs
    obtain ⟨s2, h2, s3, h3, rfl, rfl⟩ := hs
    exact rd h2 h3
  | isEmpty =>
    rw [if_neg (by simp)]
    simp only [step, Option.bind_eq_some_iff, Option.map_eq_some_iff, Prod.mk.injEq] at hs
    obtain ⟨s2, h2, s3, h3, rfl, rfl⟩ := hs
    exact rd h2 h3
  | iter =>
    rw [if_neg (by simp)]
    simp only [step, Option.bind_eq_some_iff, Option.map_eq_some_iff, Prod.mk.injEq] at hs
    obtain ⟨s2, h2, s3, h3, rfl, rfl⟩ := hs
    exact rd h2 h3
  | hold =>
    rw [if_neg (by simp)]
    simp only [step, Option.bind_eq_some_iff, Option.map_eq_some_iff, Prod.mk.injEq] at hs
    obtain ⟨s2, h2, s3, h3, rfl, rfl⟩ := hs
    have := rd h2 h3
    exact this
  | release =>
    rw [if_neg (by simp)]
    simp only [step, Option.some.injEq, Prod.mk.injEq] at hs
    obtain ⟨rfl, rfl⟩ := hs
    exact idl rfl
  | flush =>
    rw [if_neg (by simp)]
    simp only [step, Option.map_eq_some_iff, Prod.mk.injEq] at hs
    obtain ⟨s2, h2, rfl, rfl⟩ := hs
    exact (fl h2).choose_spec.2.2.2
  | clear =>
    rw [if_pos rfl]
    simp only [step, Option.map_eq_some_iff, Prod.mk.injEq] at hs
    obtain ⟨s2, h2, rfl, rfl⟩ := hs
    unfold Store.clear at h2
    simp only at h2
    split at h2
    · cases h2
    · simp only [Option.map_eq_some_iff] at h2
      obtain ⟨s3, h3, rfl⟩ := h2
      obtain ⟨tr, rfl, -⟩ := removeDirs_some h3
      unfold lost writeMeta put
      simp only [List.filter_filter, List.filter_eq_nil_iff, Bool.and_eq_true, decide_eq_true_eq, not_and]
      intro t ht _ hn
      exact hn (List.mem_map.2 ⟨t, ht, rfl⟩)
  | reopen =>
    rw [if_neg (by simp)]
    simp only [step, Option.bind_eq_some_iff, Option.map_eq_some_iff, Prod.mk.injEq] at hs
    obtain ⟨s2, h2, s3, h3, rfl, rfl⟩ := hs
    obtain ⟨g', k1, k2, k3, k4⟩ := fl h2
    have hd : s3.lost = s2.lost := by
      have hmd := k1.md
      unfold openDir at h3
      split at h3
      · cases h3
      · split at h3
        · cases h3
          exact lost_congr hmd k3.symm rfl
        · cases h3
    rw [hd]
    exact k4

/-- The tables on the disk that the map does not use, after any history. -/
theorem lost_run (hT : Takes kd) (hgood : ∀ l, L.good l) : ∀ (ops : List (KvOp K V × Nat)) {s s' : Store kd} {g : Ghost K V}
    {rs : List (KvRes K V)}, Store.Inv L c s g → s.Hand → run c s ops = some (s', rs) →
    s'.lost = left c (waste kd) s ops s.lost
  | [], s, s', g, rs, _, _, hr => by
    simp only [run, Option.some.injEq, Prod.mk.injEq] at hr
    rw [← hr.1]; rfl
  | (op, d) :: ops, s, s', g, rs, h, hh, hr => by
    obtain ⟨s1, r, rs', h1, h2, -⟩ := run_cons hr
    obtain ⟨W', k1, k2, -⟩ := inv_step h hh (fun _ _ => hgood _) h1
    rw [lost_run hT hgood ops k1 k2 h2]
    simp only [left, h1]
    rw [lost_step hT hgood h hh h1]

end

/-! ### The two strategies -/

variable [LinearOrder K]

theorem SizeTiered.takes (c : Cfg K V) (p : SizeTiered.Params) : Takes (SizeTiered.kind c p) := by
  constructor
  · intro cur m t ht
    exact List.mem_append_left _ ht
  · intro cur m t ht
    rcases List.mem_append.1 ht with h | h
    · exact .inl h
    · exact .inr (List.mem_filter.1 h).1

theorem Leveled.takes (c : Cfg K V) (p : Leveled.Params) : Takes (Leveled.kind c p) := by
  constructor
  · intro cur m t ht
    rcases List.mem_append.1 ht with h | h
    · exact List.mem_append_left _ (List.mem_append_left _ h)
    · exact List.mem_append_right _ h
  · intro cur m t ht
    rcases List.mem_append.1 ht with h | h
    · rcases List.mem_append.1 h with h | h
      · exact .inl (List.mem_append_left _ h)
      · exact .inr (List.mem_append_left _ (List.mem_filter.1 h).1)
    · exact .inl (List.mem_append_right _ h)

/-- A size-tiered compaction writes at most one table, which is part of its result. -/
theorem SizeTiered.waste_nil (c : Cfg K V) (p : SizeTiered.Params) (j : (SizeTiered.kind c p).Job) (f : Nat) :
    waste (SizeTiered.kind c p) j f = [] := by
  unfold waste
  cases h : (SizeTiered.kind c p).compact j f with
  | none => rfl
  | some q =>
    obtain ⟨m, new⟩ := q
    simp only [SizeTiered.compact] at h
    split at h
    · simp only [Option.some.injEq, Prod.mk.injEq] at h
      obtain ⟨rfl, rfl⟩ := h
      rfl
    · split at h
      · cases h
      · simp only [Option.some.injEq, Prod.mk.injEq] at h
        obtain ⟨rfl, rfl⟩ := h
        simp

variable [DecidableEq V]

theorem left_nil {α : Type} {kd : Kind K V} {c : Cfg K V} {w : kd.Job → Nat → List α} (hw : ∀ j f, w j f = []) :
    ∀ (ops : List (KvOp K V × Nat)) (s : Store kd), left c w s ops [] = []
  | [], _ => rfl
  | (op, d) :: ops, s => by
    simp only [left]
    split
    · rfl
    · rw [show ((endedStep c s op d).flatMap fun x : kd.Job × Nat => w x.1 x.2) = [] by simp [hw]]
      simp [left_nil hw ops]

/-- C67 with `SizeTieredStrategy`: after every history, every table on the disk is one that the map uses: one that it
reads, or one of a finished compaction whose result it has not taken over yet. -/
theorem C67_sizeTiered (c : Cfg K V) (p : SizeTiered.Params) (ops : List (KvOp K V × Nat))
    {s : Store (SizeTiered.kind c p)} {rs : List (KvRes K V)}
    (hr : run c (new (SizeTiered.kind c p)) ops = some (s, rs)) :
    ∀ t ∈ s.disk.dirs, t.id ∈ s.inUse := by
  have h := lost_run (L := SizeTiered.lawsU c p) (SizeTiered.takes c p) (fun _ => trivial) ops (inv_new _ c) hand_new hr
  rw [show (new (SizeTiered.kind c p)).lost = [] from rfl, left_nil (SizeTiered.waste_nil c p)] at h
  intro t ht
  by_contra hn
  have : t ∈ s.lost := List.mem_filter.2 ⟨ht, by simpa using hn⟩
  rw [h] at this
  simp at this

/-- C67 with `LeveledStrategy`: after every history, the tables on the disk that the map does not use are exactly those
that a compaction wrote and merged into others before it ended, since the last `clear`.  (A compaction that never ends,
see `C45_ends_exact`, writes tables that the model does not record.) -/
theorem C67_leveled_exact (c : Cfg K V) (p : Leveled.Params) (ops : List (KvOp K V × Nat))
    {s : Store (Leveled.kind c p)} {rs : List (KvRes K V)}
    (hr : run c (new (Leveled.kind c p)) ops = some (s, rs)) :
    s.lost = left c (waste (Leveled.kind c p)) (new (Leveled.kind c p)) ops [] :=
  lost_run (L := Leveled.laws c p) (Leveled.takes c p) (fun _ => trivial) ops (inv_new _ c) hand_new hr

/-! ### Directories without a table -/

/-- size_tiered.rs:121-150: the directories without a table that a compaction leaves: its builder creates one, and is
flushed only if it got an entry. -/
def SizeTiered.bare (j : List (Table K V) × (Nat × Nat)) : Nat :=
  let old := (j.1.drop j.2.1).take (j.2.2 - j.2.1)
  let rest := j.1.take j.2.1 ++ j.1.drop j.2.2
  if (mergeRuns (old.map (·.entries))).filter (fun e => !purge old rest || e.2.data.isSome) = [] then 1 else 0

namespace Leveled

/-- leveled.rs:331-349 and 404-425: whether the last builder of `split` got no entry. -/
def splitBare (z : Sizes K V) (bs maxSize : Nat) (drop : Bool) : List (Ent K V) → Builder K V → Nat
  | [], b => if b.range.isSome then 0 else 1
  | e :: es, b =>
    let b := if !drop || e.2.data.isSome then b.append z e else b
    if maxSize < b.size then splitBare z bs maxSize drop es (Builder.new bs) else splitBare z bs maxSize drop es b

/-- leveled.rs:379-425: the builder of one round of the inner loop.  It is created before the test for a new level. -/
def sinkBare (c : Cfg K V) (p : Params) (hint : Nat) (cur : Level K V) (rest : List (Level K V)) : Nat :=
  match pickTable cur with
  | none => 0
  | some e =>
    match SL.find e.2.range.2 cur with
    | none => 0
    | some x =>
      match rest with
      | [] => 1
      | next :: deeper =>
        splitBare c.sizes (c.block hint) p.maxSize deeper.isEmpty
          (mergeRuns [x.2.entries, entriesOf (next.filter fun y => isIntersecting x.2.range y.2.range)])
          (Builder.new (c.block hint))

/-- leveled.rs:364-426: the inner loop, as in `drain`. -/
def drainBare (c : Cfg K V) (p : Params) (hint lim : Nat) : Nat → Level K V → List (Level K V) → Nat → Nat
  | 0, _, _, _ => 0
  | n + 1, cur, rest, f =>
    if cur.length ≤ lim then 0
    else match sink c p hint cur rest f with
      | none => 0
      | some (cur', rest', out) => sinkBare c p hint cur rest + drainBare c p hint lim n cur' rest' (f + out.length)

/-- leveled.rs:352-427: the outer loop, as in `down`. -/
def downBare (c : Cfg K V) (p : Params) (hint : Nat) : Nat → Nat → List (Level K V) → Nat → Nat
  | _, _, [], _ => 0
  | 0, _, _ :: _, _ => 0
  | n + 1, index, cur :: rest, f =>
    drainBare c p hint (limit p index) cur.length cur rest f +
      match drain c p hint (limit p index) cur.length cur rest f with
      | none => 0
      | some (_, rest, out) => downBare c p hint n (index + 1) rest (f + out.length)

/-- leveled.rs:294-435: the directories without a table that a compaction leaves, as in `compact`. -/
def bare (c : Cfg K V) (p : Params) (m : Meta K V) (f : Nat) : Nat :=
  splitBare c.sizes (c.block (hintOf m)) p.maxSize (firstLevel m.levels).2.isEmpty
    (mergeRuns (m.l0.map (·.entries) ++ [entriesOf (firstLevel m.levels).1])) (Builder.new (c.block (hintOf m))) +
  match compact0 c p m f with
  | none => 0
  | some out =>
    downBare c p (hintOf m) (m.levels.length + size (m.l0 ++ tabsL m.levels) + 1) 0
      (out.foldl insertTable [] :: (firstLevel m.levels).2) (f + out.length)

end Leveled

/-- The number of directories without a table after a history with `LeveledStrategy`. -/
def Leveled.bareAfter (c : Cfg K V) (p : Leveled.Params) (ops : List (KvOp K V × Nat)) : Nat :=
  (left (kd := Leveled.kind c p) c (fun j f => [Leveled.bare c p j f]) (new (Leveled.kind c p)) ops []).sum

/-- The number of directories without a table after a history with `SizeTieredStrategy`. -/
def SizeTiered.bareAfter (c : Cfg K V) (p : SizeTiered.Params) (ops : List (KvOp K V × Nat)) : Nat :=
  (left (kd := SizeTiered.kind c p) c (fun j _ => [SizeTiered.bare j]) (new (SizeTiered.kind c p)) ops []).sum


/-! ### Two keys, and as many lost tables as one likes -/

namespace Churn

/-- Keys and values without bytes, one entry in a block, and an in-memory tree that is written only by `flush`. -/
def cfg : Cfg Nat Nat := ⟨⟨fun _ => 0, fun _ => 0⟩, fun _ => 1, 1000⟩

/-- Compact at every flush, tables of one entry, one table in each level. -/
def params : Leveled.Params := ⟨0, 0, 1, 1⟩

/-- The strategy. -/
abbrev kd : Kind Nat Nat := Leveled.kind cfg params

/-- A table of one entry. -/
def tab (k v t i : Nat) : Table Nat Nat := ⟨i, 1, 0, 41, (k, k), (t, t), [(k, ⟨some v, t⟩)]⟩

/-- The table that `flush` writes after both keys were inserted. -/
def tab2 (v w t i : Nat) : Table Nat Nat :=
  ⟨i, 2, 0, 82, (1, 2), (t, t + 1), [(1, ⟨some v, t⟩), (2, ⟨some w, t + 1⟩)]⟩

/-- Write both keys again. -/
def round : List (KvOp Nat Nat × Nat) := [(.insert 1 0, 0), (.insert 2 0, 0), (.flush, 0)]

/-- `n` rounds. -/
def rounds : Nat → List (KvOp Nat Nat × Nat)
  | 0 => []
  | n + 1 => round ++ rounds n

/-- Between two rounds: one table in each of two levels. -/
def Idle (s : Store kd) : Prop :=
  s.mem = [] ∧ s.usage = 0 ∧ s.next = none ∧ s.job = none ∧ s.busy = false ∧ s.locks = 0 ∧
  ∃ v w t1 t2 i1 i2, s.cur = ⟨[], [[(1, tab 1 v t1 i1)], [(2, tab 2 w t2 i2)]]⟩ ∧ t1 < s.clock ∧ t2 < s.clock

theorem merge1 {v w v' t t1 : Nat} (h1 : t1 < t) :
    mergeRuns [[(1, (⟨some v, t⟩ : Val Nat)), (2, ⟨some w, t + 1⟩)], [(1, ⟨some v', t1⟩)]] =
      [(1, ⟨some v, t⟩), (2, ⟨some w, t + 1⟩)] := by
  simp [mergeRuns, total, mergeLoop, pick, before, Nat.not_lt.2 h1.le]

theorem merge2 {w w' t t2 : Nat} (h2 : t2 < t) :
    mergeRuns [[(2, (⟨some w, t + 1⟩ : Val Nat))], [(2, ⟨some w', t2⟩)]] = [(2, ⟨some w, t + 1⟩)] := by
  have h2 : t2 < t + 1 := by omega
  simp [mergeRuns, total, mergeLoop, pick, before, Nat.not_lt.2 h2.le]

theorem compact_eq {v w v' w' t t1 t2 i i1 i2 f : Nat} (h1 : t1 < t) (h2 : t2 < t) :
    Leveled.compact cfg params ⟨[tab2 v w t i], [[(1, tab 1 v' t1 i1)], [(2, tab 2 w' t2 i2)]]⟩ f =
      some (⟨[], [[(1, tab 1 v t f)], [(2, tab 2 w (t + 1) (f + 2))]]⟩,
        [tab 1 v t f, tab 2 w (t + 1) (f + 1), tab 2 w (t + 1) (f + 2)]) := by
  simp [tab, tab2, Leveled.compact, Leveled.compactN, Leveled.compact0, Leveled.firstLevel, Leveled.entriesOf, merge1 h1,
    merge2 h2, cfg, params, Leveled.split, Builder.new, Builder.append, Builder.flush, addKey, addTime, Sizes.entry,
    Sizes.value, Leveled.size, Leveled.insertTable, Leveled.down, Leveled.drain, Leveled.sink, Leveled.pickTable,
    Leveled.limit, SL.ins, SL.find, SL.del, isIntersecting]

theorem bare_eq {v w v' w' t t1 t2 i i1 i2 f : Nat} (h1 : t1 < t) (h2 : t2 < t) :
    Leveled.bare cfg params ⟨[tab2 v w t i], [[(1, tab 1 v' t1 i1)], [(2, tab 2 w' t2 i2)]]⟩ f = 2 := by
  simp [tab, tab2, Leveled.bare, Leveled.compact0, Leveled.firstLevel, Leveled.entriesOf, merge1 h1,
    merge2 h2, cfg, params, Leveled.split, Builder.new, Builder.append, Builder.flush, addKey, addTime, Sizes.entry,
    Sizes.value, Leveled.size, Leveled.insertTable, Leveled.downBare, Leveled.drainBare, Leveled.sinkBare,
    Leveled.splitBare, Leveled.drain, Leveled.sink, Leveled.pickTable,
    Leveled.limit, SL.ins, SL.find, SL.del, isIntersecting]

end Churn


namespace Churn

theorem build_eq {v w t f : Nat} : build cfg.sizes (cfg.block 2) [(1, ⟨some v, t⟩), (2, ⟨some w, t + 1⟩)] f = some (tab2 v w t f) := by
  simp [build, tab2, cfg, Builder.appendAll, Builder.new, Builder.append, Builder.flush, addKey, addTime, Sizes.entry, Sizes.value]

/-- What one round does. -/
theorem round_spec {s s' : Store kd} {rs : List (KvRes Nat Nat)} (h : Idle s) (hr : run cfg s round = some (s', rs)) :
    Idle s' ∧ ∃ v w v' w' t t1 t2 i i1 i2 f, t1 < t ∧ t2 < t ∧ ∀ {α : Type} (x : kd.Job → Nat → List α) (acc : List α),
      left cfg x s round acc = acc ++ x ⟨[tab2 v w t i], [[(1, tab 1 v' t1 i1)], [(2, tab 2 w' t2 i2)]]⟩ f := by
  obtain ⟨mem, usage, cur, next, job, busy, handle, clock, locks, fresh, disk, trace⟩ := s
  obtain ⟨rfl, rfl, rfl, rfl, rfl, rfl, v', w', t1, t2, i1, i2, rfl, h1, h2⟩ := h
  simp only at h1 h2
  have c1 := compact_eq (v := 0) (w := 0) (v' := v') (w' := w') (i := fresh) (i1 := i1) (i2 := i2) (f := fresh + 1) h1 h2
  have hb := build_eq (v := 0) (w := 0) (t := clock) (f := fresh)
  have e1 : ∃ d tr, Store.step (kd := kd) cfg ⟨[], 0, ⟨[], [[(1, tab 1 v' t1 i1)], [(2, tab 2 w' t2 i2)]]⟩, none, none, false, handle,
      clock, 0, fresh, disk, trace⟩ (.insert 1 0) 0 = some (⟨[(1, ⟨some 0, clock⟩)], 9,
        ⟨[], [[(1, tab 1 v' t1 i1)], [(2, tab 2 w' t2 i2)]]⟩, none, none, false, handle, clock + 1, 0, fresh, d, tr⟩, .unit) := by
    simp [Store.step, work, write, tick, put, usageAfter, SL.find, SL.ins, cfg, Sizes.entry, Sizes.value]
  obtain ⟨d1, tr1, e1⟩ := e1
  have e2 : ∃ d tr, Store.step (kd := kd) cfg ⟨[(1, ⟨some 0, clock⟩)], 9,
        ⟨[], [[(1, tab 1 v' t1 i1)], [(2, tab 2 w' t2 i2)]]⟩, none, none, false, handle, clock + 1, 0, fresh, d1, tr1⟩
        (.insert 2 0) 0 = some (⟨[(1, ⟨some 0, clock⟩), (2, ⟨some 0, clock + 1⟩)], 18,
        ⟨[], [[(1, tab 1 v' t1 i1)], [(2, tab 2 w' t2 i2)]]⟩, none, none, false, handle, clock + 2, 0, fresh, d, tr⟩, .unit) := by
    simp [Store.step, work, write, tick, put, usageAfter, SL.find, SL.ins, cfg, Sizes.entry, Sizes.value]
  obtain ⟨d2, tr2, e2⟩ := e2
  obtain ⟨s1, r1, rs1, k1, hr1, -⟩ := run_cons hr
  obtain ⟨s2, r2, rs2, k2, hr2, -⟩ := run_cons hr1
  obtain ⟨s3, r3, rs3, k3, hr3, -⟩ := run_cons hr2
  rw [e1] at k1; cases k1
  rw [e2] at k2; cases k2
  simp only [run, Option.some.injEq, Prod.mk.injEq] at hr3
  obtain ⟨rfl, -⟩ := hr3
  have hc : ∃ d tr, Store.tryCompact (kd := kd) cfg ⟨[(1, ⟨some 0, clock⟩), (2, ⟨some 0, clock + 1⟩)], 18,
        ⟨[], [[(1, tab 1 v' t1 i1)], [(2, tab 2 w' t2 i2)]]⟩, none, none, false, handle, clock + 2, 0, fresh, d2, tr2⟩ =
      some ⟨[], 0, ⟨[tab2 0 0 clock fresh], [[(1, tab 1 v' t1 i1)], [(2, tab 2 w' t2 i2)]]⟩, none,
        some ⟨[tab2 0 0 clock fresh], [[(1, tab 1 v' t1 i1)], [(2, tab 2 w' t2 i2)]]⟩, true, true, clock + 2, 0, fresh + 1, d, tr⟩ := by
    unfold tryCompact
    simp only [List.length_cons, List.length_nil]
    rw [hb]
    simp [start, pushTable, writeMeta, put, tryReplace, Leveled.plan, params]
  obtain ⟨d3, tr3, hc⟩ := hc
  refine ⟨?_, 0, 0, v', w', clock, t1, t2, fresh, i1, i2, fresh + 1, h1, h2, ?_⟩
  · simp only [step, work, flush, hc, Option.map_eq_some_iff, Prod.mk.injEq] at k3
    obtain ⟨s4, h4, rfl, -⟩ := k3
    simp only [settle, join, work, deliver, c1, put, if_true] at h4
    simp only [Option.isSome_none, Bool.false_eq_true, if_false, tryReplace, Option.map_eq_some_iff] at h4
    obtain ⟨s5, h5, rfl⟩ := h4
    obtain ⟨tr, rfl, -⟩ := removeDirs_some h5
    refine ⟨rfl, rfl, rfl, rfl, rfl, rfl, 0, 0, clock, clock + 1, fresh + 1, fresh + 3, ?_, ?_, ?_⟩
    · simp [writeMeta, put, Leveled.replace, tab, tab2, endTime, optLt]
    · simp [writeMeta, put]
    · simp [writeMeta, put]
  · intro α x acc
    simp only [round, left, e1, e2, k3]
    simp [endedStep, work, ended, endedFlush, hc, endedSettle, deliver, c1, put]

theorem left_cons {α : Type} (x : kd.Job → Nat → List α) : ∀ (ops : List (KvOp Nat Nat × Nat)) {s s' : Store kd}
    {rs : List (KvRes Nat Nat)} (_ : run cfg s ops = some (s', rs)) (more : List (KvOp Nat Nat × Nat)) (acc : List α),
    left cfg x s (ops ++ more) acc = left cfg x s' more (left cfg x s ops acc)
  | [], s, s', rs, hr, more, acc => by
    simp only [run, Option.some.injEq, Prod.mk.injEq] at hr
    rw [← hr.1]; rfl
  | (op, d) :: ops, s, s', rs, hr, more, acc => by
    obtain ⟨s1, r, rs', h1, h2, -⟩ := run_cons hr
    simp only [List.cons_append, left, h1]
    exact left_cons x ops h2 more _

theorem run_split : ∀ (ops : List (KvOp Nat Nat × Nat)) {s s' : Store kd} {rs : List (KvRes Nat Nat)}
    (more : List (KvOp Nat Nat × Nat)), run cfg s (ops ++ more) = some (s', rs) →
    ∃ s1 rs1 rs2, run cfg s ops = some (s1, rs1) ∧ run cfg s1 more = some (s', rs2)
  | [], s, s', rs, more, hr => ⟨s, [], rs, rfl, hr⟩
  | (op, d) :: ops, s, s', rs, more, hr => by
    obtain ⟨s1, r, rs', h1, h2, -⟩ := run_cons hr
    obtain ⟨s2, rs1, rs2, h3, h4⟩ := run_split ops more h2
    exact ⟨s2, r :: rs1, rs2, by simp [run, h1, h3], h4⟩

theorem rounds_spec : ∀ (n : Nat) {s s' : Store kd} {rs : List (KvRes Nat Nat)}, Idle s →
    run cfg s (rounds n) = some (s', rs) → Idle s' ∧
    (∀ acc, (left cfg (waste kd) s (rounds n) acc).length = acc.length + n) ∧
    ∀ acc, (left (kd := kd) cfg (fun j f => [Leveled.bare cfg params j f]) s (rounds n) acc).sum = acc.sum + 2 * n
  | 0, s, s', rs, h, hr => by
    simp only [rounds, run, Option.some.injEq, Prod.mk.injEq] at hr
    rw [← hr.1]
    exact ⟨h, fun acc => rfl, fun acc => rfl⟩
  | n + 1, s, s', rs, h, hr => by
    obtain ⟨s1, rs1, rs2, h1, h2⟩ := run_split round (rounds n) hr
    obtain ⟨h3, v, w, v', w', t, t1, t2, i, i1, i2, f, a1, a2, h4⟩ := round_spec h h1
    obtain ⟨k1, k2, k3⟩ := rounds_spec n h3 h2
    refine ⟨k1, fun acc => ?_, fun acc => ?_⟩
    · rw [rounds, left_cons _ round h1, k2, h4]
      have : (waste kd ⟨[tab2 v w t i], [[(1, tab 1 v' t1 i1)], [(2, tab 2 w' t2 i2)]]⟩ f).length = 1 := by
        unfold waste
        rw [show kd.compact ⟨[tab2 v w t i], [[(1, tab 1 v' t1 i1)], [(2, tab 2 w' t2 i2)]]⟩ f = _ from compact_eq a1 a2]
        simp [tab, Leveled.tabsL, Leveled.tabsOf]
      rw [List.length_append, this]
      omega
    · rw [rounds, left_cons _ round h1, k3, h4]
      simp only [bare_eq a1 a2, List.sum_append, List.sum_cons, List.sum_nil]
      omega

/-- The first round leads to the state between two rounds. -/
theorem first : ∃ s rs, run cfg (new kd) round = some (s, rs) ∧ Idle s :=
  ⟨_, _, rfl, rfl, rfl, rfl, rfl, rfl, rfl, 0, 0, 0, 1, 1, 2, rfl, by decide, by decide⟩

theorem contents_rounds : ∀ (n : Nat) (m : Nat → Option Nat), (∀ k, m k ≠ none → k = 1 ∨ k = 2) →
    ∀ k, ((rounds n).map (·.1)).foldl KvOp.apply m k ≠ none → k = 1 ∨ k = 2
  | 0, m, h, k, hk => h k hk
  | n + 1, m, h, k, hk => by
    simp only [rounds, round, List.map_cons, List.cons_append, List.nil_append,
      List.foldl_cons] at hk
    refine contents_rounds n _ ?_ k hk
    intro k hk
    by_contra hn
    push Not at hn
    obtain ⟨a, b⟩ := hn
    apply hk
    simp only [KvOp.apply]
    by_contra h'
    simp only [a, b, if_false] at h'
    rcases h k h' with h | h
    · exact a h
    · exact b h

end Churn

/-- C67 is false with `LeveledStrategy`: for every `n` there is a history that writes only two keys, after which the
disk holds `n` tables that the map does not use, and `2 * (n + 1)` directories without a table. -/
theorem C67_leveled_violated (n : Nat) : ∃ ops s rs, run Churn.cfg (new Churn.kd) ops = some (s, rs) ∧
    (∀ k, contents (ops.map (·.1)) k ≠ none → k = 1 ∨ k = 2) ∧ s.lost.length = n ∧
    Leveled.bareAfter Churn.cfg Churn.params ops = 2 * (n + 1) := by
  obtain ⟨q, hq⟩ := C36_returns Churn.cfg Churn.params (by decide) (by decide) (Churn.rounds (n + 1))
    (by simp [Churn.rounds, Churn.round, Opens])
  obtain ⟨s, rs⟩ := q
  refine ⟨_, s, rs, hq, ?_, ?_, ?_⟩
  · exact Churn.contents_rounds (n + 1) _ (by simp)
  · rw [C67_leveled_exact _ _ _ hq]
    obtain ⟨s1, rs1, rs2, h1, h2⟩ := Churn.run_split Churn.round (Churn.rounds n) hq
    obtain ⟨s1', rs1', h3, h4⟩ := Churn.first
    rw [h1] at h3
    cases h3
    rw [Churn.rounds, Churn.left_cons _ Churn.round h1, (Churn.rounds_spec n h4 h2).2.1]
    have : left Churn.cfg (waste Churn.kd) (new Churn.kd) Churn.round [] = [] := rfl
    rw [this]
    simp
  · unfold Leveled.bareAfter
    obtain ⟨s1, rs1, rs2, h1, h2⟩ := Churn.run_split Churn.round (Churn.rounds n) hq
    obtain ⟨s1', rs1', h3, h4⟩ := Churn.first
    rw [h1] at h3
    cases h3
    rw [Churn.rounds, Churn.left_cons _ Churn.round h1, (Churn.rounds_spec n h4 h2).2.2]
    have : left (kd := Churn.kd) Churn.cfg (fun j f => [Leveled.bare Churn.cfg Churn.params j f]) (new Churn.kd)
        Churn.round [] = [2] := rfl
    rw [this]
    simp only [List.sum_cons, List.sum_nil]
    omega

/-- C67 with `LeveledStrategy`: a table that is lost stays on the disk, also when the map is opened again, until `clear`,
which leaves none. -/
theorem C67_leveled_stays (c : Cfg K V) (p : Leveled.Params) (ops : List (KvOp K V × Nat))
    {s s' : Store (Leveled.kind c p)} {rs : List (KvRes K V)} {op : KvOp K V} {d : Nat} {r : KvRes K V}
    (hr : run c (new (Leveled.kind c p)) ops = some (s, rs)) (hs : s.step c op d = some (s', r)) :
    (op ≠ .clear → s.lost <+: s'.lost) ∧ (op = .clear → s'.disk.dirs = [] ∧ s'.lost = []) := by
  have hg := goodRun_true (kd := Leveled.kind c p) (good := (Leveled.laws c p).good) (c := c) (fun _ => trivial) ops (new _)
  obtain ⟨W, h1, h2, -⟩ := inv_reach (L := Leveled.laws c p) hg hr
  have h3 := lost_step (Leveled.takes c p) (fun _ => trivial) h1 h2 hs
  constructor
  · intro hn
    rw [if_neg hn] at h3
    rw [h3]
    exact List.prefix_append _ _
  · rintro rfl
    rw [if_pos rfl] at h3
    refine ⟨?_, h3⟩
    simp only [step, Option.map_eq_some_iff, Prod.mk.injEq] at hs
    obtain ⟨s2, k2, rfl, -⟩ := hs
    unfold Store.clear at k2
    simp only at k2
    split at k2
    · cases k2
    · simp only [Option.map_eq_some_iff] at k2
      obtain ⟨s3, k3, rfl⟩ := k2
      obtain ⟨tr, rfl, -⟩ := removeDirs_some k3
      simp only [writeMeta, put, List.filter_eq_nil_iff, decide_eq_true_eq, not_not]
      intro t ht
      exact List.mem_map.2 ⟨t, ht, rfl⟩

/-- C67 is false with `SizeTieredStrategy` for directories without a table: this compaction of one table with one
tombstone leaves one. -/
theorem C67_sizeTiered_bare_violated : ∃ s rs,
    run Churn.cfg (new (SizeTiered.kind Churn.cfg ⟨0, 1000, fun _ _ _ _ => true⟩)) [(.remove 1, 0), (.flush, 0)] = some (s, rs) ∧
    SizeTiered.bareAfter Churn.cfg ⟨0, 1000, fun _ _ _ _ => true⟩ [(.remove 1, 0), (.flush, 0)] = 1 :=
  ⟨_, _, rfl, rfl⟩

/-- A history of C67 with `SizeTieredStrategy` in which a compaction replaces two tables by one. -/
example : ∃ s rs, run Churn.cfg (new (SizeTiered.kind Churn.cfg ⟨1, 1000, fun _ _ _ _ => true⟩))
    [(.insert 1 5, 0), (.flush, 0), (.insert 2 6, 0), (.flush, 0)] = some (s, rs) ∧
    s.disk.dirs.map (·.id) = [2] ∧ s.inUse = [2] :=
  ⟨_, _, rfl, rfl, rfl⟩

end Verif.Lsm
