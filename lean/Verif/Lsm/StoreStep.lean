/-
Every call of the LSM map preserves the invariant and returns what it should, for any strategy that satisfies
`Laws`.
-/
import Verif.Lsm.StoreInv

namespace Verif.Lsm

open Verif Verif.Spec

variable {K V : Type} [LinearOrder K]

theorem mem_ins_key {k : K} {v : Val V} {l : List (Ent K V)} : (k, v) ∈ SL.ins k v l := by
  induction l with
  | nil => simp [SL.ins]
  | cons a l ih =>
    obtain ⟨y, w⟩ := a
    unfold SL.ins
    split
    · simp
    · split
      · exact List.mem_cons_of_mem _ ih
      · simp

theorem memSize_ins (z : Sizes K V) {l : List (Ent K V)} (hs : SL.Sorted l) (k : K) (v : Val V) :
    memSize z (SL.ins k v l) + (match SL.find k l with | some e => z.entry (k, e.2) | none => 0) =
      memSize z l + z.entry (k, v) := by
  induction l with
  | nil => simp [SL.ins, memSize, SL.find_nil]
  | cons a l ih =>
    obtain ⟨y, w⟩ := a
    obtain ⟨h2, h1⟩ := SL.sorted_cons.1 hs
    rw [SL.find_cons]
    unfold SL.ins
    rcases lt_trichotomy k y with h | h | h
    · have hne : y ≠ k := ne_of_gt h
      have hf : SL.find k l = none := SL.find_of_all_lt (fun a ha => h.trans (h2 a ha))
      simp only [h, if_true, hne, if_false, hf, memSize, List.map_cons, List.sum_cons]; omega
    · subst h
      simp only [lt_irrefl, if_false, if_true, memSize, List.map_cons, List.sum_cons]; omega
    · have hne : y ≠ k := ne_of_lt h
      have := ih h1
      simp only [not_lt.2 h.le, h, hne, if_true, if_false, memSize, List.map_cons, List.sum_cons] at this ⊢
      omega

theorem look_nil (W : K → Option (Val V)) (k : K) : look [] W k = (W k).bind (·.data) := rfl

theorem look_addW (l : List (Ent K V)) (W : K → Option (Val V)) : look [] (Store.addW l W) = look l W := by
  funext k
  rw [look_nil]
  unfold Store.addW look
  cases SL.find k l <;> rfl

theorem look_ins {l : List (Ent K V)} (hs : SL.Sorted l) (W : K → Option (Val V)) (k : K) (v : Val V) (y : K) :
    look (SL.ins k v l) W y = if y = k then v.data else look l W y := by
  unfold look
  rw [SL.find_ins hs]
  by_cases h : y = k
  · simp [h]
  · simp [h]

namespace Store

variable {kd : Kind K V} {x : Bool}

/-- The entries that writing the version `v` of `k` moves to a new table, if it does. -/
def written (c : Cfg K V) (s : Store kd) (k : K) (data : Option V) : Option (List (Ent K V)) :=
  match s.usageAfter c k ⟨data, s.clock⟩ with
  | none => none
  | some u => if c.maxMem < u then some (SL.ins k ⟨data, s.clock⟩ s.mem) else none

/-- The entries that a call moves to a new table, if it does. -/
def spill (c : Cfg K V) (s : Store kd) : KvOp K V → Option (List (Ent K V))
  | .insert k v => s.written c k (some v)
  | .remove k => s.written c k none
  | .len | .isEmpty | .iter | .hold | .flush | .reopen => match s.mem with
    | [] => none
    | e :: l => some (e :: l)
  | _ => none

omit [LinearOrder K] in
theorem tick_eq (s : Store kd) : s.tick = ({ s with
    clock := s.clock + 1, disk := { s.disk with time := some (s.clock + 1) },
    trace := s.trace ++ [{ s.disk with time := some (s.clock + 1) }] }, s.clock) := rfl

theorem le_sum {n : Nat} : ∀ {l : List Nat}, n ∈ l → n ≤ l.sum
  | a :: l, h => by
    rcases List.mem_cons.1 h with rfl | h
    · simp
    · have := le_sum h; simp only [List.sum_cons]; omega

theorem usageAfter_some {L : Laws kd x} {c : Cfg K V} {s : Store kd} {g : Ghost K V} (h : Inv L c s g) (k : K)
    (v : Val V) : ∃ u, s.usageAfter c k v = some u ∧ memSize c.sizes (SL.ins k v s.mem) ≤ u ∧
      (¬ g.cleared → u = memSize c.sizes (SL.ins k v s.mem)) := by
  have hm := memSize_ins c.sizes h.memSorted k v
  have hu := h.used
  unfold usageAfter
  cases hf : SL.find k s.mem with
  | none =>
    rw [hf] at hm
    refine ⟨_, rfl, by simp only at hm; omega, fun hc => ?_⟩
    have := h.usedEq hc
    simp only at hm; omega
  | some e =>
    rw [hf] at hm
    simp only at hm
    have hle : c.sizes.entry (k, e.2) ≤ memSize c.sizes s.mem := by
      have hk := SL.find_some_key hf
      have hmem := SL.find_some_mem hf
      have : c.sizes.entry e ∈ s.mem.map c.sizes.entry := List.mem_map.2 ⟨e, hmem, rfl⟩
      have h1 := le_sum this
      rw [← hk]; exact h1
    simp only
    rw [if_pos (le_trans hle hu)]
    refine ⟨_, rfl, by omega, fun hc => ?_⟩
    have := h.usedEq hc
    omega

/-- The state after a write to the in-memory tree, before it is perhaps written as a table. -/
def noted (s : Store kd) (k : K) (data : Option V) (u : Nat) : Store kd := { s with
    usage := u, mem := SL.ins k ⟨data, s.clock⟩ s.mem,
    clock := s.clock + 1, disk := { s.disk with time := some (s.clock + 1) },
    trace := s.trace ++ [{ s.disk with time := some (s.clock + 1) }] }

theorem inv_noted {L : Laws kd x} {c : Cfg K V} {s : Store kd} {g : Ghost K V} (h : Inv L c s g)
    {k : K} {data : Option V} {u : Nat} (hu1 : memSize c.sizes (SL.ins k ⟨data, s.clock⟩ s.mem) ≤ u)
    (hu2 : ¬ g.cleared → u = memSize c.sizes (SL.ins k ⟨data, s.clock⟩ s.mem)) :
    Inv L c (s.noted k data u) ⟨g.W, fun a y => g.ins a y ∨ (a = k ∧ data = some y), g.cleared⟩ := by
  unfold noted
  refine ⟨SL.sorted_ins h.memSorted, ?_, ?_, ?_, h.inv, h.sees, h.ids, h.job, h.next, h.locked, h.files, h.dirIds,
    h.dirNew, h.md, .inl rfl, hu1, hu2, ?_, ?_⟩
  · intro e he
    rcases SL.mem_ins he with rfl | he
    · simp
    · have := h.memTime e he; simp only; omega
  · intro e he t ht
    rcases SL.mem_ins he with rfl | he
    · exact h.curTime t ht
    · exact h.memNew e he t ht
  · intro t ht; have := h.curTime t ht; simp only; omega
  · intro k v y hv hy; exact .inl (h.vals k v y hv hy)
  · intro e he y hy
    rcases SL.mem_ins he with rfl | he
    · exact .inr ⟨rfl, hy⟩
    · exact .inl (h.memVals e he y hy)

theorem write_eq {c : Cfg K V} {s : Store kd} {k : K} {data : Option V} {u : Nat}
    (hu : s.usageAfter c k ⟨data, s.clock⟩ = some u) :
    s.write c k data = if c.maxMem < u then (s.noted k data u).tryCompact c else some (s.noted k data u) := by
  unfold write
  rw [tick_eq]
  simp only
  have hu' : usageAfter c ({ s with
    clock := s.clock + 1, disk := { s.disk with time := some (s.clock + 1) },
    trace := s.trace ++ [{ s.disk with time := some (s.clock + 1) }] } : Store kd) k ⟨data, s.clock⟩ = some u := hu
  rw [hu']
  rfl

/-- A write. -/
theorem inv_write {L : Laws kd x} {c : Cfg K V} {s : Store kd} {g : Ghost K V} (h : Inv L c s g) (hh : s.Hand)
    (k : K) (data : Option V) (hg : ∀ l, s.written c k data = some l → L.good l) :
    ∃ s' W', s.write c k data = some s' ∧
      Inv L c s' ⟨W', fun a y => g.ins a y ∨ (a = k ∧ data = some y), g.cleared⟩ ∧ s'.Hand ∧
      (look s'.mem W' = fun y => if y = k then data else look s.mem g.W y) ∧ memSize c.sizes s'.mem ≤ c.maxMem ∧
      (s'.usage ≤ c.maxMem) ∧ s'.clock = s.clock + 1 ∧ (s'.mem = [] ∨ W' = g.W) := by
  obtain ⟨u, hu, hu1, hu2⟩ := usageAfter_some h k ⟨data, s.clock⟩
  rw [write_eq hu]
  generalize hs1 : s.noted k data u = s1
  have hI : Inv L c s1 ⟨g.W, fun a y => g.ins a y ∨ (a = k ∧ data = some y), g.cleared⟩ := by
    subst hs1; exact inv_noted h hu1 hu2
  have hm1 : s1.mem = SL.ins k ⟨data, s.clock⟩ s.mem := by subst hs1; rfl
  have hlook : look s1.mem g.W = fun y => if y = k then data else look s.mem g.W y := by
    funext y; rw [hm1, look_ins h.memSorted]
  have hH : s1.Hand := by subst hs1; exact hh
  have hcl : s1.clock = s.clock + 1 := by subst hs1; rfl
  split
  · rename_i hlt
    have hgood : L.good s1.mem := by
      rw [hm1]; apply hg
      unfold written
      rw [hu]
      simp only [hlt, if_true]
    obtain ⟨s', k1, k2, k3, k4, k5, k6, k7⟩ := inv_tryCompact hI hH (by
      rw [hm1]; intro he; have : (k, (⟨data, s.clock⟩ : Val V)) ∈ SL.ins k ⟨data, s.clock⟩ s.mem := mem_ins_key
      rw [he] at this; simp at this) hgood
    refine ⟨s', _, k1, k2, k3, ?_, ?_, ?_, k6.trans hcl, .inl k4⟩
    · rw [k4, look_addW]; exact hlook
    · rw [k4]; simp [memSize]
    · omega
  · rename_i hlt
    refine ⟨s1, g.W, rfl, hI, hH, hlook, ?_, ?_, hcl, .inr rfl⟩
    · rw [hm1]; omega
    · subst hs1; simp only [noted]; omega

/-- `clear`. -/
theorem inv_clear {L : Laws kd x} {c : Cfg K V} {s s' : Store kd} {g : Ghost K V} (h : Inv L c s g)
    (hh : s.Hand) (hs : s.clear = some s') :
    Inv L c s' ⟨fun _ => none, g.ins, True⟩ ∧ s'.Hand ∧ s'.mem = [] ∧ s'.clock = s.clock ∧ s'.locks = s.locks := by
  unfold clear at hs
  simp only at hs
  have h0 : Inv L c { s with mem := [] } { g with cleared := True } := by
    refine ⟨by simp [SL.Sorted], by simp, by simp, h.curTime, h.inv, h.sees, h.ids, h.job, h.next, h.locked, h.files,
      h.dirIds, h.dirNew, h.md, h.time, by simp [memSize], by simp, h.vals, by simp⟩
  cases hj : (if s.handle = true then ({ s with mem := [] } : Store kd).join else some { s with mem := [] }) with
  | none => rw [hj] at hs; simp at hs
  | some s1 =>
    rw [hj] at hs
    simp only [Option.map_eq_some_iff] at hs
    have hs1 : Inv L c s1 { g with cleared := True } ∧ s1.job = none ∧ s1.mem = [] ∧
        s1.clock = s.clock ∧ s1.locks = s.locks := by
      split at hj
      · obtain ⟨h1, h2, h3, h4, h5, h6, h7⟩ := inv_join h0 hj
        exact ⟨h1, h2, h3, h6, h7⟩
      · rename_i hc
        simp only [Option.some.injEq] at hj
        subst hj
        exact ⟨h0, (hh (by simpa using hc)).1, rfl, rfl, rfl⟩
    obtain ⟨k1, k2, k3, k4, k5⟩ := hs1
    obtain ⟨s2, hs2, rfl⟩ := hs
    obtain ⟨tr, rfl, _⟩ := removeDirs_some hs2
    have ht := L.tabs_empty
    simp only [writeMeta, put]
    refine ⟨⟨?_, ?_, ?_, ?_, L.inv_empty, ⟨?_, ?_, ?_⟩, ?_, ?_, ?_, ?_, ?_, ?_, ?_, rfl, k1.time, ?_,
      fun hc => absurd trivial hc, ?_, ?_⟩, ?_, k3, k4, k5⟩
    all_goals simp_all [Ver, SL.Sorted, memSize, Hand]
    · exact List.Nodup.sublist (List.Sublist.map _ List.filter_sublist) k1.dirIds
    · intro t h1 _; exact k1.dirNew t h1

theorem clear_isSome {L : Laws kd x} (hL : L.Total) {c : Cfg K V} {s : Store kd} {g : Ghost K V} (h : Inv L c s g) :
    ∃ s', s.clear = some s' := by
  unfold clear
  simp only
  have h0 : Inv L c { s with mem := [] } { g with cleared := True } := by
    refine ⟨by simp [SL.Sorted], by simp, by simp, h.curTime, h.inv, h.sees, h.ids, h.job, h.next, h.locked, h.files,
      h.dirIds, h.dirNew, h.md, h.time, by simp [memSize], by simp, h.vals, by simp⟩
  have : ∃ s1, (if s.handle = true then ({ s with mem := [] } : Store kd).join else some { s with mem := [] }) = some s1
      ∧ (s1.disk.dirs.map (·.id)).Nodup := by
    split
    · obtain ⟨s1, h1⟩ := join_isSome hL h0
      exact ⟨s1, h1, (inv_join h0 h1).1.dirIds⟩
    · exact ⟨_, rfl, h.dirIds⟩
  obtain ⟨s1, h1, h2⟩ := this
  rw [h1]
  simp only
  obtain ⟨s2, h3⟩ := removeDirs_isSome (s := { s1 with handle := false, cur := kd.empty, next := none }) h2
    (fun i hi => hi)
  exact ⟨s2.writeMeta, by rw [h3]; rfl⟩

variable [DecidableEq V]

omit [LinearOrder K] [DecidableEq V] in
theorem find_id {l : List (Table K V)} (hn : (l.map (·.id)).Nodup) {t : Table K V} (ht : t ∈ l) :
    l.find? (fun u => u.id = t.id) = some t := by
  induction l with
  | nil => simp at ht
  | cons a l ih =>
    simp only [List.map_cons] at hn
    obtain ⟨h1, h2⟩ := List.nodup_cons.1 hn
    rw [List.find?_cons]
    rcases List.mem_cons.1 ht with rfl | ht
    · simp
    · have : a.id ≠ t.id := by
        intro he; exact h1 (List.mem_map.2 ⟨t, ht, he.symm⟩)
      simp only [this, decide_false]
      exact ih h2 ht

/-- Opening a directory again. -/
theorem inv_open {L : Laws kd x} {c : Cfg K V} {s : Store kd} {g : Ghost K V} (h : Inv L c s g) (hm : s.mem = []) :
    (∀ s', openDir s.fresh s.trace s.disk = some s' → Inv L c s' g ∧ s'.Hand ∧ s'.mem = [] ∧ s'.cur = s.cur ∧
      s'.clock = s.clock) ∧
    (s.clock ≠ 0 → ∃ s', openDir s.fresh s.trace s.disk = some s') := by
  have hall : ∀ t ∈ kd.tabs s.disk.md, s.disk.dirs.find? (fun u => u.id = t.id) = some t := by
    intro t ht
    rw [h.md] at ht
    exact find_id h.dirIds (h.files t ht)
  unfold openDir
  cases ht : s.disk.time with
  | none =>
    refine ⟨by simp, fun hc => ?_⟩
    rcases h.time with h1 | ⟨_, h1⟩
    · rw [ht] at h1; simp at h1
    · exact absurd h1 hc
  | some n =>
    simp only
    have hn : n = s.clock := by
      rcases h.time with h1 | ⟨h1, _⟩ <;> rw [ht] at h1 <;> simp at h1
      exact h1
    rw [if_pos hall]
    refine ⟨?_, fun _ => ⟨_, rfl⟩⟩
    intro s' hs'
    simp only [Option.some.injEq] at hs'
    subst hs'
    rw [hn, h.md]
    refine ⟨⟨by simp [SL.Sorted], by simp, by simp, h.curTime, h.inv, h.sees, h.ids, by simp, by simp, by simp, h.files,
      h.dirIds, h.dirNew, h.md, h.time, by simp [memSize], fun _ => by simp [memSize], h.vals, by simp⟩,
      fun _ => ⟨rfl, rfl⟩, rfl, rfl, rfl⟩

/-- What a lookup of `k` finds in the state. -/
def found (s : Store kd) (k : K) : Option V :=
  match SL.find k s.mem with
  | some e => e.2.data
  | none => (kd.get s.cur k).bind (·.data)

/-- What the calls answer, in terms of the state they leave. -/
def Answer (s : Store kd) : KvOp K V → KvRes K V → Prop
  | .get k, r => r = .val (s.found k)
  | .containsKey k, r => r = .bool (s.found k).isSome
  | .lenHint, r => ∃ n, hint (kd.tabs s.cur) = some n ∧ r = .num (s.mem.length + n)
  | .len, r => s.mem = [] ∧ r = .num s.items.length
  | .isEmpty, r => s.mem = [] ∧ r = .bool (s.items.length == 0)
  | .iter, r => s.mem = [] ∧ r = .list s.items
  | .hold, r => s.mem = [] ∧ r = .list s.items
  | .min, r => r = .key (optMin ((live s.mem).head?.map (·.1)) (s.items.head?.map (·.1)))
  | .max, r => r = .key (optMax ((live s.mem).getLast?.map (·.1)) (s.items.getLast?.map (·.1)))
  | _, r => r = .unit

/-- The ghost after a call. -/
def Ghost.after (g : Ghost K V) (op : KvOp K V) (W' : K → Option (Val V)) : Ghost K V :=
  ⟨W', fun a y => g.ins a y ∨ op = .insert a y, g.cleared ∨ op = .clear⟩

omit [DecidableEq V] in
theorem Inv.mono {L : Laws kd x} {c : Cfg K V} {s : Store kd} {g g' : Ghost K V} (h : Inv L c s g)
    (hW : g'.W = g.W) (hi : ∀ a y, g.ins a y → g'.ins a y) (hc : g.cleared → g'.cleared) : Inv L c s g' :=
  ⟨h.memSorted, h.memTime, h.memNew, h.curTime, h.inv, hW ▸ h.sees, h.ids, h.job, h.next, h.locked, h.files, h.dirIds,
    h.dirNew, h.md, h.time, h.used, fun hn => h.usedEq fun h' => hn (hc h'), fun k v y h1 h2 => hi _ _ (h.vals k v y h1 h2),
    fun e he y hy => hi _ _ (h.memVals e he y hy)⟩

omit [DecidableEq V] in
/-- The table written by a flush-like call is good. -/
theorem good_flush {L : Laws kd x} {c : Cfg K V} {s : Store kd} {op : KvOp K V} {d : Nat}
    (hop : op = .len ∨ op = .isEmpty ∨ op = .iter ∨ op = .hold ∨ op = .flush ∨ op = .reopen)
    (hg : ∀ l, s.spill c op = some l → L.good l) : (work d s).mem ≠ [] → L.good (work d s).mem := by
  rw [(work_frame d s).1]
  intro hm
  apply hg
  rcases hop with rfl | rfl | rfl | rfl | rfl | rfl <;> simp only [spill] <;> cases h : s.mem <;> simp_all

/-- Every call preserves the invariant, has the specified effect on the contents, and answers from the state. -/
theorem inv_step {L : Laws kd x} {c : Cfg K V} {s s' : Store kd} {g : Ghost K V} {op : KvOp K V} {d : Nat}
    {r : KvRes K V} (h : Inv L c s g) (hh : s.Hand) (hg : ∀ l, s.spill c op = some l → L.good l)
    (hs : s.step c op d = some (s', r)) :
    ∃ W', Inv L c s' (Ghost.after g op W') ∧ s'.Hand ∧ look s'.mem W' = op.apply (look s.mem g.W) ∧ Answer s' op r ∧
      s.clock ≤ s'.clock ∧ (s'.mem = [] ∨ (W' = g.W ∧ ¬ op.Settles)) := by
  have hw : Inv L c (work d s) g := inv_work d h
  have hhw : (work d s).Hand := hand_work d hh
  obtain ⟨f1, f2, f3, f4, f5, f6⟩ := work_frame d s
  have hwr : ∀ k data, (work d s).written c k data = s.written c k data := by
    intro k data; unfold written usageAfter; rw [f1, f2, f5]
  have rd : ∀ s2, (work d s).tryReplace = some s2 → Inv L c s2 g ∧ s2.Hand ∧ s2.mem = s.mem ∧ s2.clock = s.clock := by
    intro s2 h2
    obtain ⟨s3, k1, k2, k3, k4, k5, k6, k7, k8, k9, k10, _⟩ := inv_tryReplace hw
    rw [h2] at k1
    simp only [Option.some.injEq] at k1
    subst k1
    refine ⟨k2, ?_, k3.trans f1, k9.trans f5⟩
    intro hb; rw [k8] at hb; exact ⟨k6.trans (hhw hb).1, k5⟩
  have fl : ∀ s2 s3, (op = .len ∨ op = .isEmpty ∨ op = .iter ∨ op = .hold ∨ op = .flush ∨ op = .reopen) →
      (work d s).flush c = some s2 → s2.tryReplace = some s3 → Inv L c s3 { g with W := addW s.mem g.W } ∧ s3.job = none ∧
        s3.next = none ∧ s3.mem = [] ∧ s3.clock = s.clock := by
    intro s2 s3 hop h2 h3
    obtain ⟨k1, k2, k3, k4, k5, k6⟩ := inv_flush hw hhw (good_flush hop hg) h2
    obtain ⟨s4, j1, j2, j3, j4, j5, j6, j7, j8, j9, j10, _⟩ := inv_tryReplace k1
    rw [h3] at j1
    simp only [Option.some.injEq] at j1
    subst j1
    rw [f1] at j2
    exact ⟨j2, j6.trans k2, j5, j3.trans k4, (j9.trans k5).trans f5⟩
  have same : ∀ W', Inv L c s' { g with W := W' } → Inv L c s' (Ghost.after g op W') := fun W' hi =>
    hi.mono rfl (fun _ _ h => .inl h) (fun h => .inl h)
  cases op with
  | insert k v =>
    obtain ⟨s2, W', k1, k2, k3, k4, _, _, k7, k8⟩ := inv_write hw hhw k (some v) (fun l hl => hg l ((hwr k _).symm.trans hl))
    simp only [step, k1, Option.map_some, Option.some.injEq, Prod.mk.injEq] at hs
    obtain ⟨rfl, rfl⟩ := hs
    refine ⟨W', k2.mono rfl ?_ (fun h => .inl h), k3, ?_, rfl, by omega, k8.imp id fun h => ⟨h, by simp [KvOp.Settles]⟩⟩
    · rintro a y (h | ⟨rfl, h⟩)
      · exact .inl h
      · right; simp only [Option.some.injEq] at h; rw [h]
    · rw [k4, f1]; rfl
  | remove k =>
    obtain ⟨s2, W', k1, k2, k3, k4, _, _, k7, k8⟩ := inv_write hw hhw k none (fun l hl => hg l ((hwr k _).symm.trans hl))
    simp only [step, k1, Option.map_some, Option.some.injEq, Prod.mk.injEq] at hs
    obtain ⟨rfl, rfl⟩ := hs
    refine ⟨W', k2.mono rfl ?_ (fun h => .inl h), k3, ?_, rfl, by omega, k8.imp id fun h => ⟨h, by simp [KvOp.Settles]⟩⟩
    · rintro a y (h | ⟨rfl, h⟩)
      · exact .inl h
      · simp at h
    · rw [k4, f1]; rfl
  | get k =>
    simp only [step] at hs
    cases hf : SL.find k (work d s).mem with
    | some e =>
      rw [hf] at hs
      simp only [Option.some.injEq, Prod.mk.injEq] at hs
      obtain ⟨rfl, rfl⟩ := hs
      exact ⟨g.W, same _ hw, hhw, by rw [f1]; rfl, by simp [Answer, found, hf], by omega, .inr ⟨rfl, by simp [KvOp.Settles]⟩⟩
    | none =>
      rw [hf] at hs
      simp only [Option.map_eq_some_iff, Prod.mk.injEq] at hs
      obtain ⟨s2, h2, rfl, rfl⟩ := hs
      obtain ⟨k1, k2, k3, k4⟩ := rd _ h2
      refine ⟨g.W, same _ k1, k2, by rw [k3]; rfl, ?_, by omega, .inr ⟨rfl, by simp [KvOp.Settles]⟩⟩
      simp only [Answer, found]; rw [k3, ← f1, hf]
  | containsKey k =>
    simp only [step] at hs
    cases hf : SL.find k (work d s).mem with
    | some e =>
      rw [hf] at hs
      simp only [Option.some.injEq, Prod.mk.injEq] at hs
      obtain ⟨rfl, rfl⟩ := hs
      exact ⟨g.W, same _ hw, hhw, by rw [f1]; rfl, by simp [Answer, found, hf], by omega, .inr ⟨rfl, by simp [KvOp.Settles]⟩⟩
    | none =>
      rw [hf] at hs
      simp only [Option.map_eq_some_iff, Prod.mk.injEq] at hs
      obtain ⟨s2, h2, rfl, rfl⟩ := hs
      obtain ⟨k1, k2, k3, k4⟩ := rd _ h2
      refine ⟨g.W, same _ k1, k2, by rw [k3]; rfl, ?_, by omega, .inr ⟨rfl, by simp [KvOp.Settles]⟩⟩
      simp only [Answer, found]; rw [k3, ← f1, hf]
  | lenHint =>
    simp only [step, Option.bind_eq_some_iff, Option.map_eq_some_iff, Prod.mk.injEq] at hs
    obtain ⟨s2, h2, n, h3, rfl, rfl⟩ := hs
    obtain ⟨k1, k2, k3, k4⟩ := rd _ h2
    exact ⟨g.W, same _ k1, k2, by rw [k3]; rfl, ⟨n, h3, rfl⟩, by omega, .inr ⟨rfl, by simp [KvOp.Settles]⟩⟩
  | min =>
    simp only [step, Option.map_eq_some_iff, Prod.mk.injEq] at hs
    obtain ⟨s2, h2, rfl, rfl⟩ := hs
    obtain ⟨k1, k2, k3, k4⟩ := rd _ h2
    exact ⟨g.W, same _ k1, k2, by rw [k3]; rfl, rfl, by omega, .inr ⟨rfl, by simp [KvOp.Settles]⟩⟩
  | max =>
    simp only [step, Option.map_eq_some_iff, Prod.mk.injEq] at hs
    obtain ⟨s2, h2, rfl, rfl⟩ := hs
    obtain ⟨k1, k2, k3, k4⟩ := rd _ h2
    exact ⟨g.W, same _ k1, k2, by rw [k3]; rfl, rfl, by omega, .inr ⟨rfl, by simp [KvOp.Settles]⟩⟩
  | len =>
    simp only [step, Option.bind_eq_some_iff, Option.map_eq_some_iff, Prod.mk.injEq] at hs
    obtain ⟨s2, h2, s3, h3, rfl, rfl⟩ := hs
    obtain ⟨k1, k2, k3, k4, k5⟩ := fl s2 _ (by simp) h2 h3
    exact ⟨_, same _ k1, fun _ => ⟨k2, k3⟩, by rw [k4, look_addW]; rfl, ⟨k4, rfl⟩, by omega, .inl k4⟩
  | isEmpty =>
    simp only [step, Option.bind_eq_some_iff, Option.map_eq_some_iff, Prod.mk.injEq] at hs
    obtain ⟨s2, h2, s3, h3, rfl, rfl⟩ := hs
    obtain ⟨k1, k2, k3, k4, k5⟩ := fl s2 _ (by simp) h2 h3
    exact ⟨_, same _ k1, fun _ => ⟨k2, k3⟩, by rw [k4, look_addW]; rfl, ⟨k4, rfl⟩, by omega, .inl k4⟩
  | iter =>
    simp only [step, Option.bind_eq_some_iff, Option.map_eq_some_iff, Prod.mk.injEq] at hs
    obtain ⟨s2, h2, s3, h3, rfl, rfl⟩ := hs
    obtain ⟨k1, k2, k3, k4, k5⟩ := fl s2 _ (by simp) h2 h3
    exact ⟨_, same _ k1, fun _ => ⟨k2, k3⟩, by rw [k4, look_addW]; rfl, ⟨k4, rfl⟩, by omega, .inl k4⟩
  | hold =>
    simp only [step, Option.bind_eq_some_iff, Option.map_eq_some_iff, Prod.mk.injEq] at hs
    obtain ⟨s2, h2, s3, h3, rfl, rfl⟩ := hs
    obtain ⟨k1, k2, k3, k4, k5⟩ := fl s2 s3 (by simp) h2 h3
    refine ⟨_, same _ ?_, fun _ => ⟨k2, k3⟩, by rw [k4, look_addW]; rfl, ⟨k4, rfl⟩, by simp only; omega, .inl k4⟩
    exact ⟨k1.memSorted, k1.memTime, k1.memNew, k1.curTime, k1.inv, k1.sees, k1.ids, k1.job, k1.next,
      fun _ => ⟨k2, k3⟩, k1.files, k1.dirIds, k1.dirNew, k1.md, k1.time, k1.used, k1.usedEq, k1.vals, k1.memVals⟩
  | release =>
    simp only [step, Option.some.injEq, Prod.mk.injEq] at hs
    obtain ⟨rfl, rfl⟩ := hs
    refine ⟨g.W, same _ ?_, hhw, by simp only; rw [f1]; rfl, rfl, by simp only; omega, .inr ⟨rfl, by simp [KvOp.Settles]⟩⟩
    exact ⟨hw.memSorted, hw.memTime, hw.memNew, hw.curTime, hw.inv, hw.sees, hw.ids, hw.job, hw.next,
      fun hl => hw.locked (by simp only at hl; omega), hw.files, hw.dirIds, hw.dirNew, hw.md, hw.time, hw.used, hw.usedEq,
      hw.vals, hw.memVals⟩
  | flush =>
    simp only [step, Option.map_eq_some_iff, Prod.mk.injEq] at hs
    obtain ⟨s2, h2, rfl, rfl⟩ := hs
    obtain ⟨k1, k2, k3, k4, k5, k6⟩ := inv_flush hw hhw (good_flush (by simp) hg) h2
    rw [f1] at k1
    exact ⟨_, same _ k1, fun _ => ⟨k2, k3⟩, by rw [k4, look_addW]; rfl, rfl, by omega, .inl k4⟩
  | clear =>
    simp only [step, Option.map_eq_some_iff, Prod.mk.injEq] at hs
    obtain ⟨s2, h2, rfl, rfl⟩ := hs
    obtain ⟨k1, k2, k3, k4, k5⟩ := inv_clear hw hhw h2
    refine ⟨_, k1.mono rfl (fun _ _ h => .inl h) (fun _ => .inr rfl), k2, ?_, rfl, by omega, .inl k3⟩
    rw [k3]; rfl
  | reopen =>
    simp only [step, Option.bind_eq_some_iff, Option.map_eq_some_iff, Prod.mk.injEq] at hs
    obtain ⟨s2, h2, s3, h3, rfl, rfl⟩ := hs
    obtain ⟨k1, k2, k3, k4, k5, k6⟩ := inv_flush hw hhw (good_flush (by simp) hg) h2
    rw [f1] at k1
    obtain ⟨j1, j2, j3, j4, j5⟩ := (inv_open k1 k4).1 _ h3
    exact ⟨_, same _ j1, j2, by rw [j3, look_addW]; rfl, rfl, by omega, .inl j3⟩

omit [DecidableEq V] in
theorem hint_isSome {l : List (Table K V)} (h : ∀ t ∈ l, t.Ok) : ∃ n, hint l = some n := by
  induction l with
  | nil => exact ⟨0, rfl⟩
  | cons t l ih =>
    obtain ⟨n, hn⟩ := ih fun u hu => h u (List.mem_cons_of_mem _ hu)
    have ht := h t (by simp)
    have : t.tombCount ≤ t.entryCount := by rw [ht.tombs, ht.count]; exact List.countP_le_length
    exact ⟨t.entryCount - t.tombCount + n, by simp [hint, this, hn]⟩

/-- If compactions terminate, every call returns; opening again needs that something was written before. -/
theorem step_isSome {L : Laws kd x} (hL : L.Total) {c : Cfg K V} {s : Store kd} {g : Ghost K V} {op : KvOp K V}
    {d : Nat} (h : Inv L c s g) (hh : s.Hand) (hg : ∀ l, s.spill c op = some l → L.good l)
    (hr : op = .reopen → s.clock ≠ 0) : ∃ p, s.step c op d = some p := by
  have hw : Inv L c (work d s) g := inv_work d h
  have hhw : (work d s).Hand := hand_work d hh
  obtain ⟨f1, f2, f3, f4, f5, f6⟩ := work_frame d s
  have hwr : ∀ k data, (work d s).written c k data = s.written c k data := by
    intro k data; unfold written usageAfter; rw [f1, f2, f5]
  obtain ⟨s2, hs2, hi2, _⟩ := inv_tryReplace hw
  have fl : (op = .len ∨ op = .isEmpty ∨ op = .iter ∨ op = .hold ∨ op = .flush ∨ op = .reopen) →
      ∃ s3 s4, (work d s).flush c = some s3 ∧ s3.tryReplace = some s4 := by
    intro hop
    obtain ⟨s3, h3⟩ := flush_isSome hL hw hhw (good_flush hop hg)
    obtain ⟨k1, _⟩ := inv_flush hw hhw (good_flush hop hg) h3
    obtain ⟨s4, h4, _⟩ := inv_tryReplace k1
    exact ⟨s3, s4, h3, h4⟩
  cases op with
  | insert k v =>
    obtain ⟨s2, W', k1, _⟩ := inv_write hw hhw k (some v) (fun l hl => hg l ((hwr k _).symm.trans hl))
    simp only [step, k1]; exact ⟨_, rfl⟩
  | remove k =>
    obtain ⟨s2, W', k1, _⟩ := inv_write hw hhw k none (fun l hl => hg l ((hwr k _).symm.trans hl))
    simp only [step, k1]; exact ⟨_, rfl⟩
  | get k =>
    simp only [step]
    cases hf : SL.find k (work d s).mem with
    | some e => exact ⟨_, rfl⟩
    | none => simp only [hs2]; exact ⟨_, rfl⟩
  | containsKey k =>
    simp only [step]
    cases hf : SL.find k (work d s).mem with
    | some e => exact ⟨_, rfl⟩
    | none => simp only [hs2]; exact ⟨_, rfl⟩
  | lenHint =>
    obtain ⟨n, hn⟩ := hint_isSome (L.inv_ok hi2.inv)
    simp only [step, hs2, Option.bind_some, hn]; exact ⟨_, rfl⟩
  | min => simp only [step, hs2]; exact ⟨_, rfl⟩
  | max => simp only [step, hs2]; exact ⟨_, rfl⟩
  | len =>
    obtain ⟨s3, s4, h3, h4⟩ := fl (by simp)
    simp only [step, h3, Option.bind_some, h4]; exact ⟨_, rfl⟩
  | isEmpty =>
    obtain ⟨s3, s4, h3, h4⟩ := fl (by simp)
    simp only [step, h3, Option.bind_some, h4]; exact ⟨_, rfl⟩
  | iter =>
    obtain ⟨s3, s4, h3, h4⟩ := fl (by simp)
    simp only [step, h3, Option.bind_some, h4]; exact ⟨_, rfl⟩
  | hold =>
    obtain ⟨s3, s4, h3, h4⟩ := fl (by simp)
    simp only [step, h3, Option.bind_some, h4]; exact ⟨_, rfl⟩
  | release => exact ⟨_, rfl⟩
  | flush =>
    obtain ⟨s3, s4, h3, h4⟩ := fl (by simp)
    simp only [step, h3]; exact ⟨_, rfl⟩
  | clear =>
    obtain ⟨s3, h3⟩ := clear_isSome hL hw
    simp only [step, h3]; exact ⟨_, rfl⟩
  | reopen =>
    obtain ⟨s3, s4, h3, h4⟩ := fl (by simp)
    obtain ⟨k1, k2, k3, k4, k5, k6⟩ := inv_flush hw hhw (good_flush (by simp) hg) h3
    obtain ⟨s5, h5⟩ := (inv_open k1 k4).2 (by rw [k5, f5]; exact hr rfl)
    simp only [step, h3, Option.bind_some, h5]; exact ⟨_, rfl⟩

end Store

end Verif.Lsm
