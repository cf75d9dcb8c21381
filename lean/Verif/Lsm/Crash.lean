/-
Crash points of the LSM map: what the files look like after every single write, for any strategy that satisfies
`Laws`.

A crash point is a state of the files after some write.  The creation of a table directory is one step of the model;
in the code the directory is created, filled and only then named by the metadata, so that a crash in between leaves
a directory that nothing names, as in the model.  The in-place write of `metadata.dat` and of `logical_time.dat` is
one step of the model, too.
-/
import Verif.Lsm.StoreRun

namespace Verif.Lsm

open Verif Verif.Spec

variable {K V : Type} [LinearOrder K]

namespace Store

variable {kd : Kind K V} {x : Bool}

/-- The files hold the writes `W`, and can be opened unless the time was never written. -/
structure DiskOk (L : Laws kd x) (ins : K → V → Prop) (d : Disk kd) (W : K → Option (Val V)) : Prop where
  inv : L.inv d.md
  sees : Sees x (kd.tabs d.md) W
  ids : ((kd.tabs d.md).map (·.id)).Nodup
  files : ∀ t ∈ kd.tabs d.md, t ∈ d.dirs
  dirIds : (d.dirs.map (·.id)).Nodup
  time : ∀ n, d.time = some n → ∀ t ∈ kd.tabs d.md, t.times.2 < n
  none : d.time = none → ∀ t, t ∉ kd.tabs d.md
  vals : ∀ k v y, Ver (kd.tabs d.md) k v → v.data = some y → ins k y

theorem Inv.disk {L : Laws kd x} {c : Cfg K V} {s : Store kd} {g : Ghost K V} (h : Inv L c s g) :
    DiskOk L g.ins s.disk g.W := by
  refine ⟨h.md ▸ h.inv, h.md ▸ h.sees, h.md ▸ h.ids, h.md ▸ h.files, h.dirIds, ?_, ?_, h.md ▸ h.vals⟩
  · intro n hn t ht
    rw [h.md] at ht
    have := h.curTime t ht
    rcases h.time with h1 | ⟨h1, h2⟩
    · rw [hn] at h1; simp only [Option.some.injEq] at h1; omega
    · rw [hn] at h1; simp at h1
  · intro hn t ht
    rw [h.md] at ht
    have := h.curTime t ht
    rcases h.time with h1 | ⟨h1, h2⟩
    · rw [hn] at h1; simp at h1
    · omega

theorem DiskOk.mono {L : Laws kd x} {i j : K → V → Prop} {d : Disk kd} {W : K → Option (Val V)} (h : DiskOk L i d W)
    (hij : ∀ k y, i k y → j k y) : DiskOk L j d W :=
  ⟨h.inv, h.sees, h.ids, h.files, h.dirIds, h.time, h.none, fun k v y h1 h2 => hij _ _ (h.vals k v y h1 h2)⟩

/-- Opening such files gives a map with the same writes. -/
theorem DiskOk.open [DecidableEq V] {L : Laws kd x} {ins : K → V → Prop} {d : Disk kd} {W : K → Option (Val V)} (h : DiskOk L ins d W)
    (c : Cfg K V) {n : Nat} (hn : d.time = some n) {fresh : Nat} (hf : ∀ t ∈ d.dirs, t.id < fresh) (tr : List (Disk kd)) :
    ∃ s, openDir fresh tr d = some s ∧ Inv L c s ⟨W, ins, False⟩ ∧ s.Hand ∧ s.mem = [] ∧ s.clock = n := by
  have hall : ∀ t ∈ kd.tabs d.md, d.dirs.find? (fun u => u.id = t.id) = some t := fun t ht =>
    find_id h.dirIds (h.files t ht)
  unfold openDir
  rw [hn]
  simp only
  rw [if_pos hall]
  refine ⟨_, rfl, ?_, fun _ => ⟨rfl, rfl⟩, rfl, rfl⟩
  exact ⟨by simp [SL.Sorted], by simp, by simp, h.time n hn, h.inv, h.sees, h.ids, by simp, by simp, by simp, h.files,
    h.dirIds, hf, rfl, .inl hn, by simp [memSize], by simp [memSize], h.vals, by simp⟩

/-! ### The writes of the calls -/

/-- Along the states `d, tr…` of the files, every write goes from a state `a` to a state `e` with `Q a e`. -/
def Steps (Q : Disk kd → Disk kd → Prop) : Disk kd → List (Disk kd) → Prop
  | _, [] => True
  | d, e :: tr => Q d e ∧ Steps Q e tr

omit [LinearOrder K] in
theorem steps_append {Q : Disk kd → Disk kd → Prop} : ∀ {tr tr' : List (Disk kd)} {d : Disk kd},
    Steps Q d tr → Steps Q (tr.getLastD d) tr' → Steps Q d (tr ++ tr')
  | [], _, _, _, h => h
  | e :: tr, tr', d, h, h' => ⟨h.1, steps_append h.2 (by cases tr <;> exact h')⟩

/-- From `s` to `s'` every write satisfies `Q`. -/
def Traced (Q : Disk kd → Disk kd → Prop) (s s' : Store kd) : Prop :=
  ∃ tr, s'.trace = s.trace ++ tr ∧ Steps Q s.disk tr ∧ s'.disk = tr.getLastD s.disk

/-- The write from `a` to `e` deletes a directory of the files `d`, some of which have been deleted before; if `nm`, then
the metadata names it. -/
structure Del (nm : Prop) (d a e : Disk kd) : Prop where
  md : a.md = d.md ∧ e.md = d.md
  time : a.time = d.time ∧ e.time = d.time
  sub : a.dirs.Sublist d.dirs
  one : ∃ t ∈ a.dirs, e.dirs = a.dirs.filter (fun u => u.id ≠ t.id) ∧ (nm → ∃ u ∈ kd.tabs d.md, u.id = t.id)

/-- The write from `a` to `e` deletes no directory and leads to files that hold the writes `W`, or deletes a directory of
such files. -/
def Wr (nm : Prop) (L : Laws kd x) (ins : K → V → Prop) (W : K → Option (Val V)) (a e : Disk kd) : Prop :=
  (DiskOk L ins e W ∧ ∀ t ∈ a.dirs, t ∈ e.dirs) ∨ ∃ d, DiskOk L ins d W ∧ Del nm d a e

theorem Wr.mono {nm : Prop} {L : Laws kd x} {i j : K → V → Prop} {W : K → Option (Val V)} {a e : Disk kd}
    (h : Wr nm L i W a e) (hij : ∀ k y, i k y → j k y) : Wr nm L j W a e :=
  h.imp (fun h => ⟨h.1.mono hij, h.2⟩) fun ⟨d, h1, h2⟩ => ⟨d, h1.mono hij, h2⟩

section
omit [LinearOrder K]

theorem Traced.refl (Q : Disk kd → Disk kd → Prop) (s : Store kd) : Traced Q s s := ⟨[], by simp, trivial, rfl⟩

/-- Nothing was written. -/
theorem Traced.same (Q : Disk kd → Disk kd → Prop) {s s' : Store kd} (h1 : s'.trace = s.trace) (h2 : s'.disk = s.disk) :
    Traced Q s s' := ⟨[], by simp [h1], trivial, h2⟩

theorem getLastD_append {α : Type} (l l' : List α) (a : α) : (l ++ l').getLastD a = l'.getLastD (l.getLastD a) := by
  induction l generalizing a with
  | nil => rfl
  | cons b l ih =>
    simp only [List.cons_append, List.getLastD_cons, ih]

theorem Traced.trans {Q : Disk kd → Disk kd → Prop} {a b c : Store kd} (h : Traced Q a b) (h' : Traced Q b c) :
    Traced Q a c := by
  obtain ⟨tr, h1, h2, h3⟩ := h
  obtain ⟨tr', k1, k2, k3⟩ := h'
  refine ⟨tr ++ tr', by rw [k1, h1, List.append_assoc], steps_append h2 (h3 ▸ k2), ?_⟩
  rw [getLastD_append, ← h3, k3]

theorem traced_put {Q : Disk kd → Disk kd → Prop} {s : Store kd} {d : Disk kd} (h : Q s.disk d) :
    Traced Q s (s.put d) := ⟨[d], rfl, ⟨h, trivial⟩, rfl⟩

theorem traced_removeDirs {Q : Disk kd → Disk kd → Prop} {nm : Prop} {d : Disk kd} (hQ : ∀ a e, Del nm d a e → Q a e)
    {is : List Nat} : ∀ {s s' : Store kd}, removeDirs is s = some s' → s.disk.md = d.md → s.disk.time = d.time →
    s.disk.dirs.Sublist d.dirs → (nm → ∀ i ∈ is, ∃ u ∈ kd.tabs d.md, u.id = i) → Traced Q s s' := by
  induction is with
  | nil =>
    intro s s' h _ _ _ _
    simp only [removeDirs, Option.some.injEq] at h
    subst h
    exact .refl Q s
  | cons i is ih =>
    intro s s' h h1 h2 h3 h4
    simp only [removeDirs] at h
    split at h
    · rename_i hi
      obtain ⟨t, ht, rfl⟩ := List.mem_map.1 hi
      refine Traced.trans (b := s.put { s.disk with dirs := s.disk.dirs.filter fun u => u.id ≠ t.id })
        (traced_put (hQ _ _ ⟨⟨h1, h1⟩, ⟨h2, h2⟩, h3, t, ht, rfl, fun hn => h4 hn _ (by simp)⟩))
        (ih h h1 h2 (List.filter_sublist.trans h3) fun hn j hj => h4 hn j (List.mem_cons_of_mem _ hj))
    · simp at h

end

omit [LinearOrder K] in
theorem deliver_dirs (s : Store kd) : ∀ t ∈ s.disk.dirs, t ∈ s.deliver.disk.dirs := by
  unfold deliver
  split
  · exact fun _ h => h
  · split
    · exact fun _ h => h
    · exact fun _ h => List.mem_append_left _ h

theorem traced_deliver {Q : Disk kd → Disk kd → Prop} {s : Store kd} (h : Q s.disk s.deliver.disk) : Traced Q s s.deliver := by
  unfold deliver at h ⊢
  split
  · exact .same Q rfl rfl
  · rename_i j hj
    split
    · exact .refl Q s
    · rename_i m new hc
      simp only [hj, hc] at h
      refine Traced.trans (b := { s with next := some m, job := none, fresh := s.fresh + new.length })
        (.same Q rfl rfl) (traced_put h)

theorem traced_work {L : Laws kd x} {c : Cfg K V} {g : Ghost K V} {Q : Disk kd → Disk kd → Prop} {nm : Prop}
    (hP : ∀ a e, Wr nm L g.ins g.W a e → Q a e) : ∀ (n : Nat) {s : Store kd}, Inv L c s g → Traced Q s (work n s)
  | 0, s, _ => .refl Q s
  | n + 1, _, h => (traced_deliver (hP _ _ (.inl ⟨(inv_deliver h).disk, deliver_dirs _⟩))).trans (traced_work hP n (inv_deliver h))

theorem traced_tryReplace {L : Laws kd x} {c : Cfg K V} {s s' : Store kd} {g : Ghost K V} {Q : Disk kd → Disk kd → Prop} {nm : Prop}
    (hP : ∀ a e, Wr nm L g.ins g.W a e → Q a e) (h : Inv L c s g) (hs : s.tryReplace = some s') : Traced Q s s' := by
  obtain ⟨s2, k1, k2, _⟩ := inv_tryReplace h
  rw [hs] at k1
  simp only [Option.some.injEq] at k1
  subst k1
  unfold tryReplace at hs
  cases hn : s.next with
  | none =>
    rw [hn] at hs
    simp only [Option.some.injEq] at hs
    subst hs
    exact .refl Q s
  | some m =>
    rw [hn] at hs
    simp only [Option.map_eq_some_iff] at hs
    obtain ⟨s3, h3, rfl⟩ := hs
    refine Traced.trans (b := { s with cur := kd.replace s.cur m, next := none }) (.same Q rfl rfl) (Traced.trans
      (traced_removeDirs (nm := nm) (d := s.disk) (fun a e hd => hP _ _ (.inr ⟨_, h.disk, hd⟩)) h3 rfl rfl (List.Sublist.refl _)
        fun _ i hi => ?_) (traced_put (hP _ _ (.inl ⟨k2.disk, fun _ h => h⟩))))
    obtain ⟨t, ht, rfl⟩ := List.mem_map.1 hi
    exact ⟨t, h.md ▸ (List.mem_filter.1 ht).1, rfl⟩

theorem traced_tryCompact {L : Laws kd x} {c : Cfg K V} {s s' : Store kd} {g : Ghost K V} {Q : Disk kd → Disk kd → Prop} {nm : Prop}
    (hP : ∀ a e, Wr nm L g.ins g.W a e → Q a e) (hP' : ∀ a e, Wr nm L g.ins (addW s.mem g.W) a e → Q a e)
    (h : Inv L c s g) (hm : s.mem ≠ []) (hg : L.good s.mem) (hs : s.tryCompact c = some s') : Traced Q s s' := by
  obtain ⟨t, h1, h2, hI⟩ := inv_pushTable h hm hg
  unfold tryCompact at hs
  rw [h1] at hs
  simp only at hs
  have hpush : Traced Q s (s.pushTable t) := by
    refine Traced.trans (b := put { s with usage := 0, mem := [], fresh := s.fresh + 1, cur := kd.push s.cur t }
      { s.disk with dirs := s.disk.dirs ++ [t] }) ?_ (traced_put (hP' _ _ (.inl ⟨hI.disk, fun _ h => h⟩)))
    refine Traced.trans (b := { s with usage := 0, mem := [], fresh := s.fresh + 1, cur := kd.push s.cur t })
      (.same Q rfl rfl) (traced_put (hP _ _ (.inl ⟨?_, fun _ h => List.mem_append_left _ h⟩)))
    have hd := h.disk
    refine ⟨hd.inv, hd.sees, hd.ids, fun u hu => List.mem_append_left _ (hd.files u hu), ?_, hd.time, hd.none, hd.vals⟩
    exact hI.dirIds
  refine hpush.trans ?_
  unfold start at hs
  split at hs
  · simp only [Option.some.injEq] at hs
    subst hs
    exact .refl Q _
  · cases hr : (s.pushTable t).tryReplace with
    | none => rw [hr] at hs; simp at hs
    | some s2 =>
      rw [hr] at hs
      simp only at hs
      refine (traced_tryReplace hP' hI hr).trans ?_
      cases hp : kd.plan s2.cur with
      | none =>
        rw [hp] at hs
        simp only [Option.some.injEq] at hs
        subst hs
        exact .refl Q _
      | some j =>
        rw [hp] at hs
        simp only [Option.some.injEq] at hs
        subst hs
        exact .same Q rfl rfl

theorem traced_join {L : Laws kd x} {c : Cfg K V} {s s' : Store kd} {g : Ghost K V} {Q : Disk kd → Disk kd → Prop} {nm : Prop}
    (hP : ∀ a e, Wr nm L g.ins g.W a e → Q a e) (h : Inv L c s g) (hs : s.join = some s') : Traced Q s s' := by
  unfold join at hs
  simp only at hs
  split at hs
  · simp at hs
  · simp only [Option.some.injEq] at hs
    subst hs
    exact traced_work hP 2 h

theorem traced_settle {L : Laws kd x} {c : Cfg K V} {s s' : Store kd} {g : Ghost K V} {Q : Disk kd → Disk kd → Prop} {nm : Prop}
    (hP : ∀ a e, Wr nm L g.ins g.W a e → Q a e) (h : Inv L c s g) (hs : s.settle = some s') : Traced Q s s' := by
  unfold settle at hs
  split at hs
  · cases hj : s.join with
    | none => rw [hj] at hs; simp at hs
    | some s1 =>
      rw [hj] at hs
      simp only at hs
      have h1 := (inv_join h hj).1
      have h1' : Inv L c { s1 with handle := false } g :=
        ⟨h1.memSorted, h1.memTime, h1.memNew, h1.curTime, h1.inv, h1.sees, h1.ids, h1.job, h1.next, h1.locked, h1.files,
          h1.dirIds, h1.dirNew, h1.md, h1.time, h1.used, h1.usedEq, h1.vals, h1.memVals⟩
      exact ((traced_join hP h hj).trans (b := s1) (.same Q (s' := { s1 with handle := false }) rfl rfl)).trans
        (traced_tryReplace hP h1' hs)
  · simp only [Option.some.injEq] at hs
    subst hs
    exact .refl Q s

theorem traced_flush {L : Laws kd x} {c : Cfg K V} {s s' : Store kd} {g : Ghost K V} {Q : Disk kd → Disk kd → Prop} {nm : Prop}
    (hP : ∀ a e, Wr nm L g.ins g.W a e → Q a e) (hP' : ∀ a e, Wr nm L g.ins (addW s.mem g.W) a e → Q a e)
    (h : Inv L c s g) (hh : s.Hand) (hg : s.mem ≠ [] → L.good s.mem) (hs : s.flush c = some s') : Traced Q s s' := by
  unfold flush at hs
  cases hm : s.mem with
  | nil =>
    rw [hm] at hs
    exact traced_settle hP h hs
  | cons e l =>
    have hne : s.mem ≠ [] := by rw [hm]; simp
    obtain ⟨s1, k1, k2, k3, k4, k5, k6, k7⟩ := inv_tryCompact h hh hne (hg hne)
    rw [hm, k1] at hs
    exact (traced_tryCompact hP hP' h hne (hg hne) k1).trans (traced_settle hP' k2 hs)

theorem traced_write {L : Laws kd x} {c : Cfg K V} {s s' : Store kd} {g : Ghost K V} {Q : Disk kd → Disk kd → Prop} {nm : Prop} {k : K}
    {data : Option V} (hP : ∀ a e, Wr nm L (fun a y => g.ins a y ∨ (a = k ∧ data = some y)) g.W a e → Q a e)
    (hP' : ∀ a e W', Wr nm L (fun a y => g.ins a y ∨ (a = k ∧ data = some y)) W' a e →
      (look [] W' = fun y => if y = k then data else look s.mem g.W y) → Q a e)
    (h : Inv L c s g) (hg : ∀ l, s.written c k data = some l → L.good l)
    (hs : s.write c k data = some s') : Traced Q s s' := by
  obtain ⟨u, hu, hu1, hu2⟩ := usageAfter_some h k ⟨data, s.clock⟩
  rw [write_eq hu] at hs
  have hI := inv_noted h hu1 hu2
  have ht : Traced Q s (s.noted k data u) := ⟨_, rfl, ⟨hP _ _ (.inl ⟨hI.disk, fun _ h => h⟩), trivial⟩, rfl⟩
  have hm1 : (s.noted k data u).mem = SL.ins k ⟨data, s.clock⟩ s.mem := rfl
  split at hs
  · rename_i hlt
    refine ht.trans (traced_tryCompact hP ?_ hI ?_ ?_ hs)
    · intro a e hd
      refine hP' a e _ hd ?_
      rw [look_addW]
      funext y; rw [hm1, look_ins h.memSorted]
    · rw [hm1]; intro he; have : (k, (⟨data, s.clock⟩ : Val V)) ∈ SL.ins k ⟨data, s.clock⟩ s.mem := mem_ins_key
      rw [he] at this; simp at this
    · rw [hm1]; apply hg
      unfold written
      rw [hu]
      simp only [hlt, if_true]
  · simp only [Option.some.injEq] at hs
    subst hs
    exact ht

theorem traced_clear {L : Laws kd x} {c : Cfg K V} {s s' : Store kd} {g : Ghost K V} {Q : Disk kd → Disk kd → Prop} {nm : Prop}
    (hP : ∀ a e, Wr nm L g.ins g.W a e → Q a e) (hP' : ∀ a e, Wr nm L g.ins (fun _ => none) a e → Q a e)
    (hn : ¬ nm) (h : Inv L c s g) (hh : s.Hand) (hs : s.clear = some s') : Traced Q s s' := by
  have hd := fun a ha => hP' a _ (.inl ⟨(inv_clear h hh hs).1.disk, ha⟩)
  unfold clear at hs
  simp only at hs
  have h0 : Inv L c { s with mem := [] } { g with cleared := True } := by
    refine ⟨by simp [SL.Sorted], by simp, by simp, h.curTime, h.inv, h.sees, h.ids, h.job, h.next, h.locked, h.files,
      h.dirIds, h.dirNew, h.md, h.time, by simp [memSize], by simp, h.vals, by simp⟩
  refine Traced.trans (b := { s with mem := [] }) (.same Q rfl rfl) ?_
  cases hj : (if s.handle = true then ({ s with mem := [] } : Store kd).join else some { s with mem := [] }) with
  | none => rw [hj] at hs; simp at hs
  | some s1 =>
    rw [hj] at hs
    simp only [Option.map_eq_some_iff] at hs
    obtain ⟨s2, h2, rfl⟩ := hs
    have h1 : Traced Q { s with mem := [] } s1 ∧ Inv L c s1 { g with cleared := True } := by
      split at hj
      · exact ⟨traced_join (g := { g with cleared := True }) hP h0 hj, (inv_join h0 hj).1⟩
      · simp only [Option.some.injEq] at hj
        subst hj
        exact ⟨.refl Q _, h0⟩
    refine h1.1.trans (Traced.trans (b := { s1 with handle := false, cur := kd.empty, next := none }) (.same Q rfl rfl)
      ((traced_removeDirs (nm := nm) (d := s1.disk) (fun a e hd => hP _ _ (.inr ⟨_, h1.2.disk, hd⟩)) h2 rfl rfl
        (List.Sublist.refl _) fun h => absurd h hn).trans (traced_put (hd _ fun _ h => h))))

/-- The writes of a call lead to files that hold what had reached the tables before the call, or the contents after the
call, or delete a directory of such files. -/
theorem traced_step [DecidableEq V] {L : Laws kd x} {c : Cfg K V} {s s' : Store kd} {g : Ghost K V} {op : KvOp K V} {d : Nat}
    {r : KvRes K V} {Q : Disk kd → Disk kd → Prop} {nm : Prop} (hn : nm → op ≠ .clear)
    (hP : ∀ a e, Wr nm L (Ghost.after g op g.W).ins g.W a e → Q a e)
    (hP' : ∀ a e W', Wr nm L (Ghost.after g op g.W).ins W' a e → look [] W' = op.apply (look s.mem g.W) → Q a e)
    (h : Inv L c s g) (hh : s.Hand) (hg : ∀ l, s.spill c op = some l → L.good l)
    (hs : s.step c op d = some (s', r)) : Traced Q s s' := by
  have hw : Inv L c (work d s) g := inv_work d h
  have hhw : (work d s).Hand := hand_work d hh
  obtain ⟨f1, f2, f3, f4, f5, f6⟩ := work_frame d s
  have hwr : ∀ k data, (work d s).written c k data = s.written c k data := by
    intro k data; unfold written usageAfter; rw [f1, f2, f5]
  have hP0 : ∀ a e, Wr nm L g.ins g.W a e → Q a e := fun a e hd => hP a e (hd.mono fun _ _ h => .inl h)
  refine (traced_work hP0 d h).trans ?_
  have fl : ∀ s2, (op = .len ∨ op = .isEmpty ∨ op = .iter ∨ op = .hold ∨ op = .flush ∨ op = .reopen) →
      (work d s).flush c = some s2 → Traced Q (work d s) s2 ∧ ∀ s3, s2.tryReplace = some s3 → Traced Q (work d s) s3 := by
    intro s2 hop h2
    have hP1 : ∀ a e, Wr nm L g.ins (addW s.mem g.W) a e → Q a e := fun a e hd =>
      hP' a e _ (hd.mono fun _ _ h => .inl h) (by
        rw [look_addW]; rcases hop with rfl | rfl | rfl | rfl | rfl | rfl <;> rfl)
    obtain ⟨k1, _⟩ := inv_flush hw hhw (good_flush hop hg) h2
    rw [f1] at k1
    have k2 := traced_flush hP0 (by rw [f1]; exact hP1) hw hhw (good_flush hop hg) h2
    exact ⟨k2, fun s3 h3 => k2.trans (traced_tryReplace hP1 k1 h3)⟩
  cases op with
  | insert k v =>
    simp only [step, Option.map_eq_some_iff, Prod.mk.injEq] at hs
    obtain ⟨s2, h2, rfl, rfl⟩ := hs
    have hmono : ∀ a y, (g.ins a y ∨ (a = k ∧ some v = some y)) → (Ghost.after g (.insert k v) g.W).ins a y := by
      rintro a y (h | ⟨rfl, h⟩)
      · exact .inl h
      · right; simp only [Option.some.injEq] at h; rw [h]
    refine traced_write (fun a e hd => hP a e (hd.mono hmono)) (fun a e W' hd hl => hP' a e W' (hd.mono hmono) ?_) hw
      (fun l hl => hg l ((hwr k _).symm.trans hl)) h2
    rw [hl, f1]; rfl
  | remove k =>
    simp only [step, Option.map_eq_some_iff, Prod.mk.injEq] at hs
    obtain ⟨s2, h2, rfl, rfl⟩ := hs
    have hmono : ∀ a y, (g.ins a y ∨ (a = k ∧ (none : Option V) = some y)) → (Ghost.after g (.remove k) g.W).ins a y := by
      rintro a y (h | ⟨rfl, h⟩)
      · exact .inl h
      · simp at h
    refine traced_write (fun a e hd => hP a e (hd.mono hmono)) (fun a e W' hd hl => hP' a e W' (hd.mono hmono) ?_) hw
      (fun l hl => hg l ((hwr k _).symm.trans hl)) h2
    rw [hl, f1]; rfl
  | get k =>
    simp only [step] at hs
    split at hs
    · simp only [Option.some.injEq, Prod.mk.injEq] at hs
      obtain ⟨rfl, rfl⟩ := hs
      exact .refl Q _
    · simp only [Option.map_eq_some_iff, Prod.mk.injEq] at hs
      obtain ⟨s2, h2, rfl, rfl⟩ := hs
      exact traced_tryReplace hP0 hw h2
  | containsKey k =>
    simp only [step] at hs
    split at hs
    · simp only [Option.some.injEq, Prod.mk.injEq] at hs
      obtain ⟨rfl, rfl⟩ := hs
      exact .refl Q _
    · simp only [Option.map_eq_some_iff, Prod.mk.injEq] at hs
      obtain ⟨s2, h2, rfl, rfl⟩ := hs
      exact traced_tryReplace hP0 hw h2
  | lenHint =>
    simp only [step, Option.bind_eq_some_iff, Option.map_eq_some_iff, Prod.mk.injEq] at hs
    obtain ⟨s2, h2, n, h3, rfl, rfl⟩ := hs
    exact traced_tryReplace hP0 hw h2
  | min =>
    simp only [step, Option.map_eq_some_iff, Prod.mk.injEq] at hs
    obtain ⟨s2, h2, rfl, rfl⟩ := hs
    exact traced_tryReplace hP0 hw h2
  | max =>
    simp only [step, Option.map_eq_some_iff, Prod.mk.injEq] at hs
    obtain ⟨s2, h2, rfl, rfl⟩ := hs
    exact traced_tryReplace hP0 hw h2
  | len =>
    simp only [step, Option.bind_eq_some_iff, Option.map_eq_some_iff, Prod.mk.injEq] at hs
    obtain ⟨s2, h2, s3, h3, rfl, rfl⟩ := hs
    exact (fl s2 (by simp) h2).2 _ h3
  | isEmpty =>
    simp only [step, Option.bind_eq_some_iff, Option.map_eq_some_iff, Prod.mk.injEq] at hs
    obtain ⟨s2, h2, s3, h3, rfl, rfl⟩ := hs
    exact (fl s2 (by simp) h2).2 _ h3
  | iter =>
    simp only [step, Option.bind_eq_some_iff, Option.map_eq_some_iff, Prod.mk.injEq] at hs
    obtain ⟨s2, h2, s3, h3, rfl, rfl⟩ := hs
    exact (fl s2 (by simp) h2).2 _ h3
  | hold =>
    simp only [step, Option.bind_eq_some_iff, Option.map_eq_some_iff, Prod.mk.injEq] at hs
    obtain ⟨s2, h2, s3, h3, rfl, rfl⟩ := hs
    exact ((fl s2 (by simp) h2).2 _ h3).trans (.same Q rfl rfl)
  | release =>
    simp only [step, Option.some.injEq, Prod.mk.injEq] at hs
    obtain ⟨rfl, rfl⟩ := hs
    exact .same Q rfl rfl
  | flush =>
    simp only [step, Option.map_eq_some_iff, Prod.mk.injEq] at hs
    obtain ⟨s2, h2, rfl, rfl⟩ := hs
    exact (fl _ (by simp) h2).1
  | clear =>
    simp only [step, Option.map_eq_some_iff, Prod.mk.injEq] at hs
    obtain ⟨s2, h2, rfl, rfl⟩ := hs
    exact traced_clear hP0 (fun a e hd => hP' a e _ (hd.mono fun _ _ h => .inl h) rfl) (fun h => hn h rfl) hw hhw h2
  | reopen =>
    simp only [step, Option.bind_eq_some_iff, Option.map_eq_some_iff, Prod.mk.injEq] at hs
    obtain ⟨s2, h2, s3, h3, rfl, rfl⟩ := hs
    refine (fl s2 (by simp) h2).1.trans ?_
    unfold openDir at h3
    split at h3
    · simp at h3
    · split at h3
      · simp only [Option.some.injEq] at h3
        subst h3
        exact .same Q rfl rfl
      · simp at h3

end Store

end Verif.Lsm
