/-
The invariant of the LSM map, for any compaction strategy that satisfies `Laws`, and its preservation.
-/
import Verif.Lsm.Store
import Mathlib.Data.List.Nodup
import Mathlib.Data.List.Perm.Subperm
import Mathlib.Tactic.ByContra

namespace Verif.Lsm

open Verif Verif.Spec

variable {K V : Type}

/-- Some table has this version of the key. -/
def Ver (T : List (Table K V)) (k : K) (v : Val V) : Prop := ∃ t ∈ T, (k, v) ∈ t.entries

/-- The versions in the tables show the writes `W` (`W k` is the last write to `k` that reached a table): no version
is newer than the last write; the last write is there if it is an insertion; and, if `exact`, the last write is
there or no version is, if it is a removal. -/
structure Sees (exact : Bool) (T : List (Table K V)) (W : K → Option (Val V)) : Prop where
  old : ∀ k v, Ver T k v → ∃ w, W k = some w ∧ (v.time < w.time ∨ v = w)
  live : ∀ k w, W k = some w → w.data.isSome → Ver T k w
  dead : exact = true → ∀ k w, W k = some w → w.data = none → Ver T k w ∨ ∀ v, ¬ Ver T k v

/-- `cur` arises from the snapshot `S` by pushing newer tables. -/
inductive Ext [LinearOrder K] (kd : Kind K V) (good : List (Ent K V) → Prop) : kd.M → kd.M → Prop where
  | refl (S : kd.M) : Ext kd good S S
  | push {S m : kd.M} {t : Table K V} : Ext kd good S m → t.Ok → good t.entries →
      (∀ u ∈ kd.tabs m, u.times.2 < t.times.1) → Ext kd good S (kd.push m t)

/-- What the proofs need to know about a strategy. -/
structure Laws [LinearOrder K] (kd : Kind K V) (exact : Bool) where
  /-- which lists of entries may be written as a table -/
  good : List (Ent K V) → Prop
  inv : kd.M → Prop
  inv_empty : inv kd.empty
  tabs_empty : kd.tabs kd.empty = []
  inv_ok : ∀ {m}, inv m → ∀ t ∈ kd.tabs m, t.Ok
  inv_push : ∀ {m t}, inv m → t.Ok → good t.entries → (∀ u ∈ kd.tabs m, u.times.2 < t.times.1) → inv (kd.push m t)
  tabs_push : ∀ m t, (kd.tabs (kd.push m t)).Perm (t :: kd.tabs m)
  compact_new : ∀ {S j f C new}, inv S → kd.plan S = some j → kd.compact j f = some (C, new) →
    new.map (·.id) = List.range' f new.length ∧ ∀ t ∈ kd.tabs C, t ∈ kd.tabs S ∨ t ∈ new
  replace : ∀ {S j f C new cur W}, inv S → kd.plan S = some j → kd.compact j f = some (C, new) →
    Ext kd good S cur → inv cur → ((kd.tabs cur).map (·.id)).Nodup →
    (∀ u ∈ new, u.id ∉ (kd.tabs cur).map (·.id)) → Sees exact (kd.tabs cur) W →
    inv (kd.replace cur C) ∧ Sees exact (kd.tabs (kd.replace cur C)) W ∧
    (∀ k v, Ver (kd.tabs (kd.replace cur C)) k v → Ver (kd.tabs cur) k v) ∧
    (∀ t ∈ kd.tabs (kd.replace cur C), t ∈ kd.tabs cur ∨ t ∈ new) ∧
    ((kd.tabs (kd.replace cur C)).map (·.id)).Nodup
  get_some : ∀ {m k v}, inv m → kd.get m k = some v →
    Ver (kd.tabs m) k v ∧ ∀ v', Ver (kd.tabs m) k v' → v'.time ≤ v.time
  get_none : ∀ {m k}, inv m → kd.get m k = none → ∀ v, ¬ Ver (kd.tabs m) k v
  runs_sorted : ∀ {m}, inv m → ∀ r ∈ kd.runs m, SL.Sorted r
  runs_in : ∀ {m}, inv m → ∀ e, In (kd.runs m) e ↔ Ver (kd.tabs m) e.1 e.2

/-- The compactions of the strategy terminate. -/
def Laws.Total [LinearOrder K] {kd : Kind K V} {x : Bool} (L : Laws kd x) : Prop :=
  ∀ {S j}, L.inv S → kd.plan S = some j → ∀ f, ∃ r, kd.compact j f = some r

theorem Ext.sub [LinearOrder K] {kd : Kind K V} {x : Bool} (L : Laws kd x) {S m : kd.M} (h : Ext kd L.good S m) :
    ∀ t ∈ kd.tabs S, t ∈ kd.tabs m := by
  induction h with
  | refl => exact fun t h => h
  | push _ _ _ _ ih => exact fun t h => (L.tabs_push _ _).mem_iff.2 (List.mem_cons_of_mem _ (ih t h))

/-- What the proofs remember of the history: the last writes that reached tables, the pairs inserted so far, and
whether `clear` has been called. -/
structure Ghost (K V : Type) where
  W : K → Option (Val V)
  ins : K → V → Prop
  cleared : Prop

/-- The serialized size of the in-memory tree. -/
def memSize (z : Sizes K V) (l : List (Ent K V)) : Nat := (l.map z.entry).sum

/-- The contents according to the in-memory tree and the last writes that reached tables. -/
def look [LinearOrder K] (mem : List (Ent K V)) (W : K → Option (Val V)) (k : K) : Option V :=
  match SL.find k mem with
  | some e => e.2.data
  | none => (W k).bind (·.data)

namespace Store

variable [LinearOrder K] {kd : Kind K V} {x : Bool}

/-- The invariant of the map between calls (apart from the join handle). -/
structure Inv (L : Laws kd x) (c : Cfg K V) (s : Store kd) (g : Ghost K V) : Prop where
  memSorted : SL.Sorted s.mem
  memTime : ∀ e ∈ s.mem, e.2.time < s.clock
  memNew : ∀ e ∈ s.mem, ∀ t ∈ kd.tabs s.cur, t.times.2 < e.2.time
  curTime : ∀ t ∈ kd.tabs s.cur, t.times.2 < s.clock
  inv : L.inv s.cur
  sees : Sees x (kd.tabs s.cur) g.W
  ids : ((kd.tabs s.cur).map (·.id)).Nodup
  job : ∀ j, s.job = some j → s.next = none ∧ s.busy = true ∧
    ∃ S, L.inv S ∧ Ext kd L.good S s.cur ∧ kd.plan S = some j
  next : ∀ m, s.next = some m → ∃ S j f new, L.inv S ∧ Ext kd L.good S s.cur ∧ kd.plan S = some j ∧
    kd.compact j f = some (m, new) ∧ (∀ u ∈ new, u ∈ s.disk.dirs) ∧ ∀ u ∈ new, u.id ∉ (kd.tabs s.cur).map (·.id)
  locked : s.locks ≠ 0 → s.job = none ∧ s.next = none
  files : ∀ t ∈ kd.tabs s.cur, t ∈ s.disk.dirs
  dirIds : (s.disk.dirs.map (·.id)).Nodup
  dirNew : ∀ t ∈ s.disk.dirs, t.id < s.fresh
  md : s.disk.md = s.cur
  time : s.disk.time = some s.clock ∨ (s.disk.time = none ∧ s.clock = 0)
  used : memSize c.sizes s.mem ≤ s.usage
  usedEq : ¬ g.cleared → s.usage = memSize c.sizes s.mem
  vals : ∀ k v y, Ver (kd.tabs s.cur) k v → v.data = some y → g.ins k y
  memVals : ∀ e ∈ s.mem, ∀ y, e.2.data = some y → g.ins e.1 y

/-- Without a join handle nothing is running or waiting to be taken over. -/
def Hand (s : Store kd) : Prop := s.handle = false → s.job = none ∧ s.next = none

theorem inv_new (L : Laws kd x) (c : Cfg K V) : Inv L c (new kd) ⟨fun _ => none, fun _ _ => False, False⟩ := by
  have ht := L.tabs_empty
  refine ⟨?_, ?_, ?_, ?_, L.inv_empty, ⟨?_, ?_, ?_⟩, ?_, ?_, ?_, ?_, ?_, ?_, ?_, rfl, .inr ⟨rfl, rfl⟩, le_rfl,
    fun _ => rfl, ?_, ?_⟩
  all_goals simp [new, ht, Ver, SL.Sorted]

omit [LinearOrder K] in
theorem deliver_none {s : Store kd} (h : s.job = none) : s.deliver = { s with busy := false } := by
  unfold deliver; rw [h]

theorem inv_deliver {L : Laws kd x} {c : Cfg K V} {s : Store kd} {g : Ghost K V} (h : Inv L c s g) :
    Inv L c s.deliver g := by
  cases hj : s.job with
  | none =>
    rw [deliver_none hj]
    exact ⟨h.memSorted, h.memTime, h.memNew, h.curTime, h.inv, h.sees, h.ids, fun j h' => by simp [hj] at h', h.next,
      h.locked, h.files, h.dirIds, h.dirNew, h.md, h.time, h.used, h.usedEq, h.vals, h.memVals⟩
  | some j =>
    unfold deliver
    rw [hj]
    simp only
    obtain ⟨h1, h2, S, h3, h4, h5⟩ := h.job j hj
    cases hc : kd.compact j s.fresh with
    | none => exact h
    | some p =>
      obtain ⟨m, new⟩ := p
      simp only
      obtain ⟨h6, h7⟩ := L.compact_new h3 h5 hc
      have hid : ∀ u ∈ new, s.fresh ≤ u.id ∧ u.id < s.fresh + new.length := by
        intro u hu
        have : u.id ∈ new.map (·.id) := List.mem_map.2 ⟨u, hu, rfl⟩
        rw [h6, List.mem_range'_1] at this
        exact this
      refine ⟨h.memSorted, h.memTime, h.memNew, h.curTime, h.inv, h.sees, h.ids, ?_, ?_, ?_, ?_, ?_, ?_, h.md, h.time,
        h.used, h.usedEq, h.vals, h.memVals⟩
      · intro j' h'; simp [put] at h'
      · intro m' h'
        simp only [put, Option.some.injEq] at h'
        subst h'
        refine ⟨S, j, s.fresh, new, h3, h4, h5, hc, fun u hu => ?_, fun u hu hm => ?_⟩
        · simp only [put]; exact List.mem_append_right _ hu
        · obtain ⟨t, ht, he⟩ := List.mem_map.1 hm
          have := h.dirNew t (h.files t ht)
          have := (hid u hu).1
          omega
      · intro h'; have := (h.locked h').1; rw [hj] at this; simp at this
      · intro t ht; exact List.mem_append_left _ (h.files t ht)
      · simp only [put, List.map_append]
        refine List.nodup_append.2 ⟨h.dirIds, ?_, ?_⟩
        · rw [h6]; exact List.nodup_range'
        · intro a ha b hb hab
          obtain ⟨t, ht, rfl⟩ := List.mem_map.1 ha
          obtain ⟨u, hu, rfl⟩ := List.mem_map.1 hb
          have := h.dirNew t ht
          have := (hid u hu).1
          omega
      · intro t ht
        simp only [put] at ht ⊢
        rcases List.mem_append.1 ht with ht | ht
        · have := h.dirNew t ht; omega
        · exact (hid t ht).2

theorem deliver_frame (s : Store kd) : s.deliver.mem = s.mem ∧ s.deliver.usage = s.usage ∧ s.deliver.cur = s.cur ∧
    s.deliver.handle = s.handle ∧ s.deliver.clock = s.clock ∧ s.deliver.locks = s.locks := by
  unfold deliver
  split
  · simp
  · split <;> simp [put]

theorem hand_deliver {s : Store kd} (h : s.Hand) : s.deliver.Hand := by
  intro hh
  rw [(deliver_frame s).2.2.2.1] at hh
  obtain ⟨h1, h2⟩ := h hh
  rw [deliver_none h1]
  exact ⟨h1, h2⟩

theorem inv_work {L : Laws kd x} {c : Cfg K V} {g : Ghost K V} (n : Nat) : ∀ {s : Store kd}, Inv L c s g →
    Inv L c (work n s) g := by
  induction n with
  | zero => intro s h; exact h
  | succ n ih => intro s h; exact ih (inv_deliver h)

theorem hand_work (n : Nat) : ∀ {s : Store kd}, s.Hand → (work n s).Hand := by
  induction n with
  | zero => intro s h; exact h
  | succ n ih => intro s h; exact ih (hand_deliver h)

theorem work_frame (n : Nat) : ∀ (s : Store kd), (work n s).mem = s.mem ∧ (work n s).usage = s.usage ∧
    (work n s).cur = s.cur ∧ (work n s).handle = s.handle ∧ (work n s).clock = s.clock ∧ (work n s).locks = s.locks := by
  induction n with
  | zero => intro s; simp [work]
  | succ n ih =>
    intro s
    obtain ⟨h1, h2, h3, h4, h5, h6⟩ := ih s.deliver
    obtain ⟨k1, k2, k3, k4, k5, k6⟩ := deliver_frame s
    exact ⟨h1.trans k1, h2.trans k2, h3.trans k3, h4.trans k4, h5.trans k5, h6.trans k6⟩

/-- Removing directories: what is left, and the states of the files on the way. -/
theorem removeDirs_some {is : List Nat} : ∀ {s s' : Store kd}, removeDirs is s = some s' →
    ∃ tr, s' = { s with
      disk := { s.disk with dirs := s.disk.dirs.filter fun t => decide (t.id ∉ is) }, trace := s.trace ++ tr } ∧
      ∀ d ∈ tr, ∃ js : List Nat, (∀ j ∈ js, j ∈ is) ∧ d = { s.disk with dirs := s.disk.dirs.filter fun t => decide (t.id ∉ js) } := by
  induction is with
  | nil =>
    intro s s' h
    simp only [removeDirs, Option.some.injEq] at h
    subst h
    exact ⟨[], by simp, by simp⟩
  | cons i is ih =>
    intro s s' h
    simp only [removeDirs] at h
    split at h
    · obtain ⟨tr, h1, h2⟩ := ih h
      refine ⟨{ s.disk with dirs := s.disk.dirs.filter fun t => t.id ≠ i } :: tr, ?_, ?_⟩
      · rw [h1]
        simp only [put, List.filter_filter, List.append_assoc, List.singleton_append]
        congr 2
        apply List.filter_congr
        intro t _
        simp only [List.mem_cons, not_or, ne_eq, decide_not, Bool.decide_and, Bool.and_comm]
      · intro d hd
        rcases List.mem_cons.1 hd with rfl | hd
        · exact ⟨[i], by simp, by simp⟩
        · obtain ⟨js, hj, he⟩ := h2 d hd
          refine ⟨i :: js, ?_, ?_⟩
          · intro j hj'
            rcases List.mem_cons.1 hj' with rfl | hj'
            · simp
            · exact List.mem_cons_of_mem _ (hj j hj')
          · rw [he]
            simp only [put, List.filter_filter]
            congr 1
            apply List.filter_congr
            intro t _
            simp only [List.mem_cons, not_or, ne_eq, decide_not, Bool.decide_and, Bool.and_comm]
    · simp at h

theorem removeDirs_isSome {is : List Nat} : ∀ {s : Store kd}, is.Nodup → (∀ i ∈ is, i ∈ s.disk.dirs.map (·.id)) →
    ∃ s', removeDirs is s = some s' := by
  induction is with
  | nil => intro s _ _; exact ⟨s, rfl⟩
  | cons i is ih =>
    intro s hn hm
    simp only [removeDirs]
    rw [if_pos (hm i (by simp))]
    obtain ⟨h1, h2⟩ := List.nodup_cons.1 hn
    apply ih h2
    intro j hj
    obtain ⟨t, ht, he⟩ := List.mem_map.1 (hm j (List.mem_cons_of_mem _ hj))
    refine List.mem_map.2 ⟨t, ?_, he⟩
    simp only [put]
    refine List.mem_filter.2 ⟨ht, ?_⟩
    simp only [ne_eq, decide_not, Bool.not_eq_eq_eq_not, Bool.not_true, decide_eq_false_iff_not]
    rintro rfl
    exact h1 (he ▸ hj)

/-- Taking over the result of a compaction. -/
theorem inv_tryReplace {L : Laws kd x} {c : Cfg K V} {s : Store kd} {g : Ghost K V} (h : Inv L c s g) :
    ∃ s', s.tryReplace = some s' ∧ Inv L c s' g ∧ s'.mem = s.mem ∧ s'.usage = s.usage ∧ s'.next = none ∧
      s'.job = s.job ∧ s'.busy = s.busy ∧ s'.handle = s.handle ∧ s'.clock = s.clock ∧ s'.locks = s.locks ∧
      s'.fresh = s.fresh := by
  unfold tryReplace
  cases hn : s.next with
  | none => exact ⟨s, rfl, h, rfl, rfl, hn, rfl, rfl, rfl, rfl, rfl, rfl⟩
  | some m =>
    simp only
    obtain ⟨S, j, f, new, h1, h2, h3, h4, h5, h6⟩ := h.next m hn
    obtain ⟨r1, r2, r3, r4, r5⟩ := L.replace h1 h3 h4 h2 h.inv h.ids h6 h.sees
    have hj : s.job = none := by
      cases hj : s.job with
      | none => rfl
      | some j' => have := (h.job j' hj).1; rw [hn] at this; simp at this
    generalize hold : ((kd.tabs s.cur).filter fun t => t.id ∉ (kd.tabs (kd.replace s.cur m)).map (·.id)).map (·.id) = is
    have his : ∀ i, i ∈ is ↔ (i ∈ (kd.tabs s.cur).map (·.id) ∧ i ∉ (kd.tabs (kd.replace s.cur m)).map (·.id)) := by
      intro i
      rw [← hold]
      simp only [List.mem_map, List.mem_filter, decide_eq_true_eq]
      constructor
      · rintro ⟨t, ⟨h1, h2⟩, rfl⟩; exact ⟨⟨t, h1, rfl⟩, h2⟩
      · rintro ⟨⟨t, h1, rfl⟩, h2⟩; exact ⟨t, ⟨h1, h2⟩, rfl⟩
    have hnd : is.Nodup := by
      rw [← hold]
      exact List.Nodup.sublist (List.Sublist.map _ List.filter_sublist) h.ids
    obtain ⟨s', hs'⟩ := removeDirs_isSome (s := { s with cur := kd.replace s.cur m, next := none }) hnd (by
      intro i hi
      obtain ⟨t, ht, rfl⟩ := List.mem_map.1 ((his i).1 hi).1
      exact List.mem_map.2 ⟨t, h.files t ht, rfl⟩)
    obtain ⟨tr, htr, _⟩ := removeDirs_some hs'
    rw [hs']
    refine ⟨s'.writeMeta, rfl, ?_, ?_⟩
    · subst htr
      simp only [writeMeta, put]
      refine ⟨h.memSorted, h.memTime, ?_, ?_, r1, r2, r5, ?_, ?_, ?_, ?_, ?_, ?_, rfl, h.time,
        h.used, h.usedEq, ?_, h.memVals⟩
      · intro e he t ht
        have hk := L.inv_ok r1 t ht
        obtain ⟨⟨k, v⟩, hv, hve⟩ := hk.timeHiMem
        obtain ⟨u, hu, huv⟩ := r3 k v ⟨t, ht, hv⟩
        have h7 := (L.inv_ok h.inv u hu).timeHi _ huv
        have h8 := h.memNew e he u hu
        simp only at hve h7
        omega
      · intro t ht
        have hk := L.inv_ok r1 t ht
        obtain ⟨⟨k, v⟩, hv, hve⟩ := hk.timeHiMem
        obtain ⟨u, hu, huv⟩ := r3 k v ⟨t, ht, hv⟩
        have h7 := (L.inv_ok h.inv u hu).timeHi _ huv
        have h8 := h.curTime u hu
        simp only at hve h7
        show t.times.2 < s.clock
        omega
      · intro j' h'; rw [hj] at h'; simp at h'
      · intro m' h'; simp at h'
      · intro h'; exact ⟨hj, rfl⟩
      · intro t ht
        refine List.mem_filter.2 ⟨?_, ?_⟩
        · rcases r4 t ht with h7 | h7
          · exact h.files t h7
          · exact h5 t h7
        · simp only [decide_eq_true_eq]
          intro hi
          exact ((his _).1 hi).2 (List.mem_map.2 ⟨t, ht, rfl⟩)
      · exact List.Nodup.sublist (List.Sublist.map _ List.filter_sublist) h.dirIds
      · intro t ht; exact h.dirNew t (List.mem_filter.1 ht).1
      · intro k v y hv hy; exact h.vals k v y (r3 k v hv) hy
    · subst htr
      simp [writeMeta, put]

/-- What a table's entries add to the last writes. -/
def addW (l : List (Ent K V)) (W : K → Option (Val V)) (k : K) : Option (Val V) :=
  match SL.find k l with
  | some e => some e.2
  | none => W k

theorem sees_push {L : Laws kd x} {m : kd.M} {t : Table K V} {W : K → Option (Val V)} (h : Sees x (kd.tabs m) W)
    (hi : L.inv m) (ht : t.Ok) (hnew : ∀ u ∈ kd.tabs m, u.times.2 < t.times.1) :
    Sees x (kd.tabs (kd.push m t)) (addW t.entries W) := by
  have hver : ∀ k v, Ver (kd.tabs (kd.push m t)) k v ↔ (k, v) ∈ t.entries ∨ Ver (kd.tabs m) k v := by
    intro k v
    simp only [Ver, (L.tabs_push m t).mem_iff, List.mem_cons]
    constructor
    · rintro ⟨u, rfl | hu, h⟩
      · exact .inl h
      · exact .inr ⟨u, hu, h⟩
    · rintro (h | ⟨u, hu, h⟩)
      · exact ⟨t, .inl rfl, h⟩
      · exact ⟨u, .inr hu, h⟩
  have hlt : ∀ k v, Ver (kd.tabs m) k v → ∀ e ∈ t.entries, v.time < e.2.time := by
    rintro k v ⟨u, hu, huv⟩ e he
    have h1 := (L.inv_ok hi u hu).timeHi _ huv
    have h2 := hnew u hu
    have h3 := ht.timeLo e he
    simp only at h1
    omega
  refine ⟨?_, ?_, ?_⟩
  · intro k v hv
    cases hf : SL.find k t.entries with
    | some e =>
      refine ⟨e.2, by simp [addW, hf], ?_⟩
      have hk := SL.find_some_key hf
      have hm := SL.find_some_mem hf
      rcases (hver k v).1 hv with hv | hv
      · have := SL.find_of_mem ht.sorted hv
        simp only at this
        rw [hf] at this
        simp only [Option.some.injEq] at this
        right; rw [this]
      · exact .inl (hlt k v hv e hm)
    | none =>
      rcases (hver k v).1 hv with hv | hv
      · exact absurd rfl (SL.find_eq_none.1 hf _ hv)
      · obtain ⟨w, h1, h2⟩ := h.old k v hv
        exact ⟨w, by simp [addW, hf, h1], h2⟩
  · intro k w hw hd
    rw [hver]
    unfold addW at hw
    cases hf : SL.find k t.entries with
    | some e =>
      rw [hf] at hw
      simp only [Option.some.injEq] at hw
      subst hw
      left
      have hk := SL.find_some_key hf
      have hm := SL.find_some_mem hf
      rw [← hk]; exact hm
    | none =>
      rw [hf] at hw
      exact .inr (h.live k w hw hd)
  · intro hx k w hw hd
    unfold addW at hw
    cases hf : SL.find k t.entries with
    | some e =>
      rw [hf] at hw
      simp only [Option.some.injEq] at hw
      subst hw
      left
      rw [hver]
      left
      have hk := SL.find_some_key hf
      have hm := SL.find_some_mem hf
      rw [← hk]; exact hm
    | none =>
      rw [hf] at hw
      rcases h.dead hx k w hw hd with h1 | h1
      · left; rw [hver]; exact .inr h1
      · right
        intro v hv
        rcases (hver k v).1 hv with hv | hv
        · exact absurd rfl (SL.find_eq_none.1 hf _ hv)
        · exact h1 v hv

/-- Writing the in-memory tree as a table and the metadata that names it. -/
theorem inv_pushTable {L : Laws kd x} {c : Cfg K V} {s : Store kd} {g : Ghost K V} (h : Inv L c s g)
    (hm : s.mem ≠ []) (hg : L.good s.mem) :
    ∃ t, build c.sizes (c.block s.mem.length) s.mem s.fresh = some t ∧ t.id = s.fresh ∧
      Inv L c (s.pushTable t) { g with W := addW s.mem g.W } := by
  obtain ⟨t, h1, h2, h3, h4⟩ := build_ok (z := c.sizes) (n := c.block s.mem.length) h.memSorted hm s.fresh
  refine ⟨t, h1, h4, ?_⟩
  have hnew : ∀ u ∈ kd.tabs s.cur, u.times.2 < t.times.1 := by
    intro u hu
    obtain ⟨e, he, hee⟩ := h2.timeLoMem
    rw [← hee]; rw [h3] at he
    exact h.memNew e he u hu
  have hgt : L.good t.entries := by rw [h3]; exact hg
  have hperm := L.tabs_push s.cur t
  have htid : t.id ∉ (kd.tabs s.cur).map (·.id) := by
    intro hi
    obtain ⟨u, hu, he⟩ := List.mem_map.1 hi
    have := h.dirNew u (h.files u hu)
    omega
  have hsees := sees_push (L := L) h.sees h.inv h2 hnew
  rw [h3] at hsees
  · simp only [pushTable, writeMeta, put]
    refine ⟨by simp [SL.Sorted], by simp, by simp, ?_, L.inv_push h.inv h2 hgt hnew, hsees, ?_, ?_, ?_, h.locked, ?_,
      ?_, ?_, rfl, h.time, by simp [memSize], fun _ => by simp [memSize], ?_, by simp⟩
    · intro u hu
      rcases List.mem_cons.1 (hperm.mem_iff.1 hu) with rfl | hu
      · obtain ⟨e, he, hee⟩ := h2.timeHiMem
        rw [← hee]; rw [h3] at he
        exact h.memTime e he
      · exact h.curTime u hu
    · rw [(hperm.map _).nodup_iff]
      simp only [List.map_cons]
      exact List.nodup_cons.2 ⟨htid, h.ids⟩
    · intro j hj
      obtain ⟨k1, k2, S, k3, k4, k5⟩ := h.job j hj
      exact ⟨k1, k2, S, k3, .push k4 h2 hgt hnew, k5⟩
    · intro m hn
      obtain ⟨S, j, f, new, k1, k2, k3, k4, k5, k6⟩ := h.next m hn
      refine ⟨S, j, f, new, k1, .push k2 h2 hgt hnew, k3, k4, fun u hu => List.mem_append_left _ (k5 u hu), ?_⟩
      intro u hu hi
      obtain ⟨u', hu', he⟩ := List.mem_map.1 hi
      rcases List.mem_cons.1 (hperm.mem_iff.1 hu') with rfl | hu'
      · have := h.dirNew u (k5 u hu)
        omega
      · exact k6 u hu (List.mem_map.2 ⟨u', hu', he⟩)
    · intro u hu
      rcases List.mem_cons.1 (hperm.mem_iff.1 hu) with rfl | hu
      · simp
      · exact List.mem_append_left _ (h.files u hu)
    · rw [List.map_append]
      refine List.nodup_append.2 ⟨h.dirIds, by simp, ?_⟩
      intro a ha b hb hab
      obtain ⟨u, hu, rfl⟩ := List.mem_map.1 ha
      simp only [List.map_cons, List.map_nil, List.mem_singleton] at hb
      have := h.dirNew u hu
      omega
    · intro u hu
      rcases List.mem_append.1 hu with hu | hu
      · have := h.dirNew u hu; simp only; omega
      · simp only [List.mem_singleton] at hu; subst hu; simp only; omega
    · rintro k v y ⟨u, hu, hv⟩ hy
      rcases List.mem_cons.1 (hperm.mem_iff.1 hu) with rfl | hu
      · rw [h3] at hv; exact h.memVals _ hv y hy
      · exact h.vals k v y ⟨u, hu, hv⟩ hy

/-- Writing the in-memory tree as a table, and perhaps starting a compaction. -/
theorem inv_tryCompact {L : Laws kd x} {c : Cfg K V} {s : Store kd} {g : Ghost K V} (h : Inv L c s g)
    (hh : s.Hand) (hm : s.mem ≠ []) (hg : L.good s.mem) :
    ∃ s', s.tryCompact c = some s' ∧ Inv L c s' { g with W := addW s.mem g.W } ∧ s'.Hand ∧ s'.mem = [] ∧
      s'.usage = 0 ∧ s'.clock = s.clock ∧ s'.locks = s.locks := by
  unfold tryCompact
  obtain ⟨t, h1, _, hI⟩ := inv_pushTable h hm hg
  rw [h1]
  simp only
  unfold start
  split
  · exact ⟨_, rfl, hI, hh, rfl, rfl, rfl, rfl⟩
  · rename_i hb
    obtain ⟨s', k1, k2, k3, k4, k5, k6, k7, k8, k9, k10, _⟩ := inv_tryReplace hI
    rw [k1]
    simp only
    have hb0 : s.busy = false ∧ s.locks = 0 := by
      simp only [pushTable, writeMeta, put, not_or, Bool.not_eq_true, not_not, ne_eq] at hb; exact hb
    have hj : s'.job = none := by
      rw [k6]
      cases hj : s.job with
      | none => simpa [pushTable, writeMeta, put] using hj
      | some j => have := (h.job j hj).2.1; rw [hb0.1] at this; simp at this
    cases hp : kd.plan s'.cur with
    | none =>
      exact ⟨s', rfl, k2, fun _ => ⟨hj, k5⟩, k3, k4, k9, k10⟩
    | some j =>
      refine ⟨_, rfl, ?_, fun hc => by simp at hc, k3, k4, k9, k10⟩
      refine ⟨k2.memSorted, k2.memTime, k2.memNew, k2.curTime, k2.inv, k2.sees, k2.ids, ?_, k2.next,
        ?_, k2.files, k2.dirIds, k2.dirNew, k2.md, k2.time, k2.used, k2.usedEq, k2.vals, k2.memVals⟩
      · intro j' hj'
        simp only [Option.some.injEq] at hj'
        subst hj'
        exact ⟨k5, rfl, s'.cur, k2.inv, .refl _, hp⟩
      · intro hl
        exfalso
        apply hl
        have : s'.locks = s.locks := k10
        simp only; rw [this]; exact hb0.2

/-- Joining the compaction thread. -/
theorem inv_join {L : Laws kd x} {c : Cfg K V} {s s' : Store kd} {g : Ghost K V} (h : Inv L c s g)
    (hj : s.join = some s') : Inv L c s' g ∧ s'.job = none ∧ s'.mem = s.mem ∧ s'.usage = s.usage ∧
      s'.cur = s.cur ∧ s'.clock = s.clock ∧ s'.locks = s.locks := by
  unfold join at hj
  simp only at hj
  split at hj
  · simp at hj
  · rename_i hs
    simp only [Option.some.injEq] at hj
    subst hj
    obtain ⟨h1, h2, h3, _, h5, h6⟩ := work_frame 2 s
    exact ⟨inv_work 2 h, by simpa using hs, h1, h2, h3, h5, h6⟩

theorem join_isSome {L : Laws kd x} (hL : L.Total) {c : Cfg K V} {s : Store kd} {g : Ghost K V} (h : Inv L c s g) :
    ∃ s', s.join = some s' := by
  have : (work 2 s).job = none := by
    simp only [work]
    have : s.deliver.job = none := by
      cases hj : s.job with
      | none => rw [deliver_none hj]; exact hj
      | some j =>
        unfold deliver
        rw [hj]
        obtain ⟨_, _, S, h3, _, h5⟩ := h.job j hj
        obtain ⟨r, hr⟩ := hL h3 h5 s.fresh
        simp only [hr]
        rfl
    rw [deliver_none this]
    exact this
  exact ⟨work 2 s, by unfold join; simp [this]⟩

/-- `flush` of the strategy. -/
theorem inv_settle {L : Laws kd x} {c : Cfg K V} {s s' : Store kd} {g : Ghost K V} (h : Inv L c s g) (hh : s.Hand)
    (hs : s.settle = some s') : Inv L c s' g ∧ s'.job = none ∧ s'.next = none ∧ s'.mem = s.mem ∧ s'.usage = s.usage ∧
      s'.clock = s.clock ∧ s'.locks = s.locks := by
  unfold settle at hs
  split at hs
  · cases hj : s.join with
    | none => rw [hj] at hs; simp at hs
    | some s1 =>
      rw [hj] at hs
      simp only at hs
      obtain ⟨h1, h2, h3, h4, h5, h6, h7⟩ := inv_join h hj
      have h1' : Inv L c { s1 with handle := false } g :=
        ⟨h1.memSorted, h1.memTime, h1.memNew, h1.curTime, h1.inv, h1.sees, h1.ids, h1.job, h1.next, h1.locked, h1.files,
          h1.dirIds, h1.dirNew, h1.md, h1.time, h1.used, h1.usedEq, h1.vals, h1.memVals⟩
      obtain ⟨s2, k1, k2, k3, k4, k5, k6, k7, k8, k9, k10, _⟩ := inv_tryReplace h1'
      rw [hs] at k1
      simp only [Option.some.injEq] at k1
      subst k1
      exact ⟨k2, k6.trans h2, k5, k3.trans h3, k4.trans h4, k9.trans h6, k10.trans h7⟩
  · rename_i hc
    simp only [Option.some.injEq] at hs
    subst hs
    obtain ⟨h1, h2⟩ := hh (by simpa using hc)
    exact ⟨h, h1, h2, rfl, rfl, rfl, rfl⟩

theorem settle_isSome {L : Laws kd x} (hL : L.Total) {c : Cfg K V} {s : Store kd} {g : Ghost K V} (h : Inv L c s g) :
    ∃ s', s.settle = some s' := by
  unfold settle
  split
  · obtain ⟨s1, hj⟩ := join_isSome hL h
    rw [hj]
    simp only
    obtain ⟨h1, h2, h3, h4, h5, h6, h7⟩ := inv_join h hj
    have h1' : Inv L c { s1 with handle := false } g :=
      ⟨h1.memSorted, h1.memTime, h1.memNew, h1.curTime, h1.inv, h1.sees, h1.ids, h1.job, h1.next, h1.locked, h1.files,
        h1.dirIds, h1.dirNew, h1.md, h1.time, h1.used, h1.usedEq, h1.vals, h1.memVals⟩
    obtain ⟨s2, k1, _⟩ := inv_tryReplace h1'
    exact ⟨s2, k1⟩
  · exact ⟨s, rfl⟩

theorem addW_nil (W : K → Option (Val V)) : addW ([] : List (Ent K V)) W = W := rfl

/-- `flush` of the map: afterwards everything is in the tables, and nothing is running. -/
theorem inv_flush {L : Laws kd x} {c : Cfg K V} {s s' : Store kd} {g : Ghost K V} (h : Inv L c s g) (hh : s.Hand)
    (hg : s.mem ≠ [] → L.good s.mem) (hs : s.flush c = some s') :
    Inv L c s' { g with W := addW s.mem g.W } ∧ s'.job = none ∧ s'.next = none ∧ s'.mem = [] ∧
      s'.clock = s.clock ∧ s'.locks = s.locks := by
  unfold flush at hs
  cases hm : s.mem with
  | nil =>
    rw [hm] at hs
    simp only at hs
    obtain ⟨h1, h2, h3, h4, h5, h6, h7⟩ := inv_settle h hh hs
    rw [addW_nil]
    exact ⟨h1, h2, h3, h4.trans hm, h6, h7⟩
  | cons e l =>
    have hne : s.mem ≠ [] := by rw [hm]; simp
    obtain ⟨s1, k1, k2, k3, k4, k5, k6, k7⟩ := inv_tryCompact h hh hne (hg hne)
    rw [hm, k1] at hs
    simp only at hs
    obtain ⟨h1, h2, h3, h4, h5, h6, h7⟩ := inv_settle k2 k3 hs
    rw [← hm]
    exact ⟨h1, h2, h3, h4.trans k4, h6.trans k6, h7.trans k7⟩

theorem flush_isSome {L : Laws kd x} (hL : L.Total) {c : Cfg K V} {s : Store kd} {g : Ghost K V} (h : Inv L c s g)
    (hh : s.Hand) (hg : s.mem ≠ [] → L.good s.mem) : ∃ s', s.flush c = some s' := by
  unfold flush
  cases hm : s.mem with
  | nil => exact settle_isSome hL h
  | cons e l =>
    have hne : s.mem ≠ [] := by rw [hm]; simp
    obtain ⟨s1, k1, k2, _⟩ := inv_tryCompact h hh hne (hg hne)
    rw [k1]
    exact settle_isSome hL k2

end Store

end Verif.Lsm
