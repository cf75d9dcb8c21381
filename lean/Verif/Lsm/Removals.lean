/- C93: what compactions leave of tables that hold removals only. -/
import Verif.Lsm.TableCount
import Verif.Lsm.LeveledCost

namespace Verif.Lsm

variable {K V : Type} [LinearOrder K] [DecidableEq V]

open Verif Verif.Spec Store

/-- `remove` and `flush` in turn, for the keys of a list. -/
def removals (ks : List K) : List (KvOp K V × Nat) := ks.flatMap fun k => [(.remove k, 0), (.flush, 0)]

/-- A compaction of such tables writes nothing, and taking it over drops none of them. -/
structure Dud (c : Cfg K V) (kd : Kind K V) (T : kd.M → Prop) : Prop where
  push : ∀ m t, T m → (∃ k n f, build c.sizes (c.block 1) [(k, ⟨none, n⟩)] f = some t) → T (kd.push m t) ∧
    (kd.tabs (kd.push m t)).length = (kd.tabs m).length + 1
  merge : ∀ m j, T m → kd.plan m = some j → ∀ f, ∃ m', kd.compact j f = some (m', []) ∧ T (kd.replace m m') ∧
    kd.tabs (kd.replace m m') = kd.tabs m

/-- Between two rounds. -/
structure Rest {kd : Kind K V} (T : kd.M → Prop) (n : Nat) (s : Store kd) : Prop where
  mem : s.mem = []
  usage : s.usage = 0
  next : s.next = none
  job : s.job = none
  busy : s.busy = false
  locks : s.locks = 0
  handle : s.handle = false
  tabs : (kd.tabs s.cur).length = n
  only : T s.cur

variable {kd : Kind K V} {T : kd.M → Prop}

omit [LinearOrder K] [DecidableEq V] in
theorem start_settle {c : Cfg K V} (hd : Dud c kd T) {s : Store kd} {n : Nat} (h : Rest T n s) :
    ∃ s1 s2, s.start = some s1 ∧ s1.mem = [] ∧ s1.settle = some s2 ∧ Rest T n s2 := by
  have e : s.tryReplace = some s := by unfold tryReplace; rw [h.next]
  unfold start
  rw [if_neg (by simp [h.busy, h.locks]), e]
  simp only
  cases hp : kd.plan s.cur with
  | none => exact ⟨s, s, rfl, h.mem, by simp [settle, h.handle], h⟩
  | some j =>
    obtain ⟨m', h1, h2, h3⟩ := hd.merge _ _ h.only hp s.fresh
    have hf : (kd.tabs s.cur).filter (fun t => decide (t.id ∉ (kd.tabs s.cur).map (·.id))) = [] := by
      rw [List.filter_eq_nil_iff]
      intro t ht
      simp only [decide_eq_true_eq, not_not]
      exact List.mem_map_of_mem ht
    refine ⟨_, _, rfl, h.mem, by
      simp only [settle, join, work, deliver, h1, put, tryReplace, h3, hf, List.map_nil, removeDirs, Option.map_some, if_true,
        Option.isSome_none, Bool.false_eq_true, if_false]; rfl, ?_⟩
    exact ⟨h.mem, h.usage, rfl, rfl, rfl, h.locks, rfl, by simpa [writeMeta, put, h3] using h.tabs, h2⟩

omit [DecidableEq V] in
theorem compact_settle {c : Cfg K V} (hd : Dud c kd T) {s : Store kd} {n m u : Nat} {k : K} (h : Rest T n s) :
    ∃ s1 s2, tryCompact c { s with usage := u, mem := [(k, ⟨none, m⟩)] } = some s1 ∧ s1.mem = [] ∧
      s1.settle = some s2 ∧ Rest T (n + 1) s2 := by
  obtain ⟨t, h1, -⟩ := build_ok (z := c.sizes) (n := c.block 1) (l := [(k, (⟨none, m⟩ : Val V))])
    (by simp [SL.Sorted]) (by simp) s.fresh
  obtain ⟨p1, p2⟩ := hd.push s.cur t h.only ⟨k, m, _, h1⟩
  unfold tryCompact
  simp only [List.length_singleton, h1]
  exact start_settle hd ⟨rfl, rfl, h.next, h.job, h.busy, h.locks, h.handle, by rw [← h.tabs]; exact p2, p1⟩

theorem round_rest {c : Cfg K V} (hd : Dud c kd T) {s : Store kd} {n : Nat} (h : Rest T n s) (k : K) :
    ∃ s1 s2 r1 r2, s.step c (.remove k) 0 = some (s1, r1) ∧ s1.step c .flush 0 = some (s2, r2) ∧ Rest T (n + 1) s2 := by
  have ht : Rest T n s.tick.1 := ⟨h.mem, h.usage, h.next, h.job, h.busy, h.locks, h.handle, h.tabs, h.only⟩
  obtain ⟨u, hu⟩ : ∃ u, usageAfter c s.tick.1 k ⟨none, s.tick.2⟩ = some u := by simp [usageAfter, ht.mem, SL.find]
  obtain ⟨s1, s2, e1, e2, e3, e4⟩ := compact_settle hd (u := u) (m := s.tick.2) (k := k) ht
  simp only [step, work, write, hu]
  have hm : SL.ins k (⟨none, s.tick.2⟩ : Val V) s.tick.1.mem = [(k, ⟨none, s.tick.2⟩)] := by rw [ht.mem]; rfl
  rw [hm]
  by_cases hc : c.maxMem < u
  · rw [if_pos hc, e1]
    refine ⟨s1, s2, .unit, .unit, rfl, ?_, e4⟩
    simp only [flush, e2, e3, Option.map_some]
  · rw [if_neg hc]
    refine ⟨_, s2, .unit, .unit, rfl, ?_, e4⟩
    simp only [flush, e1, e3, Option.map_some]

theorem removals_rest {c : Cfg K V} (hd : Dud c kd T) : ∀ (ks : List K) {s : Store kd} {n : Nat}, Rest T n s →
    ∃ s' rs, run c s (removals ks) = some (s', rs) ∧ Rest T (n + ks.length) s'
  | [], s, n, h => ⟨s, [], rfl, h⟩
  | k :: ks, s, n, h => by
    obtain ⟨s1, s2, r1, r2, e1, e2, h2⟩ := round_rest hd h k
    obtain ⟨s', rs, e3, h3⟩ := removals_rest hd ks h2
    refine ⟨s', r1 :: r2 :: rs, ?_, by rw [List.length_cons, Nat.add_comm _ 1, ← Nat.add_assoc]; exact h3⟩
    have : removals (V := V) (k :: ks) = (.remove k, 0) :: (.flush, 0) :: removals ks := rfl
    simp [this, run, e1, e2, e3]

omit [LinearOrder K] [DecidableEq V] in
theorem build_one {c : Cfg K V} {k : K} {n f : Nat} {t : Table K V}
    (h : build c.sizes (c.block 1) [(k, ⟨none, n⟩)] f = some t) :
    t.entries = [(k, ⟨none, n⟩)] ∧ t.size ≤ 8 + c.sizes.entry (k, ⟨none, n⟩) + (24 + c.sizes.key k) := by
  unfold build at h
  simp only [Builder.appendAll, List.foldl, Builder.append, Builder.new, addKey, addTime] at h
  by_cases hc : 0 + 1 = c.block 1 <;>
  · simp only [hc, if_true, if_false, Builder.flush, Option.some.injEq] at h
    subst h
    exact ⟨rfl, by simp only; omega⟩

omit [DecidableEq V] in
/-- Merging removals gives removals. -/
theorem merge_dead {rs : List (List (Ent K V))} (h : ∀ r ∈ rs, r = [] ∨ ∃ k n, r = [(k, (⟨none, n⟩ : Val V))]) :
    ∀ e ∈ mergeRuns rs, e.2.data = none := by
  intro e he
  obtain ⟨r, h1, h2⟩ := (mergeRuns_merged (runs := rs) (by
    intro r hr
    rcases h r hr with rfl | ⟨k, n, rfl⟩ <;> simp [SL.Sorted])).sub e he
  rcases h r h1 with rfl | ⟨k, n, rfl⟩
  · simp at h2
  · simp only [List.mem_singleton] at h2
    rw [h2]

namespace Leveled

omit [LinearOrder K] [DecidableEq V] in
theorem split_dead (z : Sizes K V) (bs mx : Nat) : ∀ (es : List (Ent K V)) (f : Nat), (∀ e ∈ es, e.2.data = none) →
    split z bs mx true es (Builder.new bs) f = some []
  | [], f, _ => rfl
  | e :: es, f, h => by
    have h1 := h e (by simp)
    simp only [split, h1, Bool.not_true, Option.isSome_none, Bool.or_self, Bool.false_eq_true, if_false]
    rw [if_neg (by simp [Builder.new])]
    exact split_dead z bs mx es f fun x hx => h x (by simp [hx])

/-- Only removals, none of them in a level. -/
def Dead (m : Meta K V) : Prop :=
  (m.levels = [] ∨ m.levels = [[]]) ∧ ∀ t ∈ m.l0, ∃ k n, t.entries = [(k, (⟨none, n⟩ : Val V))]

omit [DecidableEq V] in
theorem dud (c : Cfg K V) (p : Params) : Dud c (kind c p) Dead where
  push m t h ht := by
    obtain ⟨k, n, f, hb⟩ := ht
    refine ⟨⟨h.1, ?_⟩, ?_⟩
    · intro u hu
      rcases List.mem_append.1 hu with hu | hu
      · exact h.2 u hu
      · obtain rfl := List.mem_singleton.1 hu
        exact ⟨k, n, (build_one hb).1⟩
    · simp [tabsL]
      omega
  merge m j h hp f := by
    have hj : j = m := by
      simp only [plan] at hp
      split at hp <;> simp_all
    subst hj
    have hf : firstLevel j.levels = ([], []) := by rcases h.1 with h | h <;> rw [h] <;> rfl
    have h0 : compact0 c p j f = some [] := by
      unfold compact0
      rw [hf]
      exact split_dead _ _ _ _ _ (merge_dead (by
        intro r hr
        rcases List.mem_append.1 hr with hr | hr
        · obtain ⟨t, ht, rfl⟩ := List.mem_map.1 hr
          exact .inr (h.2 t ht)
        · exact .inl (List.mem_singleton.1 hr)))
    refine ⟨⟨[], [[]]⟩, ?_, ?_, ?_⟩
    · simp [compact, compactN, h0, hf, down, drain]
    · refine ⟨.inr rfl, fun t ht => h.2 t ?_⟩
      have ht' : t ∈ j.l0.filter _ := ht
      exact (List.mem_filter.1 ht').1
    · have e1 : replace j ⟨[], [[]]⟩ = ⟨j.l0, [[]]⟩ := by simp [replace, tabsL, tabsOf, endTime, optLt]
      show (replace j ⟨[], [[]]⟩).l0 ++ tabsL (replace j ⟨[], [[]]⟩).levels = j.l0 ++ tabsL j.levels
      rw [e1]
      rcases h.1 with h | h
      · rw [h]; rfl
      · rw [h]

end Leveled

namespace SizeTiered

/-- Only removals, in small tables. -/
def Dead (p : Params) (ts : List (Table K V)) : Prop :=
  ∀ t ∈ ts, t.size ≤ p.minSize ∧ ∃ k n, t.entries = [(k, (⟨none, n⟩ : Val V))]

omit [DecidableEq V] in
theorem dud (c : Cfg K V) (p : Params)
    (hz : ∀ k n, 8 + c.sizes.entry (k, ⟨none, n⟩) + (24 + c.sizes.key k) ≤ p.minSize) : Dud c (kind c p) (Dead p) where
  push m t h ht := by
    obtain ⟨k, n, f, hb⟩ := ht
    have h1 := build_one hb
    refine ⟨?_, by simp⟩
    intro u hu
    rcases List.mem_append.1 hu with hu | hu
    · exact h u hu
    · obtain rfl := List.mem_singleton.1 hu
      exact ⟨h1.2.trans (hz k n), k, n, h1.1⟩
  merge m j h hp f := by
    obtain ⟨sorted, a, b⟩ := j
    have hr := C46_range p m sorted a b hp
    have hs := C46_small p m (fun t ht => (h t ht).1) (by omega)
    have hj : (sorted, (a, b)) = (sortBySize m, (0, m.length)) := Option.some.inj (hp.symm.trans hs)
    rw [hj]
    have hl := (sortBySize_perm m).length_eq
    have e1 : ((sortBySize m).drop 0).take (m.length - 0) = sortBySize m := by
      rw [List.drop_zero, Nat.sub_zero, ← hl, List.take_length]
    have e2 : (sortBySize m).take 0 ++ (sortBySize m).drop m.length = [] := by simp [hl]
    have e3 : (mergeRuns ((sortBySize m).map (·.entries))).filter (fun e => !purge (sortBySize m) [] || e.2.data.isSome) = [] := by
      rw [List.filter_eq_nil_iff]
      intro e he
      have := merge_dead (by
        intro r hr
        obtain ⟨t, ht, rfl⟩ := List.mem_map.1 hr
        exact .inr (h t ((sortBySize_perm m).mem_iff.1 ht)).2) e he
      simp [this, purge]
    refine ⟨[], ?_, ?_⟩
    · show compact c (sortBySize m, (0, m.length)) f = some ([], [])
      unfold compact
      simp only [e1, e2, e3]
    · have e4 : replace m [] = m := by simp [replace, endTime, optLt]
      show Dead p (replace m []) ∧ replace m [] = m
      rw [e4]
      exact ⟨h, rfl⟩

end SizeTiered

/-! ### Compactions that make progress -/

omit [DecidableEq V] in
/-- A call that starts a compaction if one is due, and the call that waits for it. -/
theorem start_waits {x : Bool} {L : Laws kd x} {c : Cfg K V} {g : Ghost K V} {s b s2 : Store kd} {d : Nat}
    (hi : Inv L c s g) (hb : s.busy = false) (hj : s.job = none) (hl : s.locks = 0) (h : s.start = some b)
    (h2 : (work d b).settle = some s2) : ∃ a, s.tryReplace = some a ∧ Inv L c a g ∧ a.clock = s.clock ∧
      ((kd.plan a.cur = none ∧ s2.cur = a.cur) ∨
        ∃ j f C new, kd.plan a.cur = some j ∧ kd.compact j f = some (C, new) ∧ s2.cur = kd.replace a.cur C) := by
  obtain ⟨a, e, ia, -, -, an, aj, ab, ah, ac, al, -⟩ := inv_tryReplace hi
  refine ⟨a, e, ia, ac, ?_⟩
  unfold start at h
  rw [if_neg (by simp [hb, hl]), e] at h
  simp only at h
  rw [hj] at aj
  rw [hb] at ab
  cases hp : kd.plan a.cur with
  | none =>
    rw [hp] at h
    obtain rfl := Option.some.inj h
    refine .inl ⟨rfl, ?_⟩
    obtain ⟨b1, e1⟩ := work_quiet d (s := a) aj
    rw [e1] at h2
    unfold settle at h2
    split at h2
    · simp [join, work, deliver, aj, tryReplace, an] at h2
      rw [← h2]
    · rw [← Option.some.inj h2]
  | some j =>
    rw [hp] at h
    obtain rfl := Option.some.inj h
    refine .inr ⟨j, a.fresh, ?_⟩
    unfold settle at h2
    have hh := (work_frame d ({ a with job := some j, busy := true, handle := true } : Store kd)).2.2.2.1
    rw [if_pos hh] at h2
    unfold join at h2
    rw [Iter.work_add] at h2
    cases hc : kd.compact j a.fresh with
    | none =>
      exfalso
      have : ∀ n, work n ({ a with job := some j, busy := true, handle := true } : Store kd) =
          { a with job := some j, busy := true, handle := true } := by
        intro n
        induction n with
        | zero => rfl
        | succ n ih => simp only [work, deliver, hc]; exact ih
      rw [this] at h2
      simp at h2
    | some r =>
      obtain ⟨C, new⟩ := r
      refine ⟨C, new, rfl, rfl, ?_⟩
      have e2 : work (d + 2) ({ a with job := some j, busy := true, handle := true } : Store kd) = work (d + 1)
        (put { a with job := none, busy := true, handle := true, next := some C, fresh := a.fresh + new.length }
          { a.disk with dirs := a.disk.dirs ++ new }) := by
        simp only [work, deliver, hc]
      rw [e2] at h2
      obtain ⟨b1, e3⟩ := work_quiet (d + 1) (s := put { a with job := none, busy := true, handle := true, next := some C, fresh := a.fresh + new.length }
          { a.disk with dirs := a.disk.dirs ++ new }) rfl
      rw [e3] at h2
      simp only [put, Option.isSome_none, Bool.false_eq_true, if_false, tryReplace, Option.map_eq_some_iff] at h2
      obtain ⟨s3, h3, rfl⟩ := h2
      obtain ⟨tr, rfl, -⟩ := removeDirs_some h3
      rfl

/-- `insert` or `remove`, and `flush`. -/
theorem write_flush {x : Bool} {L : Laws kd x} (hL : ∀ l, L.good l) {c : Cfg K V} {g : Ghost K V} {s s1 s2 : Store kd}
    {d1 d2 : Nat} {r1 r2 : KvRes K V} {k : K} {data : Option V} {op : KvOp K V}
    (hop : (∃ v, op = .insert k v ∧ data = some v) ∨ (op = .remove k ∧ data = none))
    (hi : Inv L c s g) (hh : s.Hand) (hb : s.busy = false) (hj : s.job = none) (hl : s.locks = 0)
    (h1 : s.step c op d1 = some (s1, r1)) (h2 : s1.step c .flush d2 = some (s2, r2)) :
    ∃ (g' : Ghost K V) (b a : Store kd) (t : Table K V), Inv L c a g' ∧ b.cur = kd.push s.cur t ∧ b.next = s.next ∧ b.tryReplace = some a ∧
      g'.W k = some ⟨data, s.clock⟩ ∧ a.clock = s.clock + 1 ∧
      (look [] g'.W = fun y => if y = k then data else look s.mem g.W y) ∧
      ((kd.plan a.cur = none ∧ s2.cur = a.cur) ∨
        ∃ j f C new, kd.plan a.cur = some j ∧ kd.compact j f = some (C, new) ∧ s2.cur = kd.replace a.cur C) := by
  have hw : ∀ d {s : Store kd}, s.job = none → s.busy = false → work d s = s := by
    intro d s hj hb
    induction d with
    | zero => rfl
    | succ d ih =>
      have : s.deliver = s := by rw [deliver_none hj, ← hb]
      simp only [work, this, ih]
  obtain ⟨u, hu, hu1, hu2⟩ := usageAfter_some hi k ⟨data, s.clock⟩
  have hI := inv_noted hi hu1 hu2
  have hm : (s.noted k data u).mem ≠ [] := ins_ne _ _ _
  obtain ⟨t, p1, -, p2⟩ := inv_pushTable hI hm (hL _)
  have hW : addW (s.noted k data u).mem g.W k = some ⟨data, s.clock⟩ := by
    unfold addW
    simp [noted, SL.find_ins hi.memSorted]
  suffices hs : ∃ b d, tryCompact c (s.noted k data u) = some b ∧ (work d b).settle = some s2 by
    obtain ⟨b, d, e1, e2⟩ := hs
    unfold tryCompact at e1
    rw [p1] at e1
    obtain ⟨a, a1, a2, a3, a4⟩ := start_waits p2 hb hj hl e1 e2
    exact ⟨_, (s.noted k data u).pushTable t, a, t, a2, rfl, rfl, a1, hW, a3, by
      rw [look_addW]
      funext y
      exact look_ins hi.memSorted _ _ _ _, a4⟩
  have h1 : (work d1 s).write c k data = some s1 := by
    rcases hop with ⟨v, rfl, rfl⟩ | ⟨rfl, rfl⟩ <;>
    · simp only [step, Option.map_eq_some_iff, Prod.mk.injEq] at h1
      obtain ⟨_, h1, rfl, -⟩ := h1
      exact h1
  simp only [step, Option.map_eq_some_iff, Prod.mk.injEq] at h2
  obtain ⟨_, h2, rfl, -⟩ := h2
  rw [hw d1 hj hb, write_eq hu] at h1
  split at h1
  · rename_i hc
    refine ⟨_, d2, h1, ?_⟩
    have hm1 : (work d2 s1).mem = [] := by
      rw [(work_frame d2 s1).1]
      obtain ⟨b', q1, -, -, q2, -⟩ := inv_tryCompact hI hh hm (hL _)
      obtain rfl := Option.some.inj (q1.symm.trans h1)
      exact q2
    unfold flush at h2
    rw [hm1] at h2
    exact h2
  · obtain rfl := Option.some.inj h1
    rw [hw d2 (s := s.noted k data u) hj hb] at h2
    unfold flush at h2
    cases hmm : (s.noted k data u).mem with
    | nil => exact absurd hmm hm
    | cons e l =>
      rw [hmm] at h2
      simp only at h2
      cases ht : tryCompact c (s.noted k data u) with
      | none => rw [ht] at h2; simp at h2
      | some b => rw [ht] at h2; exact ⟨b, 0, rfl, h2⟩

omit [DecidableEq V] in
/-- The newest entry is an insertion and in the result: no merged table is newer than the result. -/
theorem newest_end {x : Bool} {L : Laws kd x} {c : Cfg K V} {g : Ghost K V} {a : Store kd} {k : K} {v : V} {n : Nat}
    (hi : Inv L c a g) (hW : g.W k = some ⟨some v, n⟩) (hn : a.clock = n + 1) {C : List (Table K V)} (hC : ∀ t ∈ C, t.Ok)
    (hk : (Ver (kd.tabs a.cur) k ⟨some v, n⟩ ∧ ∀ v', Ver (kd.tabs a.cur) k v' → v'.time < n ∨ v' = ⟨some v, n⟩) →
      Ver C k ⟨some v, n⟩) :
    ∀ t ∈ kd.tabs a.cur, ∃ u ∈ C, t.times.2 ≤ u.times.2 := by
  intro t ht
  obtain ⟨u, h1, h2⟩ := hk ⟨hi.sees.live k _ hW rfl, fun v' hv' => by
    obtain ⟨w, h3, h4⟩ := hi.sees.old k v' hv'
    rw [hW] at h3
    obtain rfl := Option.some.inj h3
    exact h4⟩
  have h3 := (hC u h1).timeHi _ h2
  have h4 := hi.curTime t ht
  simp only at h3
  exact ⟨u, h1, by omega⟩

/-- C93 with `LeveledStrategy`, partial: take any state in which no iterator is alive and the compaction thread does not
run.  After an insertion and `flush` at most `max_sstable_count` tables are outside the levels.  Missing: a removal in
place of the insertion, for which it is false (`C93_violated`). -/
theorem C93_leveled_partial (c : Cfg K V) (p : Leveled.Params) (ops : List (KvOp K V × Nat))
    {s s1 s2 : Store (Leveled.kind c p)} {rs : List (KvRes K V)} {r1 r2 : KvRes K V} {k : K} {v : V} {d1 d2 : Nat}
    (hr : run c (new (Leveled.kind c p)) ops = some (s, rs)) (hl : s.locks = 0) (hj : s.job = none) (hb : s.busy = false)
    (h1 : s.step c (.insert k v) d1 = some (s1, r1)) (h2 : s1.step c .flush d2 = some (s2, r2)) :
    s2.cur.l0.length ≤ p.maxCount := by
  have hL : ∀ l, (Leveled.laws c p).good l := fun _ => trivial
  obtain ⟨W, hi, hh, -⟩ := inv_reach (L := Leveled.laws c p) (goodRun_true hL ops (new _)) hr
  obtain ⟨g, b, a, t, ia, -, -, -, hW, hc, -, ⟨h3, h4⟩ | ⟨j, f, C, new, h3, h4, h5⟩⟩ :=
    write_flush hL (.inl ⟨v, rfl, rfl⟩) hi hh hb hj hl h1 h2
  · rw [h4]
    have h3 : (if p.maxCount < a.cur.l0.length then some a.cur else none) = none := h3
    by_contra hn
    rw [if_pos (by omega)] at h3
    simp at h3
  · have hj : j = a.cur := by
      have h3 : (if p.maxCount < a.cur.l0.length then some a.cur else none) = some j := h3
      split at h3
      · exact (Option.some.inj h3).symm
      · simp at h3
    subst hj
    have hinv : Leveled.Inv a.cur := ia.inv
    have hC : Leveled.Compacted p a.cur f C new := Leveled.compactN_spec hinv h4
    have he := newest_end ia hW hc (C := Leveled.tabsL C.levels) (Leveled.levelsOk_tab hC.ok) fun hv => by
      rcases hC.faith.keep k _ hv with h | h
      · exact h
      · exact absurd h.1 (by simp)
    rw [h5]
    have h6 : (Leveled.replace a.cur C).l0 = [] := by
      unfold Leveled.replace
      rw [hC.l0, List.nil_append, List.filter_eq_nil_iff]
      intro t ht
      rw [optLt_endTime]
      intro hn
      obtain ⟨u, h6, h7⟩ := he t (List.mem_append_left _ ht)
      have h8 := hn u h6
      obtain ⟨e, he1, he2⟩ := (hinv.ok t ht).timeLoMem
      have h9 := (hinv.ok t ht).timeHi _ he1
      omega
    show (Leveled.replace a.cur C).l0.length ≤ _
    rw [h6]
    simp

/-- C93 with `LeveledStrategy`, partial: what is left after any write and `flush`, in such a state: at most
`max_sstable_count` tables outside the levels, or none of the tables outside the levels holds a version of a key that is in
the map.  Missing: a bound on the number of such tables; there is none (`C93_violated`). -/
theorem C93_leveled_removed_partial (c : Cfg K V) (p : Leveled.Params) (ops : List (KvOp K V × Nat)) {op : KvOp K V}
    (hop : (∃ k v, op = .insert k v) ∨ ∃ k, op = .remove k)
    {s s1 s2 : Store (Leveled.kind c p)} {rs : List (KvRes K V)} {r1 r2 : KvRes K V} {d1 d2 : Nat}
    (hr : run c (new (Leveled.kind c p)) ops = some (s, rs)) (hl : s.locks = 0) (hj : s.job = none) (hb : s.busy = false)
    (h1 : s.step c op d1 = some (s1, r1)) (h2 : s1.step c .flush d2 = some (s2, r2)) :
    s2.cur.l0.length ≤ p.maxCount ∨
      ∀ t ∈ s2.cur.l0, ∀ e ∈ t.entries, contents (ops.map (·.1) ++ [op]) e.1 = none := by
  have hL : ∀ l, (Leveled.laws c p).good l := fun _ => trivial
  obtain ⟨W, hi, hh, hcon⟩ := inv_reach (L := Leveled.laws c p) (goodRun_true hL ops (new _)) hr
  obtain ⟨k, data, hop'⟩ : ∃ k data, (∃ v, op = .insert k v ∧ data = some v) ∨ (op = .remove k ∧ data = none) := by
    rcases hop with ⟨k, v, rfl⟩ | ⟨k, rfl⟩
    · exact ⟨k, some v, .inl ⟨v, rfl, rfl⟩⟩
    · exact ⟨k, none, .inr ⟨rfl, rfl⟩⟩
  obtain ⟨g, b, a, t, ia, -, -, -, hW, hc, hlook, ⟨h3, h4⟩ | ⟨j, f, C, new, h3, h4, h5⟩⟩ :=
    write_flush hL hop' hi hh hb hj hl h1 h2
  · rw [h4]
    have h3 : (if p.maxCount < a.cur.l0.length then some a.cur else none) = none := h3
    left
    by_contra hn
    rw [if_pos (by omega)] at h3
    simp at h3
  · right
    have hj : j = a.cur := by
      have h3 : (if p.maxCount < a.cur.l0.length then some a.cur else none) = some j := h3
      split at h3
      · exact (Option.some.inj h3).symm
      · simp at h3
    subst hj
    have hinv : Leveled.Inv a.cur := ia.inv
    have hC : Leveled.Compacted p a.cur f C new := Leveled.compactN_spec hinv h4
    have hcon' : look [] g.W = contents (ops.map (·.1) ++ [op]) := by
      have e : contents (ops.map (·.1) ++ [op]) = op.apply (contents (ops.map (·.1))) := contents_snoc _ _
      rw [hlook, e, ← hcon]
      rcases hop' with ⟨v, rfl, rfl⟩ | ⟨rfl, rfl⟩ <;> rfl
    rw [h5]
    intro t ht e he
    have ht : t ∈ (Leveled.replace a.cur C).l0 := ht
    unfold Leveled.replace at ht
    rw [hC.l0, List.nil_append, List.mem_filter, optLt_endTime] at ht
    rw [← hcon']
    obtain ⟨w, hw1, hw2⟩ := ia.sees.old e.1 e.2 ⟨t, List.mem_append_left _ ht.1, he⟩
    show (g.W e.1).bind (·.data) = none
    rw [hw1]
    by_contra hn
    have hd : w.data.isSome := by
      rw [Option.isSome_iff_ne_none]
      exact hn
    have hv := ia.sees.live e.1 w hw1 hd
    rcases hC.faith.keep e.1 w ⟨hv, fun v' hv' => by
      obtain ⟨w', h6, h7⟩ := ia.sees.old e.1 v' hv'
      rw [hw1] at h6
      obtain rfl := Option.some.inj h6
      exact h7⟩ with ⟨u, hu, hum⟩ | h
    · have h6 := ht.2 u hu
      have h7 := (Leveled.levelsOk_tab hC.ok u hu).timeHi _ hum
      have h8 := (hinv.ok t ht.1).timeLo _ he
      simp only at h7
      rcases hw2 with hw2 | hw2
      · omega
      · rw [hw2] at h8; omega
    · rw [h.1] at hd
      simp at hd

/-- C93 with `SizeTieredStrategy`, partial: take any state in which no iterator is alive and nothing is left to do for the
compaction thread or to be taken over from it.  After an insertion and `flush` no compaction is due, or the tables have
become fewer by `max_sstable_count`, not counting the one just written.  Missing: a removal in place of the insertion. -/
theorem C93_sizeTiered_partial (c : Cfg K V) (p : SizeTiered.Params) (ops : List (KvOp K V × Nat))
    {s s1 s2 : Store (SizeTiered.kind c p)} {rs : List (KvRes K V)} {r1 r2 : KvRes K V} {k : K} {v : V} {d1 d2 : Nat}
    (hr : run c (new (SizeTiered.kind c p)) ops = some (s, rs)) (hl : s.locks = 0) (hj : s.job = none)
    (hb : s.busy = false) (hx : s.next = none)
    (h1 : s.step c (.insert k v) d1 = some (s1, r1)) (h2 : s1.step c .flush d2 = some (s2, r2)) :
    SizeTiered.plan p s2.cur = none ∨ s2.cur.length + p.maxCount ≤ s.cur.length + 1 := by
  have hL : ∀ l, (SizeTiered.laws c p).good l := fun _ => trivial
  obtain ⟨W, hi, hh, -⟩ := inv_reach (L := SizeTiered.laws c p) (goodRun_true hL ops (new _)) hr
  obtain ⟨g, b, a, t, ia, hbc, hbn, hba, hW, hc, -, ⟨h3, h4⟩ | ⟨j, f, C, new, h3, h4, h5⟩⟩ :=
    write_flush hL (.inl ⟨v, rfl, rfl⟩) hi hh hb hj hl h1 h2
  · rw [h4]
    exact .inl h3
  · refine .inr ?_
    have hab : a.cur = s.cur ++ [t] := by
      unfold tryReplace at hba
      rw [hbn, hx] at hba
      obtain rfl := Option.some.inj hba
      exact hbc
    have hok : ∀ t ∈ a.cur, t.Ok := fun t ht => (SizeTiered.laws c p).inv_ok ia.inv t ht
    obtain ⟨C', new', q1, old, rest, q⟩ := SizeTiered.compact_spec (c := c) (f := f) hok h3
    obtain ⟨rfl, rfl⟩ := Prod.mk.inj (Option.some.inj (q1.symm.trans h4))
    have he := newest_end ia hW hc (C := C') (by
      intro u hu
      rw [q.eq] at hu
      rcases List.mem_append.1 hu with hu | hu
      · exact hok u (q.perm.mem_iff.2 (List.mem_append_right _ hu))
      · exact q.ok u hu) fun hv => by
      obtain ⟨⟨u, hu, hm⟩, hn⟩ := hv
      rw [q.eq]
      rcases List.mem_append.1 (q.perm.mem_iff.1 hu) with hu | hu
      · obtain ⟨w, hw, hwm⟩ := q.keep k _ ⟨u, hu, hm⟩ (fun v' hv' => hn v' (by
          obtain ⟨y, hy, hym⟩ := hv'
          exact ⟨y, q.perm.mem_iff.2 (List.mem_append_left _ hy), hym⟩)) (.inl rfl)
        exact ⟨w, List.mem_append_right _ hw, hwm⟩
      · exact ⟨u, List.mem_append_left _ hu, hm⟩
    have h6 : SizeTiered.replace a.cur C' = C' := by
      unfold SizeTiered.replace
      refine (congrArg (C' ++ ·) (List.filter_eq_nil_iff.2 ?_)).trans (List.append_nil _)
      intro t ht
      rw [optLt_endTime]
      intro hn
      obtain ⟨u, h6, h7⟩ := he t ht
      have h8 := hn u h6
      omega
    rw [h5]
    show (SizeTiered.replace a.cur C').length + _ ≤ _
    rw [h6]
    obtain ⟨sorted, x, y⟩ := j
    obtain ⟨r1, r2, r3, r4, -⟩ := SizeTiered.C46_range p _ sorted x y h3
    have h7 : C'.length ≤ (sorted.take x ++ sorted.drop y).length + 1 := by
      have h4 : SizeTiered.compact c (sorted, (x, y)) f = some (C', new') := h4
      unfold SizeTiered.compact at h4
      simp only at h4
      split at h4
      · rw [← (Prod.mk.inj (Option.some.inj h4)).1]
        omega
      · split at h4
        · simp at h4
        · rw [← (Prod.mk.inj (Option.some.inj h4)).1]
          simp only [List.length_append, List.length_singleton, le_refl]
    have h8 := r4.length_eq
    rw [hab] at h8 r2
    simp only [List.length_append, List.length_take, List.length_drop, List.length_singleton] at h7 h8 r2
    omega

/-- C93 is violated, with either strategy and whatever the parameters are: `remove` and `flush` in turn, in a new map, leave
one table for each removal, though the map is empty and no iterator is alive.  Every compaction merges all of them to
nothing, and none is dropped; a lookup in the leveled strategy asks all of them.  With the size-tiered strategy the tables
need to be small enough for the first bucket. -/
theorem C93_violated (c : Cfg K V) (p : SizeTiered.Params) (q : Leveled.Params) (ks : List K) :
    ((∀ k n, 8 + c.sizes.entry (k, ⟨none, n⟩) + (24 + c.sizes.key k) ≤ p.minSize) →
      ∃ s rs, run c (new (SizeTiered.kind c p)) (removals ks) = some (s, rs) ∧ s.locks = 0 ∧ s.job = none ∧
        s.busy = false ∧ s.next = none ∧ s.cur.length = ks.length) ∧
    ∃ s rs, run c (new (Leveled.kind c q)) (removals ks) = some (s, rs) ∧ s.locks = 0 ∧ s.job = none ∧ s.busy = false ∧
      s.next = none ∧ s.cur.l0.length = ks.length ∧ ∀ k, ks.length ≤ (Leveled.ask s.cur k).1.length := by
  constructor
  · intro hz
    obtain ⟨s, rs, e, h⟩ := removals_rest (SizeTiered.dud c p hz) ks (s := new _) (n := 0)
      ⟨rfl, rfl, rfl, rfl, rfl, rfl, rfl, rfl, by intro t ht; cases ht⟩
    exact ⟨s, rs, e, h.locks, h.job, h.busy, h.next, by have := h.tabs; simpa using this⟩
  · obtain ⟨s, rs, e, h⟩ := removals_rest (Leveled.dud c q) ks (s := new _) (n := 0)
      ⟨rfl, rfl, rfl, rfl, rfl, rfl, rfl, rfl, ⟨.inl rfl, by intro t ht; cases ht⟩⟩
    have h0 : s.cur.l0.length = ks.length := by
      have h1 : (s.cur.l0 ++ Leveled.tabsL s.cur.levels).length = 0 + ks.length := h.tabs
      have h2 : Leveled.tabsL s.cur.levels = [] := by rcases h.only.1 with h | h <;> rw [h] <;> rfl
      rw [h2] at h1
      simpa using h1
    refine ⟨s, rs, e, h.locks, h.job, h.busy, h.next, h0, fun k => ?_⟩
    unfold Leveled.ask
    cases SizeTiered.get s.cur.l0 k with
    | some v => simp [h0]
    | none => simp [h0]

/-- `C93_leveled_removed_partial` is met by a removal too: afterwards eleven tables are outside the levels. -/
example : (run Example.small (new (Leveled.kind Example.small ⟨2, 20, 1, 2⟩)) (removals [1, 2, 3, 4, 5, 6, 7, 8, 9, 9])).any
    (fun a => a.1.locks == 0 && a.1.job.isNone && !a.1.busy && (a.1.step Example.small (.remove 5) 0).any fun b =>
      (b.1.step Example.small .flush 0).any fun e => e.1.cur.l0.length == 11) = true := by
  decide +kernel

/-- Ten removals leave ten tables and the usual parameters are met, in a configuration with small entries. -/
example : (∀ k n, 8 + Example.small.sizes.entry (k, ⟨none, n⟩) + (24 + Example.small.sizes.key k) ≤
      SizeTiered.usual.minSize) ∧
    (run Example.small (new (Leveled.kind Example.small ⟨2, 20, 1, 2⟩)) (removals [1, 2, 3, 4, 5, 6, 7, 8, 9, 9])).map
      (fun a => (a.1.cur.l0.length, a.1.cur.levels.length)) = some (10, 1) := by
  refine ⟨?_, by decide +kernel⟩
  intro k n
  simp [Example.small, SizeTiered.usual, SizeTiered.params, Sizes.entry, Sizes.value]

/-- The hypotheses of `C93_leveled_partial` are met, by the same map; the next insertion makes the ten tables
disappear. -/
example : (run Example.small (new (Leveled.kind Example.small ⟨2, 20, 1, 2⟩)) (removals [1, 2, 3, 4, 5, 6, 7, 8, 9, 9])).any
    (fun a => a.1.locks == 0 && a.1.job.isNone && !a.1.busy && (a.1.step Example.small (.insert 5 5) 0).any fun b =>
      (b.1.step Example.small .flush 0).any fun e => e.1.cur.l0.length == 0 && e.1.cur.levels.length == 1) = true := by
  decide +kernel

/-- The hypotheses of `C93_sizeTiered_partial` are met: the next insertion leaves one table of eleven. -/
example : (run Example.small (new (SizeTiered.kind Example.small SizeTiered.usual)) (removals [1, 2, 3, 4, 5, 6, 7, 8, 9, 9])).any
    (fun a => a.1.locks == 0 && a.1.job.isNone && !a.1.busy && a.1.next.isNone && a.1.cur.length == 10 &&
      (a.1.step Example.small (.insert 5 5) 0).any fun b =>
        (b.1.step Example.small .flush 0).any fun e => e.1.cur.length == 1) = true := by
  decide +kernel

end Verif.Lsm
