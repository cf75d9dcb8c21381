/-
Histories of calls of the LSM map, and the answers of the calls, for any strategy that satisfies `Laws`.
-/
import Verif.Lsm.StoreStep

namespace Verif.Lsm

open Verif Verif.Spec

variable {K V : Type} [LinearOrder K]

namespace Store

variable {kd : Kind K V} {x : Bool}

/-! ### Reading the tables -/

theorem sees_get {L : Laws kd x} {m : kd.M} {W : K → Option (Val V)} (hi : L.inv m) (h : Sees x (kd.tabs m) W) (k : K) :
    (∀ w, W k = some w → w.data.isSome → kd.get m k = some w) ∧ (W k = none → kd.get m k = none) ∧
    (x = true → (kd.get m k).bind (·.data) = (W k).bind (·.data)) := by
  have key : ∀ w, W k = some w → Ver (kd.tabs m) k w → kd.get m k = some w := by
    intro w hw hv
    cases hg : kd.get m k with
    | none => exact absurd hv (L.get_none hi hg w)
    | some v =>
      obtain ⟨h1, h2⟩ := L.get_some hi hg
      obtain ⟨w', hw', h3⟩ := h.old k v h1
      rw [hw] at hw'
      simp only [Option.some.injEq] at hw'
      subst hw'
      rcases h3 with h3 | h3
      · have := h2 w hv; omega
      · rw [h3]
  refine ⟨fun w hw hd => key w hw (h.live k w hw hd), ?_, ?_⟩
  · intro hw
    cases hg : kd.get m k with
    | none => rfl
    | some v =>
      obtain ⟨w, hw', _⟩ := h.old k v (L.get_some hi hg).1
      rw [hw] at hw'; simp at hw'
  · intro hx
    cases hw : W k with
    | none =>
      cases hg : kd.get m k with
      | none => rfl
      | some v =>
        obtain ⟨w, hw', _⟩ := h.old k v (L.get_some hi hg).1
        rw [hw] at hw'; simp at hw'
    | some w =>
      cases hd : w.data with
      | some y => rw [key w hw (h.live k w hw (by simp [hd]))]
      | none =>
        rcases h.dead hx k w hw hd with h1 | h1
        · rw [key w hw h1]
        · cases hg : kd.get m k with
          | none => simp [hd]
          | some v => exact absurd (L.get_some hi hg).1 (h1 v)

omit [LinearOrder K] in
theorem mem_live {l : List (Ent K V)} {k : K} {y : V} : (k, y) ∈ live l ↔ ∃ v, (k, v) ∈ l ∧ v.data = some y := by
  unfold live
  simp only [List.mem_filterMap, Option.map_eq_some_iff, Prod.mk.injEq]
  constructor
  · rintro ⟨⟨k', v⟩, h1, y', h2, rfl, rfl⟩; exact ⟨v, h1, h2⟩
  · rintro ⟨v, h1, h2⟩; exact ⟨(k, v), h1, y, h2, rfl, rfl⟩

theorem live_sorted {l : List (Ent K V)} (h : SL.Sorted l) : SL.Sorted (live l) := by
  unfold live SL.Sorted
  refine List.Pairwise.filterMap _ ?_ h
  intro a b hab a' ha' b' hb'
  simp only [Option.map_eq_some_iff] at ha' hb'
  obtain ⟨_, _, rfl⟩ := ha'
  obtain ⟨_, _, rfl⟩ := hb'
  exact hab

/-- The pairs that `iter` yields are the values that `get` finds. -/
theorem mem_items {L : Laws kd x} {s : Store kd} (hi : L.inv s.cur) (hs : ∀ t ∈ kd.tabs s.cur, t.Ok)
    (W : K → Option (Val V)) (h : Sees x (kd.tabs s.cur) W) :
    SL.Sorted s.items ∧ (∀ k y, (W k).bind (·.data) = some y → (k, y) ∈ s.items) ∧
    (∀ k y, (k, y) ∈ s.items → (∃ v, Ver (kd.tabs s.cur) k v ∧ v.data = some y) ∧ (∃ w, W k = some w) ∧
      ∀ w, W k = some w → w.data.isSome → w.data = some y) ∧
    (x = true → ∀ k y, (k, y) ∈ s.items → (W k).bind (·.data) = some y) := by
  have hm := mergeRuns_merged (L.runs_sorted hi)
  have key : ∀ k y, (k, y) ∈ s.items → ∃ v, Ver (kd.tabs s.cur) k v ∧ v.data = some y ∧ ∃ w, W k = some w ∧
      (Ver (kd.tabs s.cur) k w → v = w) := by
    intro k y hky
    obtain ⟨v, h1, h2⟩ := mem_live.1 hky
    have hv := (L.runs_in hi _).1 (hm.sub _ h1)
    obtain ⟨w, hw, h3⟩ := h.old k v hv
    refine ⟨v, hv, h2, w, hw, fun hv' => ?_⟩
    rcases h3 with h3 | h3
    · have := hm.newest _ h1 (k, w) ((L.runs_in hi _).2 hv') rfl
      simp only at this; omega
    · exact h3
  have hin : ∀ k w, W k = some w → Ver (kd.tabs s.cur) k w → (k, w) ∈ mergeRuns (kd.runs s.cur) := by
    intro k w hw hv
    obtain ⟨⟨k', v⟩, h1, h2⟩ := hm.all (k, w) ((L.runs_in hi _).2 hv)
    simp only at h2
    subst h2
    have hv' := (L.runs_in hi _).1 (hm.sub _ h1)
    obtain ⟨w', hw', h3⟩ := h.old k' v hv'
    rw [hw] at hw'
    simp only [Option.some.injEq] at hw'
    subst hw'
    rcases h3 with h3 | h3
    · have := hm.newest _ h1 (k', w) ((L.runs_in hi _).2 hv) rfl
      simp only at this; omega
    · rw [← h3]; exact h1
  refine ⟨live_sorted hm.sorted, ?_, ?_, ?_⟩
  · intro k y hw
    simp only [Option.bind_eq_some_iff] at hw
    obtain ⟨w, hw, hd⟩ := hw
    exact mem_live.2 ⟨w, hin k w hw (h.live k w hw (by simp [hd])), hd⟩
  · intro k y hky
    obtain ⟨v, h1, h2, w, hw, h3⟩ := key k y hky
    refine ⟨⟨v, h1, h2⟩, ⟨w, hw⟩, ?_⟩
    intro w' hw' hd
    rw [hw] at hw'
    simp only [Option.some.injEq] at hw'
    subst hw'
    rw [← h3 (h.live k w hw hd)]; exact h2
  · intro hx k y hky
    obtain ⟨v, h1, h2, w, hw, h3⟩ := key k y hky
    rw [hw]
    simp only [Option.bind_some]
    cases hd : w.data with
    | some y' =>
      rw [h3 (h.live k w hw (by simp [hd]))] at h2
      rw [hd] at h2; exact h2
    | none =>
      rcases h.dead hx k w hw hd with h4 | h4
      · rw [h3 h4, hd] at h2; simp at h2
      · exact absurd h1 (h4 v)

/-- The keys of the entries that are not tombstones. -/
def valueKeys (T : List (Table K V)) : List K := T.flatMap fun t => (live t.entries).map (·.1)

omit [LinearOrder K] in
theorem live_length (l : List (Ent K V)) : (live l).length + l.countP (fun e => e.2.data.isNone) = l.length := by
  induction l with
  | nil => rfl
  | cons e l ih =>
    unfold live at ih ⊢
    cases hd : e.2.data <;> simp [hd, List.filterMap_cons] <;> omega

theorem hint_eq {T : List (Table K V)} (h : ∀ t ∈ T, t.Ok) {n : Nat} (hn : hint T = some n) :
    n = (valueKeys T).length := by
  induction T generalizing n with
  | nil => simp [hint] at hn; simp [valueKeys, ← hn]
  | cons t T ih =>
    have ht := h t (by simp)
    simp only [hint] at hn
    split at hn
    · simp only [Option.map_eq_some_iff] at hn
      obtain ⟨n', hn', rfl⟩ := hn
      have := ih (fun u hu => h u (List.mem_cons_of_mem _ hu)) hn'
      have hl := live_length t.entries
      have h1 := ht.tombs
      have h2 := ht.count
      simp only [valueKeys, List.flatMap_cons, List.length_append, List.length_map] at this ⊢
      omega
    · simp at hn

variable [DecidableEq V]

/-! ### Histories -/

/-- All tables that the calls write are good. -/
def GoodRun (good : List (Ent K V) → Prop) (c : Cfg K V) : Store kd → List (KvOp K V × Nat) → Prop
  | _, [] => True
  | s, (op, d) :: ops => (∀ l, s.spill c op = some l → good l) ∧
      ∀ s' r, s.step c op d = some (s', r) → GoodRun good c s' ops

theorem goodRun_true {good : List (Ent K V) → Prop} (hg : ∀ l, good l) {c : Cfg K V} :
    ∀ (ops : List (KvOp K V × Nat)) (s : Store kd), GoodRun good c s ops
  | [], _ => trivial
  | (_, _) :: ops, _ => ⟨fun l _ => hg l, fun s' _ _ => goodRun_true hg ops s'⟩

theorem run_cons {c : Cfg K V} {s s' : Store kd} {op : KvOp K V} {d : Nat} {ops : List (KvOp K V × Nat)}
    {rs : List (KvRes K V)} (h : run c s ((op, d) :: ops) = some (s', rs)) :
    ∃ s1 r rs', s.step c op d = some (s1, r) ∧ run c s1 ops = some (s', rs') ∧ rs = r :: rs' := by
  simp only [run] at h
  cases hs : s.step c op d with
  | none => rw [hs] at h; simp at h
  | some p =>
    obtain ⟨s1, r⟩ := p
    rw [hs] at h
    simp only [Option.map_eq_some_iff, Prod.mk.injEq] at h
    obtain ⟨⟨s2, rs'⟩, h1, rfl, rfl⟩ := h
    exact ⟨s1, r, rs', rfl, h1, rfl⟩

/-- A history preserves the invariant, and its effect on the contents is the specified one. -/
theorem inv_run {L : Laws kd x} {c : Cfg K V} : ∀ (ops : List (KvOp K V × Nat)) {s s' : Store kd} {g : Ghost K V}
    {rs : List (KvRes K V)}, Inv L c s g → s.Hand → GoodRun L.good c s ops → run c s ops = some (s', rs) →
    ∃ W', Inv L c s' ⟨W', fun a y => g.ins a y ∨ .insert a y ∈ ops.map (·.1), g.cleared ∨ .clear ∈ ops.map (·.1)⟩ ∧
      s'.Hand ∧ look s'.mem W' = (ops.map (·.1)).foldl KvOp.apply (look s.mem g.W)
  | [], s, s', g, rs, h, hh, _, hr => by
    simp only [run, Option.some.injEq, Prod.mk.injEq] at hr
    obtain ⟨rfl, rfl⟩ := hr
    exact ⟨g.W, h.mono rfl (fun _ _ h => .inl h) (fun h => .inl h), hh, rfl⟩
  | (op, d) :: ops, s, s', g, rs, h, hh, hg, hr => by
    obtain ⟨s1, r, rs', h1, h2, rfl⟩ := run_cons hr
    obtain ⟨W1, k1, k2, k3, k4, _⟩ := inv_step h hh hg.1 h1
    obtain ⟨W', j1, j2, j3⟩ := inv_run ops k1 k2 (hg.2 _ _ h1) h2
    refine ⟨W', j1.mono rfl ?_ ?_, j2, ?_⟩
    · rintro a y ((h | h) | h)
      · exact .inl h
      · right; rw [← h]; simp
      · right; simp only [List.map_cons, List.mem_cons]; exact .inr h
    · rintro ((h | h) | h)
      · exact .inl h
      · right; rw [← h]; simp
      · right; simp only [List.map_cons, List.mem_cons]; exact .inr h
    · rw [j3]
      simp only [List.map_cons, List.foldl_cons]
      rw [← k3]; rfl

theorem hand_new : (new kd).Hand := fun _ => ⟨rfl, rfl⟩

/-- The ghost of a history: what was inserted, and whether `clear` was called. -/
def ghost (ops : List (KvOp K V)) (W : K → Option (Val V)) : Ghost K V :=
  ⟨W, fun a y => .insert a y ∈ ops, .clear ∈ ops⟩

theorem inv_reach {L : Laws kd x} {c : Cfg K V} {ops : List (KvOp K V × Nat)} {s : Store kd} {rs : List (KvRes K V)}
    (hg : GoodRun L.good c (new kd) ops) (hr : run c (new kd) ops = some (s, rs)) :
    ∃ W, Inv L c s (ghost (ops.map (·.1)) W) ∧ s.Hand ∧ look s.mem W = contents (ops.map (·.1)) := by
  obtain ⟨W, h1, h2, h3⟩ := inv_run ops (inv_new L c) hand_new hg hr
  refine ⟨W, h1.mono rfl ?_ ?_, h2, h3⟩
  · rintro a y (h | h)
    · exact absurd h (by simp)
    · exact h
  · rintro (h | h)
    · exact absurd h (by simp)
    · exact h

omit [DecidableEq V] in
theorem contents_snoc (ops : List (KvOp K V)) (op : KvOp K V) : contents (ops ++ [op]) = op.apply (contents ops) := by
  simp [contents]

/-- A history and one more call. -/
theorem inv_reach_step {L : Laws kd x} {c : Cfg K V} {ops : List (KvOp K V × Nat)} {s s' : Store kd}
    {rs : List (KvRes K V)} {op : KvOp K V} {d : Nat} {r : KvRes K V}
    (hg : GoodRun L.good c (new kd) ops) (hr : run c (new kd) ops = some (s, rs))
    (hg' : ∀ l, s.spill c op = some l → L.good l) (hs : s.step c op d = some (s', r)) :
    ∃ W', Inv L c s' (ghost (ops.map (·.1) ++ [op]) W') ∧ s'.Hand ∧
      look s'.mem W' = op.apply (contents (ops.map (·.1))) ∧ Answer s' op r := by
  obtain ⟨W, h1, h2, h3⟩ := inv_reach hg hr
  obtain ⟨W', k1, k2, k3, k4, _⟩ := inv_step h1 h2 hg' hs
  refine ⟨W', k1.mono rfl ?_ ?_, k2, ?_, k4⟩
  · rintro a y (h | h)
    · exact List.mem_append_left _ h
    · rw [h]; exact List.mem_append_right _ (by simp)
  · rintro (h | h)
    · exact List.mem_append_left _ h
    · rw [h]; exact List.mem_append_right _ (by simp)
  · rw [← h3, k3]; rfl

/-! ### What has reached the tables -/

/-- The state after the calls `pre`: the last writes that reached tables are those of the first `n` calls, and the
calls that settle everything are among these. -/
structure Hist (L : Laws kd x) (c : Cfg K V) (s : Store kd) (pre : List (KvOp K V)) (W : K → Option (Val V))
    (n : Nat) : Prop where
  inv : Inv L c s (ghost pre W)
  hand : s.Hand
  look : look s.mem W = contents pre
  le : n ≤ pre.length
  base : Lsm.look [] W = contents (pre.take n)
  settled : ∀ (i : Nat) (op : KvOp K V), pre[i]? = some op → op.Settles → i < n

theorem hist_new (L : Laws kd x) (c : Cfg K V) : Hist L c (new kd) [] (fun _ => none) 0 :=
  ⟨(inv_new L c).mono rfl (fun _ _ h => absurd h (by simp)) (fun h => absurd h (by simp)), hand_new, rfl, le_rfl, rfl,
    fun i op h => by simp at h⟩

theorem hist_post {L : Laws kd x} {c : Cfg K V} {s s' : Store kd} {pre : List (KvOp K V)} {W W' : K → Option (Val V)}
    {n : Nat} {op : KvOp K V} (h : Hist L c s pre W n) (k1 : Inv L c s' (Ghost.after (ghost pre W) op W')) (k2 : s'.Hand)
    (k3 : Lsm.look s'.mem W' = op.apply (Lsm.look s.mem W)) (k6 : s'.mem = [] ∨ (W' = W ∧ ¬ op.Settles)) :
    ∃ n', Hist L c s' (pre ++ [op]) W' n' := by
  have hinv : Inv L c s' (ghost (pre ++ [op]) W') := by
    refine k1.mono rfl ?_ ?_
    · rintro a y (h | h)
      · exact List.mem_append_left _ h
      · rw [h]; exact List.mem_append_right _ (by simp)
    · rintro (h | h)
      · exact List.mem_append_left _ h
      · rw [h]; exact List.mem_append_right _ (by simp)
  have hlook : Lsm.look s'.mem W' = contents (pre ++ [op]) := by
    rw [contents_snoc, ← h.look]; exact k3
  rcases k6 with k6 | ⟨hW, k6⟩
  · refine ⟨(pre ++ [op]).length, ⟨hinv, k2, hlook, le_rfl, ?_, ?_⟩⟩
    · rw [List.take_length, ← hlook, k6]
    · intro i o hi _
      exact (List.getElem?_eq_some_iff.1 hi).1
  · subst hW
    refine ⟨n, ⟨hinv, k2, hlook, ?_, ?_, ?_⟩⟩
    · have := h.le; simp only [List.length_append]; omega
    · rw [List.take_append_of_le_length h.le]; exact h.base
    · intro i o hi ho
      by_cases hlt : i < pre.length
      · rw [List.getElem?_append_left hlt] at hi; exact h.settled i o hi ho
      · rw [List.getElem?_append_right (by omega)] at hi
        rw [List.getElem?_singleton] at hi
        split at hi
        · simp only [Option.some.injEq] at hi; subst hi; exact absurd ho k6
        · simp at hi

theorem hist_step {L : Laws kd x} {c : Cfg K V} {s s' : Store kd} {pre : List (KvOp K V)} {W : K → Option (Val V)}
    {n : Nat} {op : KvOp K V} {d : Nat} {r : KvRes K V} (h : Hist L c s pre W n)
    (hg : ∀ l, s.spill c op = some l → L.good l) (hs : s.step c op d = some (s', r)) :
    ∃ W' n', Hist L c s' (pre ++ [op]) W' n' ∧ Answer s' op r := by
  obtain ⟨W', k1, k2, k3, k4, _, k6⟩ := inv_step h.inv h.hand hg hs
  obtain ⟨n', hn⟩ := hist_post h k1 k2 k3 k6
  exact ⟨W', n', hn, k4⟩

theorem hist_run {L : Laws kd x} {c : Cfg K V} : ∀ (ops : List (KvOp K V × Nat)) {s s' : Store kd}
    {pre : List (KvOp K V)} {W : K → Option (Val V)} {n : Nat} {rs : List (KvRes K V)}, Hist L c s pre W n →
    GoodRun L.good c s ops → run c s ops = some (s', rs) → ∃ W' n', Hist L c s' (pre ++ ops.map (·.1)) W' n'
  | [], s, s', pre, W, n, rs, h, _, hr => by
    simp only [run, Option.some.injEq, Prod.mk.injEq] at hr
    obtain ⟨rfl, rfl⟩ := hr
    exact ⟨W, n, by simpa using h⟩
  | (op, d) :: ops, s, s', pre, W, n, rs, h, hg, hr => by
    obtain ⟨s1, r, rs', h1, h2, rfl⟩ := run_cons hr
    obtain ⟨W1, n1, k1, _⟩ := hist_step h hg.1 h1
    obtain ⟨W', n', j1⟩ := hist_run ops k1 (hg.2 _ _ h1) h2
    exact ⟨W', n', by simpa using j1⟩

/-- Every history. -/
theorem hist_reach {L : Laws kd x} {c : Cfg K V} {ops : List (KvOp K V × Nat)} {s : Store kd} {rs : List (KvRes K V)}
    (hg : GoodRun L.good c (new kd) ops) (hr : run c (new kd) ops = some (s, rs)) :
    ∃ W n, Hist L c s (ops.map (·.1)) W n := by
  obtain ⟨W, n, h⟩ := hist_run ops (hist_new L c) hg hr
  exact ⟨W, n, by simpa using h⟩

/-! ### The answers -/

omit [DecidableEq V] in
theorem apply_reads {op : KvOp K V} (h : op.Reads) (m : K → Option V) : op.apply m = m := by
  cases op <;> first | rfl | exact absurd h (by simp [KvOp.Reads])

omit [DecidableEq V] in
/-- With an exact strategy the reading calls answer as specified. -/
theorem answer_exact {L : Laws kd true} {c : Cfg K V} {s : Store kd} {g : Ghost K V} {op : KvOp K V} {r : KvRes K V}
    (h : Inv L c s g) (hop : op.Reads) (ha : Answer s op r) : op.Answer (look s.mem g.W) r := by
  have hget : ∀ k, s.found k = look s.mem g.W k := by
    intro k
    unfold found look
    cases SL.find k s.mem with
    | some e => rfl
    | none => exact (sees_get h.inv h.sees k).2.2 rfl
  obtain ⟨i1, i2, i3, i4⟩ := mem_items h.inv (L.inv_ok h.inv) g.W h.sees
  have hlist : s.mem = [] → Lists (look s.mem g.W) s.items := by
    intro hm
    refine ⟨i1, fun k v => ?_⟩
    rw [hm, look_nil]
    exact ⟨i4 rfl k v, i2 k v⟩
  cases op with
  | get k => simp only [Answer] at ha; rw [hget] at ha; exact ha
  | containsKey k => simp only [Answer] at ha; rw [hget] at ha; exact ha
  | len => exact ⟨s.items, hlist ha.1, ha.2⟩
  | iter => exact ⟨s.items, hlist ha.1, ha.2⟩
  | hold => exact ⟨s.items, hlist ha.1, ha.2⟩
  | isEmpty =>
    have hl := hlist ha.1
    refine ⟨_, ha.2, ?_⟩
    rw [beq_iff_eq, List.length_eq_zero_iff]
    constructor
    · intro he k
      cases hk : look s.mem g.W k with
      | none => rfl
      | some y => have := (hl.2 k y).2 hk; rw [he] at this; simp at this
    · intro hk
      cases hi : s.items with
      | nil => rfl
      | cons a l =>
        have := (hl.2 a.1 a.2).1 (by rw [hi]; simp)
        rw [hk] at this; simp at this
  | _ => exact absurd hop (by simp [KvOp.Reads])

omit [DecidableEq V] in
/-- `len_hint` never undercounts, whatever the strategy. -/
theorem answer_lenHint {L : Laws kd x} {c : Cfg K V} {s : Store kd} {g : Ghost K V} {r : KvRes K V}
    (h : Inv L c s g) (ha : Answer s .lenHint r) : KvOp.lenHint.Answer (look s.mem g.W) r := by
  obtain ⟨n, hn, hr⟩ := ha
  refine ⟨_, hr, fun ks hnd hks => ?_⟩
  have hn' := hint_eq (L.inv_ok h.inv) hn
  have hsub : ks ⊆ s.mem.map (·.1) ++ valueKeys (kd.tabs s.cur) := by
    intro k hk
    have := hks k hk
    unfold look at this
    cases hf : SL.find k s.mem with
    | some e =>
      apply List.mem_append_left
      exact List.mem_map.2 ⟨e, SL.find_some_mem hf, SL.find_some_key hf⟩
    | none =>
      rw [hf] at this
      simp only at this
      apply List.mem_append_right
      cases hw : g.W k with
      | none => rw [hw] at this; simp at this
      | some w =>
        rw [hw] at this
        simp only [Option.bind_some] at this
        obtain ⟨t, ht, hv⟩ := h.sees.live k w hw this
        obtain ⟨y, hy⟩ := Option.isSome_iff_exists.1 this
        exact List.mem_flatMap.2 ⟨t, ht, List.mem_map.2 ⟨(k, y), mem_live.2 ⟨w, hv, hy⟩, rfl⟩⟩
  have := (hnd.subperm hsub).length_le
  simp only [List.length_append, List.length_map] at this
  omega

omit [DecidableEq V] in
theorem optMin_least {P Q : K → Prop} {a b : Option K} (ha : IsLeastKey P a) (hb : IsLeastKey Q b) :
    IsLeastKey (fun k => P k ∨ Q k) (optMin a b) := by
  cases a with
  | none =>
    cases b with
    | none => intro k hk; exact hk.elim (ha k) (hb k)
    | some b => exact ⟨.inr hb.1, fun k hk => hk.elim (fun h => absurd h (ha k)) (hb.2 k)⟩
  | some a =>
    cases b with
    | none => exact ⟨.inl ha.1, fun k hk => hk.elim (ha.2 k) (fun h => absurd h (hb k))⟩
    | some b =>
      refine ⟨?_, fun k hk => hk.elim (fun h => (min_le_left _ _).trans (ha.2 k h))
        (fun h => (min_le_right _ _).trans (hb.2 k h))⟩
      rcases min_choice a b with h | h
      · left; rw [h]; exact ha.1
      · right; rw [h]; exact hb.1

omit [DecidableEq V] in
theorem optMax_greatest {P Q : K → Prop} {a b : Option K} (ha : IsGreatestKey P a) (hb : IsGreatestKey Q b) :
    IsGreatestKey (fun k => P k ∨ Q k) (optMax a b) := by
  cases a with
  | none =>
    cases b with
    | none => intro k hk; exact hk.elim (ha k) (hb k)
    | some b => exact ⟨.inr hb.1, fun k hk => hk.elim (fun h => absurd h (ha k)) (hb.2 k)⟩
  | some a =>
    cases b with
    | none => exact ⟨.inl ha.1, fun k hk => hk.elim (ha.2 k) (fun h => absurd h (hb k))⟩
    | some b =>
      refine ⟨?_, fun k hk => hk.elim (fun h => (ha.2 k h).trans (le_max_left _ _))
        (fun h => (hb.2 k h).trans (le_max_right _ _))⟩
      rcases max_choice a b with h | h
      · left; rw [h]; exact ha.1
      · right; rw [h]; exact hb.1

omit [DecidableEq V] in
theorem isLeast_congr {P Q : K → Prop} (h : ∀ k, P k ↔ Q k) {o : Option K} (hl : IsLeastKey P o) : IsLeastKey Q o := by
  cases o with
  | none => exact fun k hk => hl k ((h k).2 hk)
  | some a => exact ⟨(h a).1 hl.1, fun k hk => hl.2 k ((h k).2 hk)⟩

omit [DecidableEq V] in
theorem isGreatest_congr {P Q : K → Prop} (h : ∀ k, P k ↔ Q k) {o : Option K} (hl : IsGreatestKey P o) :
    IsGreatestKey Q o := by
  cases o with
  | none => exact fun k hk => hl k ((h k).2 hk)
  | some a => exact ⟨(h a).1 hl.1, fun k hk => hl.2 k ((h k).2 hk)⟩

omit [DecidableEq V] in
theorem has_list {l : List (K × V)} {k : K} : (SL.abs l).Has k ↔ ∃ y, (k, y) ∈ l := by
  rw [SL.has_abs]
  constructor
  · rintro ⟨⟨k', y⟩, h, rfl⟩; exact ⟨y, h⟩
  · rintro ⟨y, h⟩; exact ⟨(k, y), h, rfl⟩

omit [DecidableEq V] in
/-- What `min` and `max` return: the least (greatest) key that is live in memory or live in the tables. -/
theorem answer_minmax {L : Laws kd true} {c : Cfg K V} {s : Store kd} {g : Ghost K V} {r : KvRes K V}
    (h : Inv L c s g) :
    (Answer s .min r → ∃ o, r = .key o ∧ IsLeastKey (fun k => (∃ e ∈ s.mem, e.1 = k ∧ e.2.data.isSome = true) ∨
      ((g.W k).bind (·.data)).isSome = true) o) ∧
    (Answer s .max r → ∃ o, r = .key o ∧ IsGreatestKey (fun k => (∃ e ∈ s.mem, e.1 = k ∧ e.2.data.isSome = true) ∨
      ((g.W k).bind (·.data)).isSome = true) o) := by
  obtain ⟨i1, i2, i3, i4⟩ := mem_items h.inv (L.inv_ok h.inv) g.W h.sees
  have e1 : ∀ k, (SL.abs (live s.mem)).Has k ↔ ∃ e ∈ s.mem, e.1 = k ∧ e.2.data.isSome = true := by
    intro k
    rw [has_list]
    constructor
    · rintro ⟨y, hy⟩
      obtain ⟨v, h1, h2⟩ := mem_live.1 hy
      exact ⟨(k, v), h1, rfl, by simp [h2]⟩
    · rintro ⟨⟨k', v⟩, h1, rfl, h2⟩
      obtain ⟨y, hy⟩ := Option.isSome_iff_exists.1 h2
      exact ⟨y, mem_live.2 ⟨v, h1, hy⟩⟩
  have e2 : ∀ k, (SL.abs s.items).Has k ↔ ((g.W k).bind (·.data)).isSome = true := by
    intro k
    rw [has_list, Option.isSome_iff_exists]
    exact ⟨fun ⟨y, hy⟩ => ⟨y, i4 rfl k y hy⟩, fun ⟨y, hy⟩ => ⟨y, i2 k y hy⟩⟩
  have hl := live_sorted h.memSorted
  refine ⟨fun ha => ⟨_, ha, ?_⟩, fun ha => ⟨_, ha, ?_⟩⟩
  · exact isLeast_congr (fun k => or_congr (e1 k) (e2 k)) (optMin_least (SL.min_spec hl) (SL.min_spec i1))
  · exact isGreatest_congr (fun k => or_congr (e1 k) (e2 k)) (optMax_greatest (SL.max_spec hl) (SL.max_spec i1))

/-- The reading calls after a history. -/
theorem reads_exact {L : Laws kd true} {c : Cfg K V} {ops : List (KvOp K V × Nat)} {s s' : Store kd}
    {rs : List (KvRes K V)} {op : KvOp K V} {d : Nat} {r : KvRes K V}
    (hg : GoodRun L.good c (new kd) ops) (hr : run c (new kd) ops = some (s, rs))
    (hg' : ∀ l, s.spill c op = some l → L.good l) (hop : op.Reads) (hs : s.step c op d = some (s', r)) :
    op.Answer (contents (ops.map (·.1))) r := by
  obtain ⟨W', k1, k2, k3, k4⟩ := inv_reach_step hg hr hg' hs
  have h : op.Answer (look s'.mem W') r := answer_exact k1 hop k4
  rwa [k3, apply_reads hop] at h

/-- Lookups return even if a compaction never ends. -/
theorem get_returns {L : Laws kd x} {c : Cfg K V} {s : Store kd} {g : Ghost K V} (h : Inv L c s g) (k : K) (d : Nat) :
    (∃ s' o, s.step c (.get k) d = some (s', .val o)) ∧ ∃ s' b, s.step c (.containsKey k) d = some (s', .bool b) := by
  obtain ⟨s2, e2, _⟩ := inv_tryReplace (inv_work d h)
  constructor
  all_goals
    simp only [step]
    cases SL.find k (work d s).mem with
    | some e => exact ⟨_, _, rfl⟩
    | none => simp only [e2]; exact ⟨_, _, rfl⟩

/-- What a lookup answers with any strategy: the latest value if the key is live; and otherwise `None` or some
value that was once inserted for the key. -/
theorem get_weak {L : Laws kd x} {c : Cfg K V} {s : Store kd} {g : Ghost K V} (h : Inv L c s g) (k : K) :
    (∀ v, look s.mem g.W k = some v → s.found k = some v) ∧ (∀ v, s.found k = some v → g.ins k v) := by
  unfold found look
  cases hf : SL.find k s.mem with
  | some e =>
    refine ⟨fun v hv => hv, fun v hv => ?_⟩
    have := h.memVals e (SL.find_some_mem hf) v hv
    rwa [SL.find_some_key hf] at this
  | none =>
    obtain ⟨i1, i2, i3⟩ := sees_get h.inv h.sees k
    refine ⟨fun v hv => ?_, fun v hv => ?_⟩
    · simp only [Option.bind_eq_some_iff] at hv
      obtain ⟨w, hw, hd⟩ := hv
      simp only
      rw [i1 w hw (by simp [hd])]
      exact hd
    · simp only [Option.bind_eq_some_iff] at hv
      obtain ⟨w, hw, hd⟩ := hv
      exact h.vals k w v (L.get_some h.inv hw).1 hd

/-- What an iteration yields with any strategy. -/
theorem items_weak {L : Laws kd x} {c : Cfg K V} {s : Store kd} {g : Ghost K V} (h : Inv L c s g) (hm : s.mem = []) :
    SL.Sorted s.items ∧ (∀ k v, look s.mem g.W k = some v → (k, v) ∈ s.items) ∧ (∀ k v, (k, v) ∈ s.items → g.ins k v) := by
  obtain ⟨i1, i2, i3, i4⟩ := mem_items h.inv (L.inv_ok h.inv) g.W h.sees
  rw [hm]
  refine ⟨i1, fun k v hv => i2 k v hv, fun k v hv => ?_⟩
  obtain ⟨⟨w, hw, hd⟩, _⟩ := i3 k v hv
  exact h.vals k w v hw hd

/-- What `min` and `max` answer with any strategy. -/
theorem minmax_weak {L : Laws kd x} {c : Cfg K V} {s : Store kd} {g : Ghost K V} {r : KvRes K V} (h : Inv L c s g) :
    (Answer s .min r → ∃ o, r = .key o ∧ (∀ k v, look s.mem g.W k = some v → ∃ m, o = some m ∧ m ≤ k) ∧
      ∀ m, o = some m → ∃ v, g.ins m v) ∧
    (Answer s .max r → ∃ o, r = .key o ∧ (∀ k v, look s.mem g.W k = some v → ∃ m, o = some m ∧ k ≤ m) ∧
      ∀ m, o = some m → ∃ v, g.ins m v) := by
  obtain ⟨i1, i2, i3, i4⟩ := mem_items h.inv (L.inv_ok h.inv) g.W h.sees
  have hl := live_sorted h.memSorted
  have e1 : ∀ k, ((SL.abs (live s.mem)).Has k ∨ (SL.abs s.items).Has k) → ∃ v, g.ins k v := by
    intro k hk
    rw [has_list, has_list] at hk
    rcases hk with ⟨y, hy⟩ | ⟨y, hy⟩
    · obtain ⟨v, h1, h2⟩ := mem_live.1 hy
      exact ⟨y, h.memVals _ h1 y h2⟩
    · obtain ⟨⟨w, hw, hd⟩, _⟩ := i3 k y hy
      exact ⟨y, h.vals k w y hw hd⟩
  have e2 : ∀ k v, look s.mem g.W k = some v → (SL.abs (live s.mem)).Has k ∨ (SL.abs s.items).Has k := by
    intro k v hv
    rw [has_list, has_list]
    unfold look at hv
    cases hf : SL.find k s.mem with
    | some e =>
      rw [hf] at hv
      left
      refine ⟨v, mem_live.2 ⟨e.2, ?_, hv⟩⟩
      have := SL.find_some_mem hf
      rw [← SL.find_some_key hf]; exact this
    | none =>
      rw [hf] at hv
      exact .inr ⟨v, i2 k v hv⟩
  constructor
  · intro ha
    refine ⟨_, ha, ?_⟩
    have hle := optMin_least (SL.min_spec hl) (SL.min_spec i1)
    generalize optMin ((live s.mem).head?.map (·.1)) (s.items.head?.map (·.1)) = o at hle
    cases o with
    | none => exact ⟨fun k v hv => absurd (e2 k v hv) (hle k), by simp⟩
    | some m =>
      exact ⟨fun k v hv => ⟨m, rfl, hle.2 k (e2 k v hv)⟩, fun m' hm' => by
        simp only [Option.some.injEq] at hm'; subst hm'; exact e1 m hle.1⟩
  · intro ha
    refine ⟨_, ha, ?_⟩
    have hle := optMax_greatest (SL.max_spec hl) (SL.max_spec i1)
    generalize optMax ((live s.mem).getLast?.map (·.1)) (s.items.getLast?.map (·.1)) = o at hle
    cases o with
    | none => exact ⟨fun k v hv => absurd (e2 k v hv) (hle k), by simp⟩
    | some m =>
      exact ⟨fun k v hv => ⟨m, rfl, hle.2 k (e2 k v hv)⟩, fun m' hm' => by
        simp only [Option.some.injEq] at hm'; subst hm'; exact e1 m hle.1⟩

/-- What `min` and `max` consider, in terms of the history: the keys that are live, and those that were live when
the tables were written. -/
theorem minmax_keys {L : Laws kd x} {c : Cfg K V} {s : Store kd} {pre : List (KvOp K V)} {W : K → Option (Val V)}
    {n : Nat} (h : Hist L c s pre W n) (k : K) :
    ((∃ e ∈ s.mem, e.1 = k ∧ e.2.data.isSome = true) ∨ ((W k).bind (·.data)).isSome = true) ↔
    ((contents pre k).isSome = true ∨ (contents (pre.take n) k).isSome = true) := by
  have hb : (W k).bind (·.data) = contents (pre.take n) k := congrFun h.base k
  have hl := congrFun h.look k
  rw [hb, ← hl]
  unfold Lsm.look
  constructor
  · rintro (⟨e, he, rfl, hd⟩ | hw)
    · left
      rw [SL.find_of_mem h.inv.memSorted he]; exact hd
    · exact .inr hw
  · rintro (hk | hk)
    · cases hf : SL.find k s.mem with
      | some e =>
        rw [hf] at hk
        exact .inl ⟨e, SL.find_some_mem hf, SL.find_some_key hf, hk⟩
      | none =>
        rw [hf] at hk
        simp only at hk
        rw [hb] at hk
        exact .inr hk
    · exact .inr hk

/-! ### Calls return -/

/-- Something was written before every `reopen`. -/
def Opens : List (KvOp K V) → Prop
  | [] => True
  | .reopen :: _ => False
  | .insert _ _ :: _ => True
  | .remove _ :: _ => True
  | _ :: ops => Opens ops

theorem clock_step {L : Laws kd x} {c : Cfg K V} {s s' : Store kd} {g : Ghost K V} {op : KvOp K V} {d : Nat}
    {r : KvRes K V} (h : Inv L c s g) (hh : s.Hand) (hg : ∀ l, s.spill c op = some l → L.good l)
    (hs : s.step c op d = some (s', r)) (hop : (∃ k v, op = .insert k v) ∨ ∃ k, op = .remove k) : s'.clock ≠ 0 := by
  have hw : Inv L c (work d s) g := inv_work d h
  have hhw : (work d s).Hand := hand_work d hh
  obtain ⟨f1, f2, f3, f4, f5, f6⟩ := work_frame d s
  have hwr : ∀ k data, (work d s).written c k data = s.written c k data := by
    intro k data; unfold written usageAfter; rw [f1, f2, f5]
  rcases hop with ⟨k, v, rfl⟩ | ⟨k, rfl⟩
  · obtain ⟨s2, W', k1, k2, k3, k4, _, _, k7, _⟩ := inv_write hw hhw k (some v) (fun l hl => hg l ((hwr k _).symm.trans hl))
    simp only [step, k1, Option.map_some, Option.some.injEq, Prod.mk.injEq] at hs
    obtain ⟨rfl, rfl⟩ := hs
    omega
  · obtain ⟨s2, W', k1, k2, k3, k4, _, _, k7, _⟩ := inv_write hw hhw k none (fun l hl => hg l ((hwr k _).symm.trans hl))
    simp only [step, k1, Option.map_some, Option.some.injEq, Prod.mk.injEq] at hs
    obtain ⟨rfl, rfl⟩ := hs
    omega

/-- If compactions terminate, every history in which something is written before the first `reopen` runs to its
end. -/
theorem run_isSome {L : Laws kd x} (hL : L.Total) {c : Cfg K V} : ∀ (ops : List (KvOp K V × Nat)) {s : Store kd}
    {g : Ghost K V}, Inv L c s g → s.Hand → GoodRun L.good c s ops →
    (s.clock ≠ 0 ∨ Opens (ops.map (·.1))) → ∃ p, run c s ops = some p
  | [], s, g, _, _, _, _ => ⟨_, rfl⟩
  | (op, d) :: ops, s, g, h, hh, hg, hc => by
    obtain ⟨⟨s1, r⟩, h1⟩ := step_isSome hL (d := d) h hh hg.1 (by
      rintro rfl
      rcases hc with hc | hc
      · exact hc
      · exact absurd hc (by simp [Opens]))
    obtain ⟨W1, k1, k2, k3, k4, k5, _⟩ := inv_step h hh hg.1 h1
    have hc' : s1.clock ≠ 0 ∨ Opens (ops.map (·.1)) := by
      rcases hc with hc | hc
      · left; omega
      · cases op with
        | insert k v => exact .inl (clock_step h hh hg.1 h1 (.inl ⟨k, v, rfl⟩))
        | remove k => exact .inl (clock_step h hh hg.1 h1 (.inr ⟨k, rfl⟩))
        | reopen => exact absurd hc (by simp [Opens])
        | _ => exact .inr hc
    obtain ⟨p, hp⟩ := run_isSome hL ops k1 k2 (hg.2 _ _ h1) hc'
    simp only [run, h1, hp]
    exact ⟨_, rfl⟩

end Store

end Verif.Lsm
