/-
C35 and C37 with the size-tiered strategy, exactly: which answers are wrong.  A removed key comes back only when the
result of a compaction is taken over, and this file says exactly which ones then do.
-/
import Verif.Lsm.LeveledEnds

namespace Verif.Lsm

open Verif Verif.Spec Store
open Verif.Lsm.SizeTiered (ver_append replace_facts compact_spec purge_disjoint ext_sub)

variable {K V : Type} [LinearOrder K]

/-! ### Where the calls take over the result of a compaction -/

namespace Store

variable {kd : Kind K V}

/-- The states in which `start` (size_tiered.rs:415-433) calls `try_replace_metadata`. -/
def takesStart (s : Store kd) : List (Store kd) := if s.busy ∨ s.locks ≠ 0 then [] else [s]

/-- The states in which `try_compact` (map.rs:90-101) takes over. -/
def takesCompact (c : Cfg K V) (s : Store kd) : List (Store kd) :=
  match build c.sizes (c.block s.mem.length) s.mem s.fresh with
  | none => []
  | some t => takesStart (s.pushTable t)

/-- The state in which `flush` of the strategy (size_tiered.rs:436-450) takes over. -/
def takesSettle (s : Store kd) : List (Store kd) :=
  if s.handle then
    match s.join with
    | none => []
    | some s => [{ s with handle := false }]
  else []

/-- The states in which `flush` (map.rs:476-481) takes over. -/
def takesFlush (c : Cfg K V) (s : Store kd) : List (Store kd) :=
  match s.mem with
  | [] => takesSettle s
  | _ :: _ => takesCompact c s ++ match s.tryCompact c with
    | none => []
    | some s => takesSettle s

/-- The states in which `insert` and `remove` (map.rs:129-150, 178-199) take over. -/
def takesWrite (c : Cfg K V) (s : Store kd) (k : K) (data : Option V) : List (Store kd) :=
  let (s, time) := s.tick
  match s.usageAfter c k ⟨data, time⟩ with
  | none => []
  | some u =>
    let s := { s with usage := u, mem := SL.ins k ⟨data, time⟩ s.mem }
    if c.maxMem < u then takesCompact c s else []

/-- The states in which a call takes over the result of a compaction, if there is one: those in which `step` calls
`tryReplace`. -/
def takes (c : Cfg K V) (s : Store kd) (op : KvOp K V) (d : Nat) : List (Store kd) :=
  let s := work d s
  match op with
  | .insert k v => takesWrite c s k (some v)
  | .remove k => takesWrite c s k none
  | .get k | .containsKey k => if (SL.find k s.mem).isSome then [] else [s]
  | .lenHint | .min | .max => [s]
  | .len | .isEmpty | .iter | .hold => takesFlush c s ++ match s.flush c with
    | none => []
    | some s => [s]
  | .flush | .reopen => takesFlush c s
  | .release | .clear => []

end Store

/-- Taking over in the state `s` brings back the value `v` of `k`: the result of the compaction has no version of `k`,
the newest version of `k` in the tables is a removal, and the newest version in those tables that stay because they
have a newer entry than everything in the result is the insertion of `v`. -/
def Revives {c : Cfg K V} {p : SizeTiered.Params} (s : Store (SizeTiered.kind c p)) (k : K) (v : V) : Prop :=
  ∃ m, s.next = some m ∧ (∀ e ∈ s.mem, e.1 ≠ k) ∧ (∀ w, ¬ Ver m k w) ∧
    (∃ w, Leveled.IsNewest s.cur k w ∧ w.data = none) ∧
    ∃ u, Leveled.IsNewest (s.cur.filter fun t => optLt (endTime m) (some t.times.2)) k u ∧ u.data = some v

namespace SizeTiered

/-- No two versions of a key have the same time. -/
structure Uniq (ts : List (Table K V)) : Prop where
  ok : ∀ t ∈ ts, t.Ok
  uniq : ∀ k v v', Ver ts k v → Ver ts k v' → v.time = v'.time → v = v'

theorem uniq_push {ts : List (Table K V)} {t : Table K V} (h : Uniq ts) (ht : t.Ok)
    (hnew : ∀ u ∈ ts, u.times.2 < t.times.1) : Uniq (ts ++ [t]) := by
  have hv : ∀ k v, Ver (ts ++ [t]) k v ↔ Ver ts k v ∨ (k, v) ∈ t.entries := by
    intro k v; rw [ver_append]; simp [Ver]
  have hlt : ∀ k v, Ver ts k v → ∀ e ∈ t.entries, v.time < e.2.time := by
    rintro k v ⟨u, hu, hm⟩ e he
    have h1 := (h.ok u hu).timeHi _ hm
    have h2 := hnew u hu
    have h3 := ht.timeLo e he
    simp only at h1
    omega
  refine ⟨?_, ?_⟩
  · intro u hu
    rcases List.mem_append.1 hu with hu | hu
    · exact h.ok u hu
    · simp only [List.mem_singleton] at hu; rw [hu]; exact ht
  · intro k v v' h1 h2 h3
    rcases (hv k v).1 h1 with h1 | h1 <;> rcases (hv k v').1 h2 with h2 | h2
    · exact h.uniq k v v' h1 h2 h3
    · have := hlt k v h1 _ h2; simp only at this; omega
    · have := hlt k v' h2 _ h1; simp only at this; omega
    · have := ht.get_some.2 h1
      rw [ht.get_some.2 h2] at this
      simpa using this.symm

/-- The facts that hold in all histories, with the uniqueness of times. -/
def lawsU (c : Cfg K V) (p : Params) : Laws (kind c p) false where
  good _ := True
  inv ts := Uniq ts
  inv_empty := ⟨by simp, by simp [Ver]⟩
  tabs_empty := rfl
  inv_ok h := h.ok
  inv_push := fun h1 h2 _ h4 => uniq_push h1 h2 h4
  tabs_push := (laws c p).tabs_push
  compact_new h := (laws c p).compact_new h.ok
  replace := by
    intro S j f C new cur W hi hpl hc he hcur hnd hnew hs
    obtain ⟨a1, a2, a3, a4⟩ := (laws c p).replace hi.ok hpl hc he hcur.ok hnd hnew hs
    exact ⟨⟨a1, fun k v v' h1 h2 => hcur.uniq k v v' (a3 k v h1) (a3 k v' h2)⟩, a2, a3, a4⟩
  get_some h := (laws c p).get_some h.ok
  get_none h := (laws c p).get_none h.ok
  runs_sorted h := (laws c p).runs_sorted h.ok
  runs_in h := (laws c p).runs_in h.ok

theorem get_iff {ts : List (Table K V)} (h : Uniq ts) {k : K} {v : Val V} :
    get ts k = some v ↔ Leveled.IsNewest ts k v := by
  have hf := get_fold h.ok k none (o := get ts k) rfl
  constructor
  · intro hg
    obtain ⟨a, -, b⟩ := hf.2 v hg
    have a := a.resolve_left (by simp)
    refine ⟨a, fun v' hv' => ?_⟩
    rcases Nat.lt_or_eq_of_le (b v' hv') with h1 | h1
    · exact .inl h1
    · exact .inr (h.uniq k v' v hv' a h1)
  · rintro ⟨h1, h2⟩
    cases hg : get ts k with
    | none => exact absurd h1 ((hf.1 hg).2 v)
    | some w =>
      obtain ⟨a, -, b⟩ := hf.2 w hg
      have a := a.resolve_left (by simp)
      rcases h2 w a with h3 | h3
      · have := b v h1; omega
      · rw [h3]

theorem get_none_iff {ts : List (Table K V)} (h : Uniq ts) {k : K} : get ts k = none ↔ ∀ v, ¬ Ver ts k v := by
  have hf := get_fold h.ok k none (o := get ts k) rfl
  refine ⟨fun hg => (hf.1 hg).2, fun hn => ?_⟩
  cases hg : get ts k with
  | none => rfl
  | some w => exact absurd ((hf.2 w hg).1.resolve_left (by simp)) (hn w)

end SizeTiered

open SizeTiered

/-! ### What the parts of a call do to the answers -/

section

variable {c : Cfg K V} {p : SizeTiered.Params}

theorem found_eq_look {kd : Kind K V} (s : Store kd) : s.found = look s.mem (kd.get s.cur) := rfl

theorem found_tryReplace {s s' : Store (kind c p)} {g : Ghost K V} (h : Store.Inv (lawsU c p) c s g)
    (ht : s.tryReplace = some s') (k : K) (v : V) : s'.found k = some v ↔ s.found k = some v ∨ Revives s k v := by
  obtain ⟨s1, e1, h1, hmem, -⟩ := inv_tryReplace h
  rw [ht] at e1
  cases e1
  unfold tryReplace at ht
  cases hn : s.next with
  | none =>
    rw [hn] at ht
    cases ht
    exact ⟨.inl, fun h => h.elim id (fun ⟨m, hm, _⟩ => by rw [hn] at hm; cases hm)⟩
  | some m =>
    rw [hn] at ht
    simp only [Option.map_eq_some_iff] at ht
    obtain ⟨s2, h2, h3⟩ := ht
    have hcur : s'.cur = SizeTiered.replace s.cur m := by
      obtain ⟨tr, h4, -⟩ := removeDirs_some h2
      rw [← h3, h4]
      rfl
    obtain ⟨S, j, f, new, k1, k2, k3, k4, k5, k6⟩ := h.next m hn
    obtain ⟨C', new', e, old, rest, hc⟩ := compact_spec (c := c) (f := f) k1.ok k3
    rw [show SizeTiered.compact c j f = some (m, new) from k4] at e
    cases e
    obtain ⟨r1, r2, r3, r4, r5⟩ := replace_facts k1.ok k2 h.inv.ok hc
    have hU : Uniq s.cur := h.inv
    have hU' : Uniq (SizeTiered.replace s.cur m) := hcur ▸ h1.inv
    have hver : ∀ k w, Ver (SizeTiered.replace s.cur m) k w ↔
        Ver m k w ∨ Ver (s.cur.filter fun t => optLt (endTime m) (some t.times.2)) k w := by
      intro k w; unfold SizeTiered.replace; exact ver_append
    cases hf : SL.find k s.mem with
    | some e =>
      have e1 : s'.found k = e.2.data := by unfold found; rw [hmem, hf]
      have e2 : s.found k = e.2.data := by unfold found; rw [hf]
      rw [e1, e2]
      refine ⟨.inl, fun h => h.elim id ?_⟩
      rintro ⟨m, -, hm, -⟩
      exact absurd (SL.find_some_key hf) (hm e (SL.find_some_mem hf))
    | none =>
      have e1 : s'.found k = (SizeTiered.get (SizeTiered.replace s.cur m) k).bind (·.data) := by
        unfold found; rw [hmem, hf, ← hcur]
      have e2 : s.found k = (SizeTiered.get s.cur k).bind (·.data) := by unfold found; rw [hf]
      rw [e1, e2]
      simp only [Option.bind_eq_some_iff]
      constructor
      · rintro ⟨u, hu, hd⟩
        obtain ⟨u1, u2⟩ := (get_iff hU').1 hu
        cases hw : SizeTiered.get s.cur k with
        | none => exact absurd (r2 k u u1) ((get_none_iff hU).1 hw u)
        | some w =>
          obtain ⟨w1, w2⟩ := (get_iff hU).1 hw
          have same : Ver (SizeTiered.replace s.cur m) k w → w = u := by
            intro hv
            rcases u2 w hv with h4 | h4
            · rcases w2 u (r2 k u u1) with h5 | h5
              · omega
              · exact h5.symm
            · exact h4
          cases hwd : w.data with
          | some y =>
            have := same (r4 k w w1 w2 (by simp [hwd]))
            subst this
            exact .inl ⟨w, rfl, hd⟩
          | none =>
            right
            have hno : ¬ Ver (SizeTiered.replace s.cur m) k w := by
              intro hv
              have := same hv
              subst this
              rw [hwd] at hd; cases hd
            have hm : ∀ z, ¬ Ver m k z := by
              intro z hz
              apply hno
              obtain ⟨t, ht, htw⟩ := w1
              by_cases htS : t ∈ S
              · rcases List.mem_append.1 (hc.perm.mem_iff.1 htS) with h6 | h6
                · rw [hver]
                  left
                  rw [hc.eq] at hz ⊢
                  rw [ver_append] at hz ⊢
                  have hS : ∀ w', Ver old k w' → w'.time < w.time ∨ w' = w := by
                    rintro w' ⟨t', ht', hw'⟩
                    exact w2 w' ⟨t', ext_sub k2 t' (hc.perm.mem_iff.2 (List.mem_append_left _ ht')), hw'⟩
                  cases hp : SizeTiered.purge old rest with
                  | false => exact .inr (hc.keep k w ⟨t, h6, htw⟩ hS (.inr hp))
                  | true =>
                    rcases hz with hz | hz
                    · exact absurd hz (fun hz => purge_disjoint hp
                        (fun t ht => k1.ok t (hc.perm.mem_iff.2 (List.mem_append_left _ ht)))
                        (fun t ht => k1.ok t (hc.perm.mem_iff.2 (List.mem_append_right _ ht))) ⟨t, h6, htw⟩ hz)
                    · rcases hS z (hc.sub k z hz) with h7 | h7
                      · have := hc.newest k z hz w ⟨t, h6, htw⟩
                        omega
                      · right; rw [← h7]; exact hz
                · rw [hver, hc.eq, ver_append]
                  exact .inl (.inl ⟨t, h6, htw⟩)
              · exact ⟨t, r5 t ht htS, htw⟩
            refine ⟨m, hn, ?_, hm, ⟨w, ⟨w1, w2⟩, hwd⟩, u, ⟨((hver k u).1 u1).resolve_left (hm u), fun v' hv' =>
              u2 v' ((hver k v').2 (.inr hv'))⟩, hd⟩
            intro e he hek
            rw [SL.find_eq_none] at hf
            exact hf e he hek
      · rintro (⟨w, hw, hd⟩ | ⟨m', hm', -, a1, -, u, ⟨a2, a3⟩, a4⟩)
        · obtain ⟨w1, w2⟩ := (get_iff hU).1 hw
          exact ⟨w, (get_iff hU').2 ⟨r4 k w w1 w2 (by simp [hd]), fun v' hv' => w2 v' (r2 k v' hv')⟩, hd⟩
        · rw [hn] at hm'
          cases hm'
          refine ⟨u, (get_iff hU').2 ⟨(hver k u).2 (.inr a2), fun v' hv' => ?_⟩, a4⟩
          exact a3 v' (((hver k v').1 hv').resolve_left (a1 v'))

/-- `F'` answers as `F`, and finds also what is taken over in `l`. -/
def Gains (F F' : K → Option V) (l : List (Store (kind c p))) : Prop :=
  ∀ k v, F' k = some v ↔ F k = some v ∨ ∃ st ∈ l, Revives st k v

theorem Gains.nil {F F' : K → Option V} (h : F' = F) : Gains (c := c) (p := p) F F' [] := by
  intro k v; rw [h]; simp

theorem Gains.trans {F F' F'' : K → Option V} {l l' : List (Store (kind c p))} (h : Gains F F' l) (h' : Gains F' F'' l') :
    Gains F F'' (l ++ l') := by
  intro k v
  rw [h' k v, h k v]
  simp only [List.mem_append]
  constructor
  · rintro ((h | ⟨st, h, h1⟩) | ⟨st, h, h1⟩)
    · exact .inl h
    · exact .inr ⟨st, .inl h, h1⟩
    · exact .inr ⟨st, .inr h, h1⟩
  · rintro (h | ⟨st, h | h, h1⟩)
    · exact .inl (.inl h)
    · exact .inl (.inr ⟨st, h, h1⟩)
    · exact .inr ⟨st, h, h1⟩

theorem gains_tryReplace {s s' : Store (kind c p)} {g : Ghost K V} (h : Store.Inv (lawsU c p) c s g)
    (ht : s.tryReplace = some s') : Gains s.found s'.found [s] := by
  intro k v; rw [found_tryReplace h ht]; simp

/-- Writing the in-memory tree as a table changes no answer. -/
theorem found_pushTable {s : Store (kind c p)} {g : Ghost K V} (h : Store.Inv (lawsU c p) c s g) (hm : s.mem ≠ [])
    {t : Table K V} (hb : build c.sizes (c.block s.mem.length) s.mem s.fresh = some t) :
    (s.pushTable t).found = s.found := by
  obtain ⟨t', h1, h2, h3, h4⟩ := build_ok (z := c.sizes) (n := c.block s.mem.length) h.memSorted hm s.fresh
  rw [hb] at h1
  cases h1
  obtain ⟨t', e, -, hI⟩ := inv_pushTable h hm trivial
  rw [hb] at e
  cases e
  have hU : Uniq s.cur := h.inv
  have hU' : Uniq (s.cur ++ [t]) := hI.inv
  have hv : ∀ k v, Ver (s.cur ++ [t]) k v ↔ Ver s.cur k v ∨ (k, v) ∈ s.mem := by
    intro k v; rw [ver_append, ← h3]; simp [Ver]
  have hlt : ∀ k v, Ver s.cur k v → ∀ e ∈ s.mem, v.time < e.2.time := by
    rintro k v ⟨u, hu, hm⟩ e he
    have h1 := (hU.ok u hu).timeHi _ hm
    have h2 := h.memNew e he u hu
    simp only at h1
    omega
  rw [found_eq_look, found_eq_look, ← look_addW s.mem]
  show look [] (SizeTiered.get (s.cur ++ [t])) = look [] (addW s.mem (SizeTiered.get s.cur))
  congr 1
  funext k
  unfold addW
  cases hf : SL.find k s.mem with
  | some e =>
    have hk := SL.find_some_key hf
    have he := SL.find_some_mem hf
    subst hk
    rw [get_iff hU']
    refine ⟨(hv _ _).2 (.inr he), fun v' hv' => ?_⟩
    rcases (hv _ _).1 hv' with h5 | h5
    · exact .inl (hlt _ _ h5 e he)
    · right
      have := SL.find_of_mem h.memSorted h5
      simp only at this
      rw [hf] at this
      rw [Option.some.inj this]
  | none =>
    have hn : ∀ v, Ver (s.cur ++ [t]) k v ↔ Ver s.cur k v := by
      intro v
      rw [hv]
      exact or_iff_left fun hm => SL.find_eq_none.1 hf _ hm rfl
    simp only
    cases hg : SizeTiered.get s.cur k with
    | none =>
      rw [get_none_iff hU'] 
      intro v
      rw [hn]
      exact (get_none_iff hU).1 hg v
    | some w =>
      obtain ⟨w1, w2⟩ := (get_iff hU).1 hg
      exact (get_iff hU').2 ⟨(hn w).2 w1, fun v' hv' => w2 v' ((hn v').1 hv')⟩

theorem gains_tryCompact {s s' : Store (kind c p)} {g : Ghost K V} (h : Store.Inv (lawsU c p) c s g) (hm : s.mem ≠ [])
    (ht : s.tryCompact c = some s') : Gains s.found s'.found (takesCompact c s) := by
  obtain ⟨t, h1, -, hI⟩ := inv_pushTable h hm trivial
  unfold tryCompact at ht
  unfold takesCompact
  rw [h1] at ht ⊢
  simp only at ht ⊢
  rw [← found_pushTable h hm h1]
  unfold start at ht
  unfold takesStart
  split at ht
  · rename_i hc
    cases ht
    rw [if_pos hc]
    exact .nil rfl
  · rename_i hc
    rw [if_neg hc]
    split at ht
    · cases ht
    · rename_i s1 h2
      have := gains_tryReplace hI h2
      split at ht
      · cases ht; exact this
      · cases ht; exact this

theorem gains_settle {s s' : Store (kind c p)} {g : Ghost K V} (h : Store.Inv (lawsU c p) c s g)
    (ht : s.settle = some s') : Gains s.found s'.found (takesSettle s) := by
  unfold settle at ht
  unfold takesSettle
  split at ht
  · rename_i hc
    rw [if_pos hc]
    cases hj : s.join with
    | none => rw [hj] at ht; cases ht
    | some s1 =>
      rw [hj] at ht
      simp only at ht ⊢
      obtain ⟨h1, h2, h3, h4, h5, h6, h7⟩ := inv_join h hj
      have h1' : Store.Inv (lawsU c p) c { s1 with handle := false } g :=
        ⟨h1.memSorted, h1.memTime, h1.memNew, h1.curTime, h1.inv, h1.sees, h1.ids, h1.job, h1.next, h1.locked, h1.files,
          h1.dirIds, h1.dirNew, h1.md, h1.time, h1.used, h1.usedEq, h1.vals, h1.memVals⟩
      have hf : ({ s1 with handle := false } : Store (kind c p)).found = s.found := by
        rw [found_eq_look, found_eq_look]
        simp only
        rw [h3, h5]
      rw [← hf]
      exact gains_tryReplace h1' ht
  · rename_i hc
    cases ht
    rw [if_neg hc]
    exact .nil rfl

theorem gains_flush {s s' : Store (kind c p)} {g : Ghost K V} (h : Store.Inv (lawsU c p) c s g) (hh : s.Hand)
    (ht : s.flush c = some s') : Gains s.found s'.found (takesFlush c s) := by
  unfold flush at ht
  unfold takesFlush
  cases hm : s.mem with
  | nil =>
    rw [hm] at ht
    exact gains_settle h ht
  | cons e l =>
    rw [hm] at ht
    simp only at ht ⊢
    have hne : s.mem ≠ [] := by rw [hm]; simp
    obtain ⟨s1, h1, h2, -⟩ := inv_tryCompact h hh hne trivial
    rw [h1] at ht ⊢
    exact (gains_tryCompact h hne h1).trans (gains_settle h2 ht)

theorem gains_write {s s' : Store (kind c p)} {g : Ghost K V} (h : Store.Inv (lawsU c p) c s g) (k : K)
    (data : Option V) (ht : s.write c k data = some s') :
    Gains (fun y => if y = k then data else s.found y) s'.found (takesWrite c s k data) := by
  obtain ⟨u, hu, hu1, hu2⟩ := usageAfter_some h k ⟨data, s.clock⟩
  have hf : (s.noted k data u).found = fun y => if y = k then data else s.found y := by
    funext y
    rw [found_eq_look, found_eq_look]
    exact look_ins h.memSorted _ k ⟨data, s.clock⟩ y
  have hI := inv_noted h hu1 hu2
  have hw : takesWrite c s k data = if c.maxMem < u then takesCompact c (s.noted k data u) else [] := by
    unfold takesWrite
    rw [tick_eq]
    simp only
    have hu' : usageAfter c ({ s with
      clock := s.clock + 1, disk := { s.disk with time := some (s.clock + 1) },
      trace := s.trace ++ [{ s.disk with time := some (s.clock + 1) }] } : Store (kind c p)) k ⟨data, s.clock⟩ = some u := hu
    rw [hu']
    rfl
  rw [write_eq hu] at ht
  rw [hw, ← hf]
  split at ht
  · rename_i hc
    rw [if_pos hc]
    refine gains_tryCompact hI ?_ ht
    intro he
    have : (k, (⟨data, s.clock⟩ : Val V)) ∈ SL.ins k ⟨data, s.clock⟩ s.mem := mem_ins_key
    rw [show SL.ins k ⟨data, s.clock⟩ s.mem = (s.noted k data u).mem from rfl, he] at this
    simp at this
  · rename_i hc
    cases ht
    rw [if_neg hc]
    exact .nil rfl

theorem found_work (d : Nat) (s : Store (kind c p)) : (work d s).found = s.found := by
  obtain ⟨h1, -, h3, -⟩ := work_frame d s
  rw [found_eq_look, found_eq_look, h1, h3]

variable [DecidableEq V]

/-- What a call does to the answers: its effect on the contents, and what is brought back. -/
theorem gains_step {s s' : Store (kind c p)} {g : Ghost K V} {op : KvOp K V} {d : Nat} {r : KvRes K V}
    (h : Store.Inv (lawsU c p) c s g) (hh : s.Hand) (hs : s.step c op d = some (s', r)) :
    Gains (op.apply s.found) s'.found (takes c s op d) := by
  have hw : Store.Inv (lawsU c p) c (work d s) g := inv_work d h
  have hhw : (work d s).Hand := hand_work d hh
  rw [← found_work d s]
  have fl : ∀ {s2}, (work d s).flush c = some s2 → ∃ g', Store.Inv (lawsU c p) c s2 g' ∧ s2.mem = [] ∧ s2.next = none ∧
      Gains (work d s).found s2.found (takesFlush c (work d s)) := by
    intro s2 h2
    obtain ⟨k1, k2, k3, k4, -⟩ := inv_flush hw hhw (fun _ => trivial) h2
    exact ⟨_, k1, k4, k3, gains_flush hw hhw h2⟩
  have rd : ∀ {s2 s3 : Store (kind c p)}, (work d s).flush c = some s2 → s2.tryReplace = some s3 →
      Gains (work d s).found s3.found (takes c s .len d) := by
    intro s2 s3 h2 h3
    obtain ⟨g', k1, -, -, k2⟩ := fl h2
    simp only [takes]
    rw [h2]
    exact k2.trans (gains_tryReplace k1 h3)
  cases op with
  | insert k v =>
    simp only [step, Option.map_eq_some_iff, Prod.mk.injEq] at hs
    obtain ⟨s2, h2, rfl, rfl⟩ := hs
    exact gains_write hw k (some v) h2
  | remove k =>
    simp only [step, Option.map_eq_some_iff, Prod.mk.injEq] at hs
    obtain ⟨s2, h2, rfl, rfl⟩ := hs
    exact gains_write hw k none h2
  | get k =>
    simp only [step] at hs
    simp only [takes, KvOp.apply]
    cases hf : SL.find k (work d s).mem with
    | some e =>
      rw [hf] at hs
      simp only [Option.some.injEq, Prod.mk.injEq] at hs
      obtain ⟨rfl, rfl⟩ := hs
      exact .nil rfl
    | none =>
      rw [hf] at hs
      simp only [Option.map_eq_some_iff, Prod.mk.injEq] at hs
      obtain ⟨s2, h2, rfl, rfl⟩ := hs
      exact gains_tryReplace hw h2
  | containsKey k =>
    simp only [step] at hs
    simp only [takes, KvOp.apply]
    cases hf : SL.find k (work d s).mem with
    | some e =>
      rw [hf] at hs
      simp only [Option.some.injEq, Prod.mk.injEq] at hs
      obtain ⟨rfl, rfl⟩ := hs
      exact .nil rfl
    | none =>
      rw [hf] at hs
      simp only [Option.map_eq_some_iff, Prod.mk.injEq] at hs
      obtain ⟨s2, h2, rfl, rfl⟩ := hs
      exact gains_tryReplace hw h2
  | lenHint =>
    simp only [step, Option.bind_eq_some_iff, Option.map_eq_some_iff, Prod.mk.injEq] at hs
    obtain ⟨s2, h2, n, h3, rfl, rfl⟩ := hs
    exact gains_tryReplace hw h2
  | min =>
    simp only [step, Option.map_eq_some_iff, Prod.mk.injEq] at hs
    obtain ⟨s2, h2, rfl, rfl⟩ := hs
    exact gains_tryReplace hw h2
  | max =>
    simp only [step, Option.map_eq_some_iff, Prod.mk.injEq] at hs
    obtain ⟨s2, h2, rfl, rfl⟩ := hs
    exact gains_tryReplace hw h2
  | len =>
    simp only [step, Option.bind_eq_some_iff, Option.map_eq_some_iff, Prod.mk.injEq] at hs
    obtain ⟨s2, h2, s3, h3, rfl, rfl⟩ := hs
    exact rd h2 h3
  | isEmpty =>
    simp only [step, Option.bind_eq_some_iff, Option.map_eq_some_iff, Prod.mk.injEq] at hs
    obtain ⟨s2, h2, s3, h3, rfl, rfl⟩ := hs
    exact rd h2 h3
  | iter =>
    simp only [step, Option.bind_eq_some_iff, Option.map_eq_some_iff, Prod.mk.injEq] at hs
    obtain ⟨s2, h2, s3, h3, rfl, rfl⟩ := hs
    exact rd h2 h3
  | hold =>
    simp only [step, Option.bind_eq_some_iff, Option.map_eq_some_iff, Prod.mk.injEq] at hs
    obtain ⟨s2, h2, s3, h3, rfl, rfl⟩ := hs
    have := rd h2 h3
    exact this
  | release =>
    simp only [step, Option.some.injEq, Prod.mk.injEq] at hs
    obtain ⟨rfl, rfl⟩ := hs
    exact .nil rfl
  | flush =>
    simp only [step, Option.map_eq_some_iff, Prod.mk.injEq] at hs
    obtain ⟨s2, h2, rfl, rfl⟩ := hs
    exact (fl h2).choose_spec.2.2.2
  | clear =>
    simp only [step, Option.map_eq_some_iff, Prod.mk.injEq] at hs
    obtain ⟨s2, h2, rfl, rfl⟩ := hs
    obtain ⟨k1, k2, k3, k4, k5⟩ := inv_clear hw hhw h2
    refine .nil ?_
    funext k
    cases hf : s2.found k with
    | none => rfl
    | some v =>
      exfalso
      unfold found at hf
      rw [k3] at hf
      obtain ⟨w, hw', -⟩ := Option.bind_eq_some_iff.1 hf
      obtain ⟨w', h1, -⟩ := k1.sees.old k w ((get_iff k1.inv).1 hw').1
      cases h1
  | reopen =>
    simp only [step, Option.bind_eq_some_iff, Option.map_eq_some_iff, Prod.mk.injEq] at hs
    obtain ⟨s2, h2, s3, h3, rfl, rfl⟩ := hs
    obtain ⟨g', k1, k2, -, k3⟩ := fl h2
    obtain ⟨j1, j2, j3, j4, j5⟩ := (inv_open k1 k2).1 _ h3
    have : s3.found = s2.found := by rw [found_eq_look, found_eq_look, j3, j4, k2]
    rw [this]
    exact k3

/-! ### Histories -/

/-- The calls that set what a key maps to. -/
def SetsKey (k : K) : KvOp K V → Prop
  | .insert x _ | .remove x => x = k
  | .clear => True
  | _ => False

omit [LinearOrder K] [DecidableEq V] in
theorem apply_same [DecidableEq K] {k : K} {op : KvOp K V} (h : ¬ SetsKey k op) (F : K → Option V) : op.apply F k = F k := by
  cases op <;> simp only [KvOp.apply] <;> simp only [SetsKey] at h
  · rw [if_neg (fun e => h e.symm)]
  · rw [if_neg (fun e => h e.symm)]
  · exact absurd trivial h

omit [LinearOrder K] [DecidableEq V] in
theorem apply_sets [DecidableEq K] {k : K} {op : KvOp K V} (h : SetsKey k op) (F G : K → Option V) :
    op.apply F k = op.apply G k := by
  cases op <;> simp only [KvOp.apply] <;> simp only [SetsKey] at h <;> simp [h]

omit [LinearOrder K] [DecidableEq V] in
theorem apply_congr [DecidableEq K] {k : K} (op : KvOp K V) {F G : K → Option V} (h : F k = G k) : op.apply F k = op.apply G k := by
  by_cases hw : SetsKey k op
  · exact apply_sets hw F G
  · rw [apply_same hw, apply_same hw, h]

omit [LinearOrder K] [DecidableEq V] in
theorem fold_congr [DecidableEq K] {k : K} : ∀ (ops : List (KvOp K V)) {F G : K → Option V}, F k = G k →
    ops.foldl KvOp.apply F k = ops.foldl KvOp.apply G k
  | [], _, _, h => h
  | op :: ops, _, _, h => fold_congr ops (apply_congr op h)

omit [LinearOrder K] [DecidableEq V] in
theorem fold_same [DecidableEq K] {k : K} : ∀ (ops : List (KvOp K V)) (F : K → Option V), (∀ o ∈ ops, ¬ SetsKey k o) →
    ops.foldl KvOp.apply F k = F k
  | [], _, _ => rfl
  | op :: ops, F, h => by
    rw [List.foldl_cons, fold_same ops _ fun o ho => h o (by simp [ho]), apply_same (h op (by simp))]

omit [LinearOrder K] [DecidableEq V] in
theorem fold_sets [DecidableEq K] {k : K} : ∀ (ops : List (KvOp K V)) (F G : K → Option V), (∃ o ∈ ops, SetsKey k o) →
    ops.foldl KvOp.apply F k = ops.foldl KvOp.apply G k
  | [], _, _, h => by obtain ⟨o, ho, -⟩ := h; cases ho
  | op :: ops, F, G, h => by
    by_cases hw : SetsKey k op
    · exact fold_congr ops (apply_sets hw F G)
    · obtain ⟨o, ho, h1⟩ := h
      rcases List.mem_cons.1 ho with rfl | ho
      · exact absurd h1 hw
      · exact fold_sets ops _ _ ⟨o, ho, h1⟩

/-- In the history `ops` that starts in the state `s0`, some call brought back the value `v` of `k`, and no later call
wrote `k`. -/
def BackFrom (s0 : Store (kind c p)) (ops : List (KvOp K V × Nat)) (k : K) (v : V) : Prop :=
  ∃ pre op d post s rs, ops = pre ++ (op, d) :: post ∧ run c s0 pre = some (s, rs) ∧
    (∃ st ∈ takes c s op d, Revives st k v) ∧ ∀ o ∈ post.map (·.1), ¬ SetsKey k o

theorem run_then {kd : Kind K V} {c : Cfg K V} {op : KvOp K V} {d : Nat} {r : KvRes K V} {s s' : Store kd} :
    ∀ (ops : List (KvOp K V × Nat)) {s0 : Store kd} {rs : List (KvRes K V)}, run c s0 ops = some (s, rs) →
    s.step c op d = some (s', r) → run c s0 (ops ++ [(op, d)]) = some (s', rs ++ [r])
  | [], s0, rs, hr, hs => by
    simp only [run, Option.some.injEq, Prod.mk.injEq] at hr
    obtain ⟨rfl, rfl⟩ := hr
    simp [run, hs]
  | (o, e) :: ops, s0, rs, hr, hs => by
    obtain ⟨s1, r1, rs', h1, h2, rfl⟩ := run_cons hr
    simp only [List.cons_append, run, h1, run_then ops h2 hs, Option.map_some]

theorem found_run : ∀ (ops : List (KvOp K V × Nat)) {s s' : Store (kind c p)} {g : Ghost K V} {rs : List (KvRes K V)},
    Store.Inv (lawsU c p) c s g → s.Hand → run c s ops = some (s', rs) → ∀ k v,
    (s'.found k = some v ↔ (ops.map (·.1)).foldl KvOp.apply s.found k = some v ∨ BackFrom s ops k v)
  | [], s, s', g, rs, h, hh, hr, k, v => by
    simp only [run, Option.some.injEq, Prod.mk.injEq] at hr
    obtain ⟨rfl, rfl⟩ := hr
    refine ⟨.inl, fun h => h.elim id ?_⟩
    rintro ⟨pre, op, d, post, s, rs, h, -⟩
    simp at h
  | (op, d) :: ops, s, s', g, rs, h, hh, hr, k, v => by
    obtain ⟨s1, r, rs', h1, h2, rfl⟩ := run_cons hr
    obtain ⟨W', k1, k2, -⟩ := inv_step h hh (fun _ _ => trivial) h1
    have hg := gains_step h hh h1 k v
    rw [found_run ops k1 k2 h2 k v]
    have hlater : BackFrom s1 ops k v → BackFrom s ((op, d) :: ops) k v := by
      rintro ⟨pre, op', d', post, s2, rs2, rfl, e2, e3, e4⟩
      refine ⟨(op, d) :: pre, op', d', post, s2, r :: rs2, rfl, ?_, e3, e4⟩
      simp only [run, h1, e2, Option.map_some]
    have hsplit : BackFrom s ((op, d) :: ops) k v →
        BackFrom s1 ops k v ∨ ((∃ st ∈ takes c s op d, Revives st k v) ∧ ∀ o ∈ ops.map (·.1), ¬ SetsKey k o) := by
      rintro ⟨pre, op', d', post, s2, rs2, e1, e2, e3, e4⟩
      cases pre with
      | nil =>
        simp only [List.nil_append, List.cons.injEq, Prod.mk.injEq] at e1
        obtain ⟨⟨rfl, rfl⟩, rfl⟩ := e1
        simp only [run, Option.some.injEq, Prod.mk.injEq] at e2
        obtain ⟨rfl, rfl⟩ := e2
        exact .inr ⟨e3, e4⟩
      | cons a pre =>
        simp only [List.cons_append, List.cons.injEq] at e1
        obtain ⟨rfl, rfl⟩ := e1
        obtain ⟨s3, r3, rs3, j1, j2, rfl⟩ := run_cons e2
        rw [h1] at j1
        cases j1
        exact .inl ⟨pre, op', d', post, s2, rs3, rfl, j2, e3, e4⟩
    simp only [List.map_cons, List.foldl_cons]
    by_cases hw : ∃ o ∈ ops.map (·.1), SetsKey k o
    · rw [fold_sets _ s1.found (op.apply s.found) hw]
      refine or_congr_right ⟨hlater, fun hb => (hsplit hb).elim id fun hb => ?_⟩
      obtain ⟨o, ho, hw⟩ := hw
      exact absurd hw (hb.2 o ho)
    · push Not at hw
      rw [fold_same _ _ hw, fold_same _ _ hw, hg]
      constructor
      · rintro ((h | h) | h)
        · exact .inl h
        · exact .inr ⟨[], op, d, ops, s, [], rfl, rfl, h, hw⟩
        · exact .inr (hlater h)
      · rintro (h | h)
        · exact .inl (.inl h)
        · rcases hsplit h with h | h
          · exact .inr h
          · exact .inl (.inr h.1)

omit [DecidableEq V] in
theorem mem_items_iff {s : Store (kind c p)} (hU : Uniq s.cur) (hm : s.mem = []) (k : K) (y : V) :
    (k, y) ∈ s.items ↔ s.found k = some y := by
  have hg := mergeRuns_merged ((lawsU c p).runs_sorted (m := s.cur) hU)
  have hin : ∀ e, In ((kind c p).runs s.cur) e ↔ Ver s.cur e.1 e.2 := fun e => (lawsU c p).runs_in (m := s.cur) hU e
  have hf : s.found k = (SizeTiered.get s.cur k).bind (·.data) := by
    unfold found; rw [hm]; rfl
  have hnew : ∀ w, (k, w) ∈ mergeRuns ((kind c p).runs s.cur) ↔ Leveled.IsNewest s.cur k w := by
    intro w
    constructor
    · intro h
      have hv := (hin _).1 (hg.sub _ h)
      refine ⟨hv, fun v' hv' => ?_⟩
      have := hg.newest _ h (k, v') ((hin _).2 hv') rfl
      rcases Nat.lt_or_eq_of_le this with h1 | h1
      · exact .inl h1
      · exact .inr (hU.uniq k v' w hv' hv h1)
    · rintro ⟨h1, h2⟩
      obtain ⟨⟨k', w'⟩, h3, h4⟩ := hg.all (k, w) ((hin _).2 h1)
      simp only at h4
      subst h4
      have := hg.newest _ h3 (k', w) ((hin _).2 h1) rfl
      simp only at this
      rcases h2 w' ((hin _).1 (hg.sub _ h3)) with h5 | h5
      · omega
      · rw [← h5]; exact h3
  rw [hf, Option.bind_eq_some_iff]
  unfold items
  rw [mem_live]
  exact exists_congr fun w => and_congr_left fun _ => (hnew w).trans (get_iff hU).symm

omit [DecidableEq V] in
/-- The reading calls answer according to what is found in the state after the call. -/
theorem answer_found {s : Store (kind c p)} {g : Ghost K V} {op : KvOp K V} {r : KvRes K V}
    (h : Store.Inv (lawsU c p) c s g) (hop : op.Reads) (ha : Store.Answer s op r) : op.Answer s.found r := by
  have hlist : s.mem = [] → Lists s.found s.items := fun hm =>
    ⟨live_sorted (mergeRuns_merged ((lawsU c p).runs_sorted (m := s.cur) h.inv)).sorted, mem_items_iff h.inv hm⟩
  cases op with
  | get k => exact ha
  | containsKey k => exact ha
  | len => exact ⟨s.items, hlist ha.1, ha.2⟩
  | iter => exact ⟨s.items, hlist ha.1, ha.2⟩
  | hold => exact ⟨s.items, hlist ha.1, ha.2⟩
  | isEmpty =>
    have hl := hlist ha.1
    refine ⟨_, ha.2, ?_⟩
    rw [beq_iff_eq, List.length_eq_zero_iff]
    constructor
    · intro he k
      cases hk : s.found k with
      | none => rfl
      | some y => have := (hl.2 k y).2 hk; rw [he] at this; simp at this
    · intro hk
      cases hi : s.items with
      | nil => rfl
      | cons a l =>
        have := (hl.2 a.1 a.2).1 (by rw [hi]; simp)
        rw [hk] at this; simp at this
  | _ => exact absurd hop (by simp [KvOp.Reads])

end

/-- In the history `ops` of a new map with the size-tiered strategy, some call brought back the value `v` of `k`, and no
later call wrote `k`. -/
def BroughtBack [DecidableEq V] (c : Cfg K V) (p : SizeTiered.Params) (ops : List (KvOp K V × Nat)) (k : K) (v : V) : Prop :=
  BackFrom (c := c) (p := p) (new _) ops k v

/-- C35, C37 exactly: with the size-tiered strategy, `get`, `contains_key`, `iter`, `len` and `is_empty` answer
according to the map in which every key has its latest value, except that a removed key has a value when a compaction
brought it back and it was not written since. -/
theorem C35_exact [DecidableEq V] (c : Cfg K V) (p : SizeTiered.Params) (ops : List (KvOp K V × Nat))
    {s s' : Store (SizeTiered.kind c p)} {rs : List (KvRes K V)} (hr : run c (new (SizeTiered.kind c p)) ops = some (s, rs))
    {op : KvOp K V} (hop : op.Reads) {d : Nat} {r : KvRes K V} (hs : s.step c op d = some (s', r)) :
    ∃ F : K → Option V, op.Answer F r ∧ ∀ k v, F k = some v ↔
      contents (ops.map (·.1)) k = some v ∨
      (contents (ops.map (·.1)) k = none ∧ BroughtBack c p (ops ++ [(op, d)]) k v) := by
  have hg := goodRun_true (kd := SizeTiered.kind c p) (good := (SizeTiered.lawsU c p).good) (c := c) (fun _ => trivial) ops (new _)
  obtain ⟨W', k1, k2, k3, k4⟩ := inv_reach_step (L := SizeTiered.lawsU c p) hg hr (fun _ _ => trivial) hs
  have hrun : run c (new (SizeTiered.kind c p)) (ops ++ [(op, d)]) = some (s', rs ++ [r]) := by
    exact run_then ops hr hs
  have hb : (new (SizeTiered.kind c p)).found = fun _ => none := rfl
  have hF := found_run (ops ++ [(op, d)]) (inv_new (SizeTiered.lawsU c p) c) hand_new hrun
  have hc : ((ops ++ [(op, d)]).map (·.1)).foldl KvOp.apply (new (SizeTiered.kind c p)).found = contents (ops.map (·.1)) := by
    rw [hb]
    show contents _ = _
    unfold contents
    rw [List.map_append, List.foldl_append]
    exact apply_reads hop _
  rw [hc] at hF
  refine ⟨s'.found, answer_found k1 hop k4, fun k v => ?_⟩
  rw [hF k v]
  have hweak := (get_weak k1 k).1
  constructor
  · rintro (h | h)
    · exact .inl h
    · cases hk : contents (ops.map (·.1)) k with
      | none => exact .inr ⟨rfl, h⟩
      | some u =>
        have h1 := (hF k v).2 (.inr h)
        have h2 := hweak u (by rw [show (ghost (ops.map (·.1) ++ [op]) W').W = W' from rfl, k3, apply_reads hop]; exact hk)
        rw [h1] at h2
        cases h2
        exact .inl rfl
  · rintro (h | h)
    · exact .inl h
    · exact .inr h.2

/-- C35 exactly, for `get`: it returns `v` if and only if `v` is the latest value of a live key, or the key is removed
and `v` was brought back. -/
theorem C35_get_exact [DecidableEq V] (c : Cfg K V) (p : SizeTiered.Params) (ops : List (KvOp K V × Nat))
    {s : Store (SizeTiered.kind c p)} {rs : List (KvRes K V)} (hr : run c (new (SizeTiered.kind c p)) ops = some (s, rs))
    (k : K) (d : Nat) : ∃ s' o, s.step c (.get k) d = some (s', .val o) ∧ ∀ v, o = some v ↔
      contents (ops.map (·.1)) k = some v ∨
      (contents (ops.map (·.1)) k = none ∧ BroughtBack c p (ops ++ [(.get k, d)]) k v) := by
  obtain ⟨s', o, h1, -⟩ := C35_get_partial c p ops hr k d
  obtain ⟨F, h2, h3⟩ := C35_exact c p ops hr (op := .get k) trivial h1
  have : o = F k := by simpa [KvOp.Answer] using h2
  exact ⟨s', o, h1, fun v => by rw [this]; exact h3 k v⟩

/-- The history of `C35_violated`. -/
def Example.back : List (KvOp Nat Nat × Nat) :=
  [(.insert 1 100, 0), (.flush, 0),
    (.remove 1, 0), (.insert 7 7, 0), (.insert 8 8, 0), (.insert 10 10, 0), (.insert 11 11, 0), (.insert 12 12, 0), (.flush, 0),
    (.insert 20 1, 0), (.insert 21 1, 0), (.insert 22 1, 0), (.insert 23 1, 0), (.insert 24 1, 0), (.flush, 0),
    (.remove 9, 0), (.flush, 0),
    (.remove 40, 0), (.remove 41, 0), (.remove 42, 0), (.remove 43, 0), (.remove 44, 0), (.remove 45, 0), (.flush, 0)]

/-- In that history key 1 is brought back with the value 100, and key 9, which is removed too, is not brought back. -/
example : BroughtBack Example.cfg Example.tiered (Example.back ++ [(.get 1, 0)]) 1 100 ∧
    ∀ v, ¬ BroughtBack Example.cfg Example.tiered (Example.back ++ [(.get 9, 0)]) 9 v := by
  have hd : (run Example.cfg (new (SizeTiered.kind Example.cfg Example.tiered)) Example.back).bind (fun x =>
      (x.1.step Example.cfg (.get 1) 0).bind fun y => (x.1.step Example.cfg (.get 9) 0).map fun z => (y.2, z.2)) =
      some (.val (some 100), .val none) := by decide +kernel
  have h1 : contents (Example.back.map (·.1)) 1 = none := by decide +kernel
  have h9 : contents (Example.back.map (·.1)) 9 = none := by decide +kernel
  simp only [Option.bind_eq_some_iff, Option.map_eq_some_iff, Prod.mk.injEq] at hd
  obtain ⟨⟨s, rs⟩, hr, ⟨s1, r1⟩, e1, ⟨s9, r9⟩, e9, rfl, rfl⟩ := hd
  obtain ⟨s', o, a1, a2⟩ := C35_get_exact _ _ _ hr 1 0
  obtain ⟨s'', o', b1, b2⟩ := C35_get_exact _ _ _ hr 9 0
  rw [a1] at e1
  rw [b1] at e9
  cases e1
  cases e9
  refine ⟨?_, fun v hv => ?_⟩
  · rcases (a2 100).1 rfl with h | h
    · rw [h1] at h; cases h
    · exact h.2
  · have := (b2 v).2 (.inr ⟨h9, hv⟩)
    cases this

end Verif.Lsm
