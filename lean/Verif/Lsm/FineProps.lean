/-
C59: the LSM map with its compaction thread interleaved step by step (Verif/Lsm/Fine.lean).
-/
import Verif.Lsm.FineInv
import Verif.Lsm.Props

namespace Verif.Lsm

open Verif Verif.Spec Store

variable {K V : Type} [LinearOrder K] [DecidableEq V]

namespace Conf

variable {kd : Kind K V} {x : Bool} {inp : kd.Job → List (Table K V)} {tot : Prop}

/-- Something was written. -/
def Wrote (ops : List (KvOp K V)) : Prop := ∃ o ∈ ops, (∃ k v, o = .insert k v) ∨ ∃ k, o = .remove k

/-- What holds in every reached state. -/
structure CInv (L : Laws kd x) (c : Cfg K V) (inp : kd.Job → List (Table K V)) (tot : Prop) (y : Conf kd) : Prop where
  log : ∀ i op r, y.log[i]? = some (op, r) → ∃ s W n, Hist L c s ((y.log.map (·.1)).take (i + 1)) W n ∧ Answer s op r
  idle : y.run = none → ∃ W n, Hist L c y.a.s (y.log.map (·.1)) W n ∧ y.a.Good L c (ghost (y.log.map (·.1)) W) ∧
    (Wrote (y.log.map (·.1)) → y.a.s.clock ≠ 0)
  busy : ∀ op p, y.run = some (op, p) → ∃ W n s, Hist L c s (y.log.map (·.1)) W n ∧
    Prog.wp (Fine.thread inp) (Fine.Fed inp) tot p (Fine.Post L c (ghost (y.log.map (·.1)) W) s op) y.a ∧
    (Wrote (y.log.map (·.1)) → s.clock ≠ 0)


theorem cinv_init (L : Laws kd x) (c : Cfg K V) : CInv L c inp tot (init kd) := by
  refine ⟨by simp [init], fun _ => ⟨fun _ => none, 0, hist_new L c, ⟨(hist_new L c).inv, by simp [init]⟩, ?_⟩, by simp [init]⟩
  rintro ⟨o, ho, _⟩
  simp [init] at ho

/-- Every step of either thread preserves the invariant. -/
theorem cinv_step {L : Laws kd x} {c : Cfg K V} (hi : ∀ {S j}, kd.plan S = some j → ∀ t ∈ inp j, t ∈ kd.tabs S)
    (hL : tot → L.Total) (hg : ∀ l, L.good l) {y z : Conf kd} (h : CInv L c inp tot y) (hs : Step c inp y z) :
    CInv L c inp tot z := by
  cases hs with
  | thread a log run =>
    refine ⟨h.log, fun hr => ?_, fun op p hr => ?_⟩
    · obtain ⟨W, n, h1, h2, h3⟩ := h.idle hr
      obtain ⟨f1, f2⟩ := Fine.thread_fr (inp := inp) a
      have h2' := h2.thread hi
      refine ⟨W, n, ⟨h2'.inv, Fine.hand_thread h1.hand, ?_, h1.le, h1.base, h1.settled⟩, h2', fun hw => ?_⟩
      · rw [← h1.look]; simp only; rw [f1.mem]
      · simp only; rw [f1.clock]; exact h3 hw
    · obtain ⟨W, n, s, h1, h2, h3⟩ := h.busy op p hr
      exact ⟨W, n, s, h1, Prog.wp_th h2, h3⟩
  | main hm =>
    cases hm with
    | call a log op hop =>
      obtain ⟨W, n, h1, h2, h3⟩ := h.idle rfl
      refine ⟨h.log, by simp, fun op' p hr => ?_⟩
      simp only [Option.some.injEq, Prod.mk.injEq] at hr
      obtain ⟨rfl, rfl⟩ := hr
      refine ⟨W, n, a.s, h1, Fine.wp_prog hi hL hg h2 h1.hand _ fun he => h3 ?_, h3⟩
      obtain ⟨q, hq, hw⟩ := hop he
      exact ⟨q.1, List.mem_map.2 ⟨q, hq, rfl⟩, hw⟩
    | act a a' log op f k hf =>
      refine ⟨h.log, by simp, fun op' p hr => ?_⟩
      simp only [Option.some.injEq, Prod.mk.injEq] at hr
      obtain ⟨rfl, rfl⟩ := hr
      obtain ⟨W, n, s, h1, h2, h3⟩ := h.busy _ _ rfl
      obtain ⟨_, a2, hf2, hw⟩ := h2 0
      simp only [Function.iterate_zero, id] at hf2 hw
      rw [hf] at hf2
      simp only [Option.some.injEq] at hf2
      subst hf2
      exact ⟨W, n, s, h1, hw, h3⟩
    | await a log op b k hb =>
      refine ⟨h.log, by simp, fun op' p hr => ?_⟩
      simp only [Option.some.injEq, Prod.mk.injEq] at hr
      obtain ⟨rfl, rfl⟩ := hr
      obtain ⟨W, n, s, h1, h2, h3⟩ := h.busy _ _ rfl
      exact ⟨W, n, s, h1, (h2.2 0).2 hb, h3⟩
    | ret a log op r =>
      obtain ⟨W, n, s, h1, h2, h3⟩ := h.busy _ _ rfl
      obtain ⟨_, W', k1, k2, k3, k4, k5, k6, k7⟩ := h2 0
      simp only [Function.iterate_zero, id] at k1 k2 k3 k4 k5 k6 k7
      obtain ⟨n', hn⟩ := hist_post h1 k1.inv k2 k3 k6
      have hmap : (log ++ [(op, r)]).map (·.1) = log.map (·.1) ++ [op] := by simp
      refine ⟨fun i op' r' hl => ?_, fun _ => ⟨W', n', ?_, ⟨?_, k1.out⟩, ?_⟩, by simp⟩
      · by_cases hlt : i < log.length
        · simp only at hl
          rw [List.getElem?_append_left hlt] at hl
          obtain ⟨s', W2, n2, j1, j2⟩ := h.log i op' r' hl
          refine ⟨s', W2, n2, ?_, j2⟩
          simp only
          rw [hmap, List.take_append_of_le_length (by simp; omega)]
          exact j1
        · simp only at hl
          rw [List.getElem?_append_right (by omega), List.getElem?_singleton] at hl
          split at hl
          · rename_i h0
            simp only [Option.some.injEq, Prod.mk.injEq] at hl
            obtain ⟨rfl, rfl⟩ := hl
            refine ⟨a.s, W', n', ?_, k4⟩
            simp only
            rw [hmap, List.take_of_length_le (by simp; omega)]
            exact hn
          · simp at hl
      · simp only; rw [hmap]; exact hn
      · simp only; rw [hmap]; exact hn.inv
      · simp only
        rw [hmap]
        rintro ⟨o, ho, hw⟩
        rcases List.mem_append.1 ho with ho | ho
        · have h4 : s.clock ≠ 0 := h3 ⟨o, ho, hw⟩
          omega
        · simp only [List.mem_singleton] at ho
          subst ho
          exact k7 hw

theorem cinv_reach {L : Laws kd x} {c : Cfg K V} (hi : ∀ {S j}, kd.plan S = some j → ∀ t ∈ inp j, t ∈ kd.tabs S)
    (hL : tot → L.Total) (hg : ∀ l, L.good l) {y : Conf kd} (h : Reach c inp y) : CInv L c inp tot y := by
  induction h with
  | init => exact cinv_init L c
  | step _ hs ih => exact cinv_step hi hL hg ih hs

/-- The calling thread waits for the other one. -/
def Waits (y : Conf kd) : Prop := ∃ op b k, y.run = some (op, .await b k)

/-- At every moment the compaction thread has what it reads, and the calling thread waits or can go on. -/
theorem safe_reach {L : Laws kd x} {c : Cfg K V} (hi : ∀ {S j}, kd.plan S = some j → ∀ t ∈ inp j, t ∈ kd.tabs S)
    (hg : ∀ l, L.good l) {y : Conf kd} (h : Reach c inp y) : y.a.Fed inp ∧ (y.Waits ∨ ∃ z, Main c y z) := by
  have hc : CInv L c inp False y := cinv_reach hi (fun h => h.elim) hg h
  rcases y with ⟨a, log, _ | ⟨op, p⟩⟩
  · obtain ⟨W, n, _, h2, _⟩ := hc.idle rfl
    exact ⟨h2.fed hi, .inr ⟨_, .call a log .release (by simp)⟩⟩
  · obtain ⟨W, n, s, h1, h2, _⟩ := hc.busy _ _ rfl
    refine ⟨Prog.wp_R h2, ?_⟩
    cases p with
    | ret r => exact .inr ⟨_, .ret a log op r⟩
    | act f k =>
      obtain ⟨_, a', h3, _⟩ := h2 0
      exact .inr ⟨_, .act a a' log op f k h3⟩
    | await b k => exact .inl ⟨op, b, k, rfl⟩

/-- The states reached from a state. -/
inductive Steps (c : Cfg K V) (inp : kd.Job → List (Table K V)) : Conf kd → Conf kd → Prop where
  | refl (y) : Steps c inp y y
  | head {y z w} : Step c inp y z → Steps c inp z w → Steps c inp y w

theorem Steps.threads {c : Cfg K V} {log : List (KvOp K V × KvRes K V)} {run : Option (KvOp K V × Fine.P kd)} {z : Conf kd}
    (n : Nat) : ∀ {a : Fine kd}, Steps c inp ⟨(Fine.thread inp)^[n] a, log, run⟩ z → Steps c inp ⟨a, log, run⟩ z := by
  induction n with
  | zero => intro a h; exact h
  | succ n ih =>
    intro a h
    rw [Function.iterate_succ_apply] at h
    exact .head (.thread a log run) (ih h)

/-- A call can always be completed. -/
theorem returns_reach {L : Laws kd x} {c : Cfg K V} (hi : ∀ {S j}, kd.plan S = some j → ∀ t ∈ inp j, t ∈ kd.tabs S)
    (hL : L.Total) (hg : ∀ l, L.good l) {y : Conf kd} (h : Reach c inp y) : ∃ z, Steps c inp y z ∧ z.run = none := by
  have hc : CInv L c inp True y := cinv_reach hi (fun _ => hL) hg h
  rcases y with ⟨a, log, _ | ⟨op, p⟩⟩
  · exact ⟨_, .refl _, rfl⟩
  · obtain ⟨W, n, s, h1, h2, h0⟩ := hc.busy _ _ rfl
    clear hc h h1 h0
    generalize Fine.Post L c (ghost (List.map (fun q => q.1) log) W) s op = Q at h2
    induction p generalizing a with
    | ret r => exact ⟨_, .head (.main (.ret a log op r)) (.refl _), rfl⟩
    | act f k ih =>
      obtain ⟨_, a', h3, h4⟩ := h2 0
      obtain ⟨z, h5, h6⟩ := ih a a' a' h4
      exact ⟨z, .head (.main (.act a a' log op f k h3)) h5, h6⟩
    | await b k ih =>
      obtain ⟨m, hm⟩ := h2.1 trivial 0
      have h4 := (h2.2 m).2 hm
      obtain ⟨z, h5, h6⟩ := ih _ h4
      exact ⟨z, Steps.threads m (.head (.main (.await _ log op b k hm)) h5), h6⟩

/-- The answers of the calls that have returned. -/
theorem log_reach {L : Laws kd x} {c : Cfg K V} (hi : ∀ {S j}, kd.plan S = some j → ∀ t ∈ inp j, t ∈ kd.tabs S)
    (hg : ∀ l, L.good l) {y : Conf kd} (h : Reach c inp y) {i : Nat} {op : KvOp K V} {r : KvRes K V}
    (hl : y.log[i]? = some (op, r)) : ∃ s W n, Hist L c s ((y.log.map (·.1)).take i ++ [op]) W n ∧ Answer s op r := by
  obtain ⟨s, W, n, h1, h2⟩ := (cinv_reach (tot := False) (L := L) hi (fun h => h.elim) hg h).log i op r hl
  refine ⟨s, W, n, ?_, h2⟩
  have : (y.log.map (·.1)).take (i + 1) = (y.log.map (·.1)).take i ++ [op] := by
    rw [List.take_succ, List.getElem?_map, hl]; rfl
  rw [← this]; exact h1

/-! ### Running a schedule -/

/-- A step of a schedule: a call, a step of the calling thread, or one of the compaction thread. -/
inductive Move (K V : Type) where
  | call (op : KvOp K V)
  | main
  | thread

/-- Run a schedule. -/
def drive (c : Cfg K V) (inp : kd.Job → List (Table K V)) : List (Move K V) → Conf kd → Option (Conf kd)
  | [], y => some y
  | .thread :: l, y => drive c inp l { y with a := y.a.thread inp }
  | .call op :: l, ⟨a, log, none⟩ =>
    if op = .reopen then none else drive c inp l ⟨a, log, some (op, Fine.prog c op)⟩
  | .call _ :: _, ⟨_, _, some _⟩ => none
  | .main :: _, ⟨_, _, none⟩ => none
  | .main :: l, ⟨a, log, some (op, .ret r)⟩ => drive c inp l ⟨a, log ++ [(op, r)], none⟩
  | .main :: l, ⟨a, log, some (op, .act f k)⟩ =>
    match f a with
    | none => none
    | some a' => drive c inp l ⟨a', log, some (op, k a a')⟩
  | .main :: l, ⟨a, log, some (op, .await b k)⟩ => if b a then drive c inp l ⟨a, log, some (op, k)⟩ else none

theorem drive_reach {c : Cfg K V} : ∀ (l : List (Move K V)) {y z : Conf kd}, Reach c inp y → drive c inp l y = some z →
    Reach c inp z
  | [], y, z, h, hd => by simp only [drive, Option.some.injEq] at hd; subst hd; exact h
  | .thread :: l, y, z, h, hd => drive_reach l (.step h (.thread y.a y.log y.run)) hd
  | .call op :: l, ⟨a, log, none⟩, z, h, hd => by
    simp only [drive] at hd
    split at hd
    · simp at hd
    · rename_i hop
      exact drive_reach l (.step h (.main (.call a log op fun h => absurd h hop))) hd
  | .call _ :: _, ⟨_, _, some _⟩, z, h, hd => by simp [drive] at hd
  | .main :: _, ⟨_, _, none⟩, z, h, hd => by simp [drive] at hd
  | .main :: l, ⟨a, log, some (op, .ret r)⟩, z, h, hd => drive_reach l (.step h (.main (.ret a log op r))) hd
  | .main :: l, ⟨a, log, some (op, .act f k)⟩, z, h, hd => by
    simp only [drive] at hd
    cases hf : f a with
    | none => rw [hf] at hd; simp at hd
    | some a' =>
      rw [hf] at hd
      exact drive_reach l (.step h (.main (.act a a' log op f k hf))) hd
  | .main :: l, ⟨a, log, some (op, .await b k)⟩, z, h, hd => by
    simp only [drive] at hd
    split at hd
    · rename_i hb
      exact drive_reach l (.step h (.main (.await a log op b k hb))) hd
    · simp at hd

end Conf

/-- The tables that a compaction with `SizeTieredStrategy` reads (size_tiered.rs:99-101). -/
def SizeTiered.inputs (j : List (Table K V) × (Nat × Nat)) : List (Table K V) := (j.1.drop j.2.1).take (j.2.2 - j.2.1)

omit [LinearOrder K] [DecidableEq V] in
theorem SizeTiered.inputs_sub {p : SizeTiered.Params} {S : List (Table K V)} {j : List (Table K V) × (Nat × Nat)}
    (h : SizeTiered.plan p S = some j) : ∀ t ∈ SizeTiered.inputs j, t ∈ S := by
  unfold SizeTiered.plan at h
  simp only [Option.map_eq_some_iff] at h
  obtain ⟨r, _, rfl⟩ := h
  intro t ht
  have := List.mem_of_mem_drop (List.mem_of_mem_take ht)
  exact (SizeTiered.sortBySize_perm S).mem_iff.1 this

/-- The tables that a compaction with `LeveledStrategy` may read: all of its snapshot. -/
def Leveled.inputs (j : Leveled.Meta K V) : List (Table K V) := j.l0 ++ Leveled.tabsL j.levels

omit [LinearOrder K] [DecidableEq V] in
theorem Leveled.inputs_sub {p : Leveled.Params} {S j : Leveled.Meta K V}
    (h : Leveled.plan p S = some j) : ∀ t ∈ Leveled.inputs j, t ∈ S.l0 ++ Leveled.tabsL S.levels := by
  unfold Leveled.plan at h
  split at h
  · simp only [Option.some.injEq] at h; subst h; exact fun t h => h
  · simp at h

open Conf

/-! ### C59 with `LeveledStrategy` -/

/-- C59 with `LeveledStrategy`: however the steps of the two threads are interleaved, every reading call answers
according to the calls that returned before it. -/
theorem C59_leveled (c : Cfg K V) (p : Leveled.Params) {y : Conf (Leveled.kind c p)} (h : Reach c Leveled.inputs y)
    {i : Nat} {op : KvOp K V} {r : KvRes K V} (hl : y.log[i]? = some (op, r)) (hop : op.Reads ∨ op = .lenHint) :
    op.Answer (contents ((y.log.map (·.1)).take i)) r := by
  obtain ⟨s, W, n, h1, h2⟩ := log_reach (L := Leveled.laws c p) (fun h => Leveled.inputs_sub h) (fun _ => trivial) h hl
  have h3 := h1.look
  rw [contents_snoc] at h3
  rcases hop with hop | rfl
  · have h4 := answer_exact h1.inv hop h2
    rw [show look s.mem (ghost ((y.log.map (·.1)).take i ++ [op]) W).W = look s.mem W from rfl, h3] at h4
    simpa [apply_reads hop] using h4
  · have h4 := answer_lenHint h1.inv h2
    rw [show look s.mem (ghost ((y.log.map (·.1)).take i ++ [.lenHint]) W).W = look s.mem W from rfl, h3] at h4
    exact h4

/-- C59 with `LeveledStrategy`: at every moment every table that the running compaction reads is on the disk, as is
every table it has written, and the calling thread either waits for the compaction to end or can take its next step:
no call finds a directory missing. -/
theorem C59_leveled_safe (c : Cfg K V) (p : Leveled.Params) {y : Conf (Leveled.kind c p)} (h : Reach c Leveled.inputs y) :
    y.a.Fed Leveled.inputs ∧ (y.Waits ∨ ∃ z, Main c y z) :=
  safe_reach (L := Leveled.laws c p) (fun h => Leveled.inputs_sub h) (fun _ => trivial) h

/-- C59 with `LeveledStrategy` and positive counts: from every moment on, the running call can be brought to its end. -/
theorem C59_leveled_returns (c : Cfg K V) (p : Leveled.Params) (h1 : 1 ≤ p.initCount) (h2 : 1 ≤ p.growth)
    {y : Conf (Leveled.kind c p)} (h : Reach c Leveled.inputs y) : ∃ z, Steps c Leveled.inputs y z ∧ z.run = none :=
  returns_reach (fun h => Leveled.inputs_sub h) (Leveled.laws_total c p h1 h2) (fun _ => trivial) h

/-! ### C59 with `SizeTieredStrategy` -/

/-- C59 with `SizeTieredStrategy`: however the steps of the two threads are interleaved, `get` yields the value of a live
key and otherwise nothing or a value that was once inserted for that key.  Missing: with this strategy a removed key may
come back (`C35_violated`). -/
theorem C59_sizeTiered_get_partial (c : Cfg K V) (p : SizeTiered.Params) {y : Conf (SizeTiered.kind c p)}
    (h : Reach c SizeTiered.inputs y) {i : Nat} {k : K} {r : KvRes K V} (hl : y.log[i]? = some (.get k, r)) :
    ∃ o, r = .val o ∧ (∀ v, contents ((y.log.map (·.1)).take i) k = some v → o = some v) ∧
      ∀ v, o = some v → .insert k v ∈ (y.log.map (·.1)).take i := by
  obtain ⟨s, W, n, h1, h2⟩ := log_reach (L := SizeTiered.laws c p) (fun h => SizeTiered.inputs_sub h) (fun _ => trivial) h hl
  have h3 := h1.look
  rw [contents_snoc] at h3
  obtain ⟨a1, a2⟩ := get_weak h1.inv k
  refine ⟨_, h2, fun v hv => a1 v ((congrFun h3 k).trans hv), fun v hv => ?_⟩
  have := a2 v hv
  simpa [ghost] using this

/-- C59 with `SizeTieredStrategy`: `iter` yields the live pairs, in ascending order, and otherwise only pairs that were
once inserted.  Missing: removed keys that come back (`C35_violated`). -/
theorem C59_sizeTiered_iter_partial (c : Cfg K V) (p : SizeTiered.Params) {y : Conf (SizeTiered.kind c p)}
    (h : Reach c SizeTiered.inputs y) {i : Nat} {r : KvRes K V} (hl : y.log[i]? = some (.iter, r)) :
    ∃ l, r = .list l ∧ l.Pairwise (fun a b => a.1 < b.1) ∧
      (∀ k v, contents ((y.log.map (·.1)).take i) k = some v → (k, v) ∈ l) ∧
      ∀ k v, (k, v) ∈ l → .insert k v ∈ (y.log.map (·.1)).take i := by
  obtain ⟨s, W, n, h1, h2⟩ := log_reach (L := SizeTiered.laws c p) (fun h => SizeTiered.inputs_sub h) (fun _ => trivial) h hl
  have h3 := h1.look
  rw [contents_snoc] at h3
  obtain ⟨a1, a2, a3⟩ := items_weak h1.inv h2.1
  refine ⟨_, h2.2, a1, fun k v hv => a2 k v ((congrFun h3 k).trans hv), fun k v hv => ?_⟩
  have := a3 k v hv
  simpa [ghost] using this

/-- C59 with `SizeTieredStrategy`: at every moment every table that the running compaction reads is on the disk, as is
every table it has written, and the calling thread either waits for the compaction to end or can take its next step:
no call finds a directory missing. -/
theorem C59_sizeTiered_safe (c : Cfg K V) (p : SizeTiered.Params) {y : Conf (SizeTiered.kind c p)}
    (h : Reach c SizeTiered.inputs y) : y.a.Fed SizeTiered.inputs ∧ (y.Waits ∨ ∃ z, Main c y z) :=
  safe_reach (L := SizeTiered.laws c p) (fun h => SizeTiered.inputs_sub h) (fun _ => trivial) h

/-- C59 with `SizeTieredStrategy`: from every moment on, the running call can be brought to its end. -/
theorem C59_sizeTiered_returns (c : Cfg K V) (p : SizeTiered.Params) {y : Conf (SizeTiered.kind c p)}
    (h : Reach c SizeTiered.inputs y) : ∃ z, Steps c SizeTiered.inputs y z ∧ z.run = none :=
  returns_reach (fun h => SizeTiered.inputs_sub h) (SizeTiered.laws_total c p) (fun _ => trivial) h

/-! ### Interleavings that are reached -/

namespace Example

/-- A call and `n` steps of the calling thread. -/
def whole (op : KvOp Nat Nat) (n : Nat) : List (Move Nat Nat) := .call op :: List.replicate n .main

/-- Six writes; two tables have been written. -/
def six : List (Move Nat Nat) := whole (.insert 1 10) 3 ++ whole (.insert 2 20) 3 ++ whole (.insert 3 30) 8 ++
  whole (.remove 2) 3 ++ whole (.insert 4 40) 3 ++ whole (.insert 1 11) 8

/-- Three more writes. -/
def nine : List (Move Nat Nat) := six ++ whole (.insert 2 22) 3 ++ whole (.remove 3) 3 ++ whole (.insert 4 5) 8

/-- A `get` during which the compaction begins, and an insertion during which the compaction writes a table. -/
def mixed : List (Move Nat Nat) :=
  [.call (.get 3), .main, .thread, .main, .main, .main, .call (.insert 5 5), .thread, .main]

/-- The insertion ends; `flush` writes the memory out and waits; the compaction ends; `flush` takes over its result; then
a `get`. -/
def rest (n : Nat) : List (Move Nat Nat) := [.main, .main, .call .flush, .main, .main, .main, .thread, .thread] ++
  List.replicate n .main ++ whole (.get 2) 4

/-- A schedule that is possible leads to a state that is reached. -/
theorem driven {kd : Kind Nat Nat} {c : Cfg Nat Nat} {inp : kd.Job → List (Table Nat Nat)} (l : List (Move Nat Nat))
    {q : Conf kd → Bool} (h : (drive c inp l (init kd)).any q = true) : ∃ y, Reach c inp y ∧ q y = true := by
  cases hd : drive c inp l (init kd) with
  | none => rw [hd] at h; simp at h
  | some y => rw [hd] at h; exact ⟨y, drive_reach l .init hd, h⟩

end Example

/-- A state as in `C59_leveled_safe`: an insertion is running, and the compaction has written its table 2 but has not
published it. -/
example : ∃ y : Conf (Leveled.kind Example.small Example.leveled), Reach Example.small Leveled.inputs y ∧
    (y.run.isSome && y.a.s.job.isSome && decide (y.a.out.map (fun o => o.2.1.map (·.id)) = some [2]) &&
      decide (y.log[6]? = some (.get 3, .val (some 30)))) = true :=
  Example.driven (Example.six ++ Example.mixed) (by decide +kernel)

/-- Later the tables 0 and 1 are gone, and `get` reads the ones that remain: a log as in `C59_leveled`. -/
example : ∃ y : Conf (Leveled.kind Example.small Example.leveled), Reach Example.small Leveled.inputs y ∧
    (decide (y.log[9]? = some (.get 2, .val none)) && decide (y.a.s.disk.dirs.map (·.id) = [2, 3])) = true :=
  Example.driven (Example.six ++ Example.mixed ++ Example.rest 11) (by decide +kernel)

/-- The same with `SizeTieredStrategy`, for `C59_sizeTiered_safe` … -/
example : ∃ y : Conf (SizeTiered.kind Example.small Example.tiered), Reach Example.small SizeTiered.inputs y ∧
    (y.run.isSome && y.a.s.job.isSome && decide (y.a.out.map (fun o => o.2.1.map (·.id)) = some [3]) &&
      decide (y.log[9]? = some (.get 3, .val none))) = true :=
  Example.driven (Example.nine ++ Example.mixed) (by decide +kernel)

/-- … and for `C59_sizeTiered_get_partial` and `C59_sizeTiered_iter_partial`. -/
example : ∃ y : Conf (SizeTiered.kind Example.small Example.tiered), Reach Example.small SizeTiered.inputs y ∧
    (decide (y.log[12]? = some (.get 2, .val (some 22))) && decide (y.log[13]? = some (.iter, .list [(1, 11), (2, 22), (4, 5), (5, 5)]))
      && decide (y.a.s.disk.dirs.map (·.id) = [3, 4])) = true :=
  Example.driven (Example.nine ++ Example.mixed ++ Example.rest 12 ++ Example.whole .iter 5) (by decide +kernel)

end Verif.Lsm
