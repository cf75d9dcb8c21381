/-
C70: I/O errors in the LSM map.  The specification is Verif/Spec/KvFault.lean; the failing calls are modelled in
Verif/Lsm/Faults.lean.
-/
import Verif.Lsm.Faults
import Verif.Lsm.Props
import Mathlib.Data.List.Induction

namespace Verif.Lsm

open Verif Verif.Spec Store

variable {K V : Type} [LinearOrder K] [DecidableEq V]

/-! ### What the specification says -/

omit [LinearOrder K] [DecidableEq V] in
theorem told_no_loss [DecidableEq K] {es : List (Ev K V)} {now saved : K → Option V} (h : Told es now saved)
    (hl : ∀ e ∈ es, ¬ e.Lossy) : now = effects es := by
  induction h with
  | nil => rfl
  | keep h1 h2 h3 ih => rw [ih fun e he => hl e (List.mem_append_left _ he)]; simp [effects]
  | save h1 h2 ih => rw [ih fun e he => hl e (List.mem_append_left _ he)]; simp [effects]
  | lose h1 h2 ih => exact absurd h2 (hl _ (by simp))

/-- The event concerns the key. -/
def Touches (k : K) (e : Ev K V) : Prop :=
  e.call? = some .clear ∨ e.call? = some (.remove k) ∨ ∃ v, e.call? = some (.insert k v)

omit [DecidableEq V] in
theorem apply_untouched {k : K} {e : Ev K V} (h : ¬ Touches k e) (m : K → Option V) : e.apply m k = m k := by
  have key : ∀ op : KvOp K V, e.call? = some op → op.apply m k = m k := by
    intro op hop
    unfold Touches at h
    rw [hop] at h
    cases op with
    | insert a v =>
      have : k ≠ a := by rintro rfl; exact h (.inr (.inr ⟨v, rfl⟩))
      simp [KvOp.apply, this]
    | remove a =>
      have : k ≠ a := by rintro rfl; exact h (.inr (.inl rfl))
      simp [KvOp.apply, this]
    | clear => exact absurd (.inl rfl) h
    | _ => rfl
  cases e with
  | done op d r => exact key op rfl
  | failed op d f => cases f <;> first | rfl | exact key op rfl
  | died => rfl

omit [DecidableEq V] in
/-- After a call that wrote out memory, events that do not concern a key do not change what is kept of it. -/
theorem told_flushed {pre post : List (Ev K V)} {e : Ev K V} {k : K} (he : e.Settled)
    (hp : ∀ e' ∈ post, ¬ Touches k e') : ∀ {es now saved}, Told es now saved → es = pre ++ e :: post →
    ∃ m s, Told (pre ++ [e]) m s ∧ now k = m k ∧ saved k = m k := by
  induction post using List.reverseRecOn with
  | nil =>
    intro es now saved h hes
    subst hes
    generalize hl : pre ++ [e] = es at *
    cases h with
    | nil => simp at hl
    | keep h1 h2 h3 =>
      obtain ⟨_, hl⟩ := List.append_inj' hl rfl
      simp only [List.cons.injEq, and_true] at hl
      exact absurd (hl ▸ he) h3
    | save h1 h2 => exact ⟨_, _, .save h1 h2, rfl, rfl⟩
    | lose h1 h2 =>
      obtain ⟨_, hl⟩ := List.append_inj' hl rfl
      simp only [List.cons.injEq, and_true] at hl
      subst hl
      cases e with
      | done op d r => exact absurd h2 (by simp [Ev.Lossy])
      | failed op d f => exact absurd he (by simp [Ev.Settled])
      | died => exact absurd he (by simp [Ev.Settled])
  | append_singleton post e' ih =>
    intro es now saved h hes
    have hes' : es = (pre ++ e :: post) ++ [e'] := by rw [hes]; simp
    have ht := hp e' (by simp)
    have ih' := fun {es now saved} => ih (fun a ha => hp a (by simp [ha])) (es := es) (now := now) (saved := saved)
    cases h with
    | nil => simp at hes'
    | keep h1 h2 h3 =>
      obtain ⟨rfl, hl⟩ := List.append_inj' hes' rfl
      simp only [List.cons.injEq, and_true] at hl; subst hl
      obtain ⟨m, s, a1, a2, a3⟩ := ih' h1 rfl
      exact ⟨m, s, a1, (apply_untouched ht _).trans a2, a3⟩
    | save h1 h2 =>
      obtain ⟨rfl, hl⟩ := List.append_inj' hes' rfl
      simp only [List.cons.injEq, and_true] at hl; subst hl
      obtain ⟨m, s, a1, a2, a3⟩ := ih' h1 rfl
      exact ⟨m, s, a1, (apply_untouched ht _).trans a2, (apply_untouched ht _).trans a2⟩
    | lose h1 h2 =>
      obtain ⟨rfl, hl⟩ := List.append_inj' hes' rfl
      simp only [List.cons.injEq, and_true] at hl; subst hl
      obtain ⟨m, s, a1, a2, a3⟩ := ih' h1 rfl
      exact ⟨m, s, a1, a3, a3⟩

/-! ### Every history -/

/-- No event of the history opens the directory again. -/
def Stays (es : List (Ev K V)) : Prop := ∀ e ∈ es, ∀ d r, e ≠ .done .reopen d r

theorem core_runs {kd : Kind K V} {x : Bool} {L : Laws kd x} (hL : ∀ l, L.good l) {c : Cfg K V} (es : List (Ev K V)) :
    ∀ {s : Store kd}, Stays es → Runs c (new kd) es s →
    ∃ W, Core L c s ⟨W, fun a y => some (.insert a y) ∈ es.map Ev.call?, True⟩ ∧ s.Hand ∧
      Told es (look s.mem W) (look [] W) := by
  induction es using List.reverseRecOn with
  | nil =>
    intro s _ hr
    simp only [Runs] at hr
    subst hr
    exact ⟨fun _ => none, Core.mono (inv_fix (inv_new L c)) rfl (fun _ _ h => absurd h (by simp)), hand_new, .nil⟩
  | append_singleton es e ih =>
    intro s hst hr
    obtain ⟨s1, h1, h2⟩ := runs_append.1 hr
    obtain ⟨W, k1, k2, k3⟩ := ih (fun e he => hst e (List.mem_append_left _ he)) h1
    cases e with
    | done op d r =>
      obtain ⟨s2, h3, rfl⟩ := h2
      obtain ⟨W', j1, j2, j3, j4, j5⟩ := core_step hL k1 k2 (by rintro rfl; exact hst _ (by simp) d r rfl) h3
      refine ⟨W', j1.mono rfl ?_, j2, ?_⟩
      · rintro a y (h | h)
        · rw [List.map_append]; exact List.mem_append_left _ h
        · rw [h]; simp [Ev.call?]
      · rw [j3]
        rcases j5 with j5 | ⟨rfl, j5⟩
        · rw [j5] at j3
          rw [j3]
          exact .save (e := .done op d r) k3 (by simp [Ev.Lossy])
        · exact .keep (e := .done op d r) k3 (by simp [Ev.Lossy]) j5
    | failed op d f =>
      obtain ⟨s2, h3, rfl⟩ := h2
      obtain ⟨W', j1, j2, j3⟩ := core_stepErr hL (core_work d k1) (hand_work d k2) h3
      rw [(work_frame d s1).1] at j3
      refine ⟨W', j1.mono rfl ?_, j2, ?_⟩
      · rintro a y (h | h)
        · rw [List.map_append]; exact List.mem_append_left _ h
        · rw [h]; simp [Ev.call?]
      · unfold Left at j3
        split at j3
        · rename_i hf
          subst hf
          obtain ⟨j4, rfl⟩ := j3
          rw [j4]
          exact .lose k3 trivial
        · rename_i hf
          have hl : ¬ (Ev.failed op d f : Ev K V).Lossy := by
            cases f <;> simp_all [Ev.Lossy]
          have ha : (if f = .clock then look s1.mem W else op.apply (look s1.mem W)) =
              (Ev.failed op d f : Ev K V).apply (look s1.mem W) := by
            cases f <;> simp [Ev.apply]
          obtain ⟨j3, j5⟩ := j3
          simp only at j3
          rw [ha] at j3
          rw [j3]
          rcases j5 with j5 | rfl
          · rw [j5] at j3; rw [j3]; exact .save k3 hl
          · exact .keep k3 hl (by simp [Ev.Settled])
    | died =>
      simp only [Runs] at h2
      subst h2
      refine ⟨W, (core_die k1).mono rfl ?_, fun hb => ⟨rfl, (k2 hb).2⟩, ?_⟩
      · intro a y h; rw [List.map_append]; exact List.mem_append_left _ h
      · exact .keep (e := .died) k3 (by simp [Ev.Lossy]) (by simp [Ev.Settled])

theorem core_get_returns {kd : Kind K V} {x : Bool} {L : Laws kd x} {c : Cfg K V} {s : Store kd} {g : Ghost K V}
    (h : Core L c s g) (k : K) (d : Nat) : ∃ s' o, s.step c (.get k) d = some (s', .val o) := by
  obtain ⟨s2, e2, _⟩ := core_tryReplace (core_work d h)
  simp only [step]
  cases SL.find k (work d s).mem with
  | some e => exact ⟨_, _, rfl⟩
  | none => simp only [e2]; exact ⟨_, _, rfl⟩

omit [DecidableEq V] in
theorem answer_fix {kd : Kind K V} {c : Cfg K V} {s : Store kd} {op : KvOp K V} {r : KvRes K V} (h : Answer s op r) :
    Answer (fix c s) op r := by
  cases op <;> exact h

/-! ### C70 -/

/-- C70 with `LeveledStrategy`: which writes are kept, in every history in which any calls fail at any place, and the
compaction thread fails at any time.  A failing call never changes what is stored beyond its own effect, except
when the entries in memory cannot be written to a new table: then the contents fall back to what they were at some
earlier time, not before the last call that wrote out memory.  `get` returns, and all reading calls that return
answer according to the contents. -/
theorem C70_exact_partial (c : Cfg K V) (p : Leveled.Params) (es : List (Ev K V)) (hst : Stays es)
    {s : Store (Leveled.kind c p)} (hr : Runs c (new (Leveled.kind c p)) es s) :
    ∃ now saved, Told es now saved ∧ (∀ k d, ∃ s', s.step c (.get k) d = some (s', .val (now k))) ∧
      ∀ op d s' r, op.Reads → s.step c op d = some (s', r) → op.Answer now r := by
  obtain ⟨W, h1, h2, h3⟩ := core_runs (L := Leveled.laws c p) (fun _ => trivial) es hst hr
  have key : ∀ op d s' r, op.Reads → s.step c op d = some (s', r) → op.Answer (look s.mem W) r := by
    intro op d s' r hop hs
    obtain ⟨W', k1, k2, k3, k4, _⟩ := core_step (L := Leveled.laws c p) (fun _ => trivial) h1 h2
      (by rintro rfl; exact absurd hop (by simp [KvOp.Reads])) hs
    have : op.Answer (look (fix c s').mem W') r := answer_exact k1 hop (answer_fix k4)
    rw [apply_reads hop] at k3
    rw [← k3]; exact this
  refine ⟨_, _, h3, fun k d => ?_, key⟩
  obtain ⟨s', o, e⟩ := core_get_returns h1 k d
  have := key (.get k) d s' _ trivial e
  simp only [KvOp.Answer] at this
  exact ⟨s', by rw [e, this]⟩

/-- C70 with `LeveledStrategy`, if no failure hits the writing of a new table: all calls that returned have taken
effect, a failing call has taken effect too unless the write of the logical time failed, and nothing else has
changed. -/
theorem C70_partial (c : Cfg K V) (p : Leveled.Params) (es : List (Ev K V)) (hst : Stays es) (hl : ∀ e ∈ es, ¬ e.Lossy)
    {s : Store (Leveled.kind c p)} (hr : Runs c (new (Leveled.kind c p)) es s) :
    (∀ k d, ∃ s', s.step c (.get k) d = some (s', .val (effects es k))) ∧
      ∀ op d s' r, op.Reads → s.step c op d = some (s', r) → op.Answer (effects es) r := by
  obtain ⟨now, saved, h1, h2, h3⟩ := C70_exact_partial c p es hst hr
  rw [← told_no_loss h1 hl]
  exact ⟨h2, h3⟩

/-- C70 with `LeveledStrategy`: what a call has written out is never lost by later failures.  After a call that wrote
out memory, a key that is not written again keeps its value, whatever fails. -/
theorem C70_flushed_partial (c : Cfg K V) (p : Leveled.Params) (pre post : List (Ev K V)) (e : Ev K V)
    (hst : Stays (pre ++ e :: post)) (hl : ∀ e ∈ pre, ¬ e.Lossy) (he : e.Settled) (k : K)
    (hp : ∀ e' ∈ post, ¬ Touches k e')
    {s : Store (Leveled.kind c p)} (hr : Runs c (new (Leveled.kind c p)) (pre ++ e :: post) s) (d : Nat) :
    ∃ s', s.step c (.get k) d = some (s', .val (effects (pre ++ [e]) k)) := by
  obtain ⟨now, saved, h1, h2, h3⟩ := C70_exact_partial c p _ hst hr
  obtain ⟨m, m', a1, a2, a3⟩ := told_flushed he hp h1 rfl
  have hle : ¬ e.Lossy := by
    cases e with
    | done op d r => simp [Ev.Lossy]
    | failed op d f => exact absurd he (by simp [Ev.Settled])
    | died => simp [Ev.Lossy]
  have hm := told_no_loss a1 (by
    intro e' he'
    rcases List.mem_append.1 he' with h | h
    · exact hl e' h
    · simp only [List.mem_singleton] at h; subst h; exact hle)
  rw [← hm, ← a2]
  exact h2 k d

/-- C70 with `SizeTieredStrategy`: a key that is present according to the writes that are kept has its latest value,
and a value that is found was inserted for the key at some time.  (What else can go wrong with this strategy, even
if nothing fails, is the subject of C35.) -/
theorem C70_sizeTiered_partial (c : Cfg K V) (p : SizeTiered.Params) (es : List (Ev K V)) (hst : Stays es)
    {s : Store (SizeTiered.kind c p)} (hr : Runs c (new (SizeTiered.kind c p)) es s) :
    ∃ now saved, Told es now saved ∧ ∀ k d, ∃ s' o, s.step c (.get k) d = some (s', .val o) ∧
      (∀ v, now k = some v → o = some v) ∧ ∀ v, o = some v → some (.insert k v) ∈ es.map Ev.call? := by
  obtain ⟨W, h1, h2, h3⟩ := core_runs (L := SizeTiered.laws c p) (fun _ => trivial) es hst hr
  refine ⟨_, _, h3, fun k d => ?_⟩
  obtain ⟨s', o, e⟩ := core_get_returns h1 k d
  obtain ⟨W', k1, k2, k3, k4, _⟩ := core_step (L := SizeTiered.laws c p) (fun _ => trivial) h1 h2 (by simp) e
  obtain ⟨a1, a2⟩ := get_weak k1 k
  have ho : o = s'.found k := by
    have : KvRes.val o = KvRes.val (s'.found k) := k4
    simpa using this
  refine ⟨s', o, e, fun v hv => ?_, fun v hv => ?_⟩
  · rw [ho]; exact a1 v ((congrFun k3 k).trans hv)
  · have := a2 v (ho ▸ hv)
    simpa [Ghost.after] using this

/-! ### C70: what goes wrong -/

omit [DecidableEq V] in
theorem empty_get {kd : Kind K V} {x : Bool} (L : Laws kd x) (k : K) : kd.get kd.empty k = none := by
  cases h : kd.get kd.empty k with
  | none => rfl
  | some v =>
    obtain ⟨⟨t, ht, _⟩, _⟩ := L.get_some L.inv_empty h
    rw [L.tabs_empty] at ht; simp at ht

/-- The events of inserting the pairs. -/
def inserts (kvs : List (K × V)) : List (Ev K V) := kvs.map fun a => .done (.insert a.1 a.2) 0 .unit

/-- The size of the pairs in memory. -/
def bytes (c : Cfg K V) (kvs : List (K × V)) : Nat := (kvs.map fun a => c.sizes.entry (a.1, ⟨some a.2, 0⟩)).sum

/-- Nothing has reached a table yet. -/
structure Young {kd : Kind K V} (s : Store kd) : Prop where
  cur : s.cur = kd.empty
  next : s.next = none
  handle : s.handle = false
  md : s.disk.md = kd.empty
  sorted : SL.Sorted s.mem

theorem inserts_run {kd : Kind K V} {c : Cfg K V} : ∀ (kvs : List (K × V)) {s : Store kd}, (kvs.map (·.1)).Nodup →
    Young s → (∀ a ∈ kvs, SL.find a.1 s.mem = none) → s.usage + bytes c kvs ≤ c.maxMem →
    ∃ s', Runs c s (inserts kvs) s' ∧ Young s' ∧ (kvs ≠ [] → s'.mem ≠ [] ∧ s'.disk.time ≠ none)
  | [], s, _, hy, _, _ => ⟨s, rfl, hy, by simp⟩
  | (k, v) :: kvs, s, hn, hy, hf, hu => by
    obtain ⟨hk, hn⟩ := List.nodup_cons.1 hn
    have hu0 : s.usageAfter c k ⟨some v, s.clock⟩ = some (s.usage + c.sizes.entry (k, ⟨some v, s.clock⟩)) := by
      unfold usageAfter; rw [hf (k, v) (by simp)]
    have hent : c.sizes.entry (k, ⟨some v, s.clock⟩) = c.sizes.entry (k, ⟨some v, 0⟩) := rfl
    have htot : bytes c ((k, v) :: kvs) = c.sizes.entry (k, ⟨some v, 0⟩) + bytes c kvs := by simp [bytes]
    have hw : s.write c k (some v) = some (s.noted k (some v) (s.usage + c.sizes.entry (k, ⟨some v, s.clock⟩))) := by
      rw [write_eq hu0, if_neg (by omega)]
    generalize hs1 : s.noted k (some v) (s.usage + c.sizes.entry (k, ⟨some v, s.clock⟩)) = s1 at hw
    have hm1 : s1.mem = SL.ins k ⟨some v, s.clock⟩ s.mem := by subst hs1; rfl
    have hy1 : Young s1 := by
      subst hs1; exact ⟨hy.cur, hy.next, hy.handle, hy.md, SL.sorted_ins hy.sorted⟩
    obtain ⟨s2, r1, r2, r3⟩ := inserts_run (c := c) kvs hn hy1 (by
      intro a ha
      rw [hm1, SL.find_ins hy.sorted, if_neg]
      · exact hf a (List.mem_cons_of_mem _ ha)
      · rintro rfl; exact hk (List.mem_map.2 ⟨a, ha, rfl⟩)) (by subst hs1; simp only [noted]; omega)
    refine ⟨s2, ⟨s1, ?_, r1⟩, r2, fun _ => ?_⟩
    · simp only [step, work, hw, Option.map_some]
    · cases kvs with
      | nil =>
        simp only [inserts, List.map_nil, Runs] at r1
        subst r1
        refine ⟨?_, ?_⟩
        · rw [hm1]; intro he
          have : (k, (⟨some v, s.clock⟩ : Val V)) ∈ SL.ins k ⟨some v, s.clock⟩ s.mem := mem_ins_key
          rw [he] at this; simp at this
        · subst hs1; simp [noted]
      | cons a l => exact r3 (by simp)

omit [DecidableEq V] in
theorem young_new (kd : Kind K V) : Young (new kd) := ⟨rfl, rfl, rfl, rfl, by simp [new, SL.Sorted]⟩

theorem lost {kd : Kind K V} {x : Bool} (L : Laws kd x) (c : Cfg K V) (kvs : List (K × V)) (h0 : kvs ≠ [])
    (hn : (kvs.map (·.1)).Nodup) (hs : bytes c kvs ≤ c.maxMem) :
    ∃ s, Runs c (new kd) (inserts kvs ++ [.failed .flush 0 .fill]) s ∧
      ∀ k, ∃ s', s.step c (.get k) 0 = some (s', .val none) := by
  obtain ⟨s, r1, r2, r3⟩ := inserts_run (c := c) kvs hn (young_new kd) (by simp [new, SL.find_nil]) (by simpa [new] using hs)
  obtain ⟨hm, _⟩ := r3 h0
  refine ⟨{ s with usage := 0, mem := [], fresh := s.fresh + 1 }, runs_append.2 ⟨s, r1, _, ?_, rfl⟩, fun k => ?_⟩
  · simp only [stepErr, work, flushErr]
    cases hm' : s.mem with
    | nil => exact absurd hm' hm
    | cons e l =>
      apply List.mem_append_left
      unfold tryCompactErr
      simp
  · refine ⟨{ s with usage := 0, mem := [], fresh := s.fresh + 1 }, ?_⟩
    simp only [step, work, SL.find_nil, tryReplace, r2.next, Option.map_some, r2.cur, empty_get L, Option.bind_none]

/-- C70 is violated: any number of acknowledged insertions (as many as fit in memory) are lost by one failing call.
When memory is written out, the tree is taken out of the map first, and it is dropped if writing an entry, closing the
table or reading it back fails. -/
theorem C70_violated (c : Cfg K V) (p : Leveled.Params) (q : SizeTiered.Params) (kvs : List (K × V)) (h0 : kvs ≠ [])
    (hn : (kvs.map (·.1)).Nodup) (hs : bytes c kvs ≤ c.maxMem) :
    (∃ s, Runs c (new (Leveled.kind c p)) (inserts kvs ++ [.failed .flush 0 .fill]) s ∧
      ∀ k, ∃ s', s.step c (.get k) 0 = some (s', .val none)) ∧
    ∃ s, Runs c (new (SizeTiered.kind c q)) (inserts kvs ++ [.failed .flush 0 .fill]) s ∧
      ∀ k, ∃ s', s.step c (.get k) 0 = some (s', .val none) :=
  ⟨lost (Leveled.laws c p) c kvs h0 hn hs, lost (SizeTiered.laws c q) c kvs h0 hn hs⟩

theorem unlisted {kd : Kind K V} {x : Bool} (L : Laws kd x) (c : Cfg K V) (kvs : List (K × V)) (h0 : kvs ≠ [])
    (hn : (kvs.map (·.1)).Nodup) (hs : bytes c kvs ≤ c.maxMem) :
    ∃ s, Runs c (new kd) (inserts kvs ++ [.failed .flush 0 .list, .done .flush 0 .unit, .done .reopen 0 .unit]) s ∧
      ∀ k, ∃ s', s.step c (.get k) 0 = some (s', .val none) := by
  obtain ⟨s, r1, r2, r3⟩ := inserts_run (c := c) kvs hn (young_new kd) (by simp [new, SL.find_nil]) (by simpa [new] using hs)
  obtain ⟨hm, ht⟩ := r3 h0
  obtain ⟨t, ht1, _⟩ := build_ok (z := c.sizes) (n := c.block s.mem.length) r2.sorted hm s.fresh
  obtain ⟨n, hn'⟩ := Option.ne_none_iff_exists'.1 ht
  generalize hs1 : (put { s with usage := 0, mem := [], fresh := s.fresh + 1, cur := kd.push s.cur t }
      { s.disk with dirs := s.disk.dirs ++ [t] } : Store kd) = s1
  have hm1 : s1.mem = [] := by subst hs1; rfl
  have hh1 : s1.handle = false := by subst hs1; exact r2.handle
  have hfl : s1.flush c = some s1 := by
    unfold flush settle
    rw [hm1]
    simp [hh1]
  refine ⟨⟨[], 0, kd.empty, none, none, false, false, n, 0, s1.fresh, s1.disk, s1.trace⟩,
    runs_append.2 ⟨s, r1, s1, ?_, s1, ?_, _, ?_, rfl⟩, fun k => ?_⟩
  · simp only [stepErr, work, flushErr]
    cases hm' : s.mem with
    | nil => exact absurd hm' hm
    | cons e l =>
      apply List.mem_append_left
      unfold tryCompactErr
      rw [ht1]
      subst hs1
      exact .tail _ (.tail _ (.head _))
  · simp only [step, work, hfl, Option.map_some]
  · simp only [step, work, hfl, Option.bind_some]
    have hmd : s1.disk.md = kd.empty := by subst hs1; exact r2.md
    have htm : s1.disk.time = some n := by subst hs1; exact hn'
    unfold openDir
    rw [htm, hmd, L.tabs_empty]
    simp
  · refine ⟨⟨[], 0, kd.empty, none, none, false, false, n, 0, s1.fresh, s1.disk, s1.trace⟩, ?_⟩
    simp only [step, work, SL.find_nil, tryReplace, Option.map_some, empty_get L, Option.bind_none]

/-- C70 is violated: data can be lost although a later `flush` succeeds.  If writing the metadata fails after memory was
written to a table, the table can be read, but it is not named by the metadata on disk; a second `flush` has nothing to
write, and returns without an error; and when the directory is opened again, the data is gone. -/
theorem C70_flush_violated (c : Cfg K V) (p : Leveled.Params) (q : SizeTiered.Params) (kvs : List (K × V)) (h0 : kvs ≠ [])
    (hn : (kvs.map (·.1)).Nodup) (hs : bytes c kvs ≤ c.maxMem) :
    (∃ s, Runs c (new (Leveled.kind c p))
        (inserts kvs ++ [.failed .flush 0 .list, .done .flush 0 .unit, .done .reopen 0 .unit]) s ∧
      ∀ k, ∃ s', s.step c (.get k) 0 = some (s', .val none)) ∧
    ∃ s, Runs c (new (SizeTiered.kind c q))
        (inserts kvs ++ [.failed .flush 0 .list, .done .flush 0 .unit, .done .reopen 0 .unit]) s ∧
      ∀ k, ∃ s', s.step c (.get k) 0 = some (s', .val none) :=
  ⟨unlisted (Leveled.laws c p) c kvs h0 hn hs, unlisted (SizeTiered.laws c q) c kvs h0 hn hs⟩

omit [LinearOrder K] [DecidableEq V] in
theorem entry_pos (z : Sizes K V) (e : Ent K V) : 0 < z.entry e := by
  unfold Sizes.entry Sizes.value
  split <;> omega

omit [LinearOrder K] [DecidableEq V] in
theorem repl_fault {kd : Kind K V} {s s' : Store kd} {f : Fault} (h : (f, s') ∈ s.tryReplaceErr) :
    f = .delete ∨ f = .relist := by
  unfold tryReplaceErr at h
  cases hn : s.next with
  | none => rw [hn] at h; simp at h
  | some m =>
    rw [hn] at h
    rcases List.mem_append.1 h with h | h
    · obtain ⟨n, _, h⟩ := List.mem_filterMap.1 h
      simp only [Option.map_eq_some_iff, Prod.mk.injEq] at h
      obtain ⟨_, _, rfl, _⟩ := h
      exact .inl rfl
    · simp only [Option.mem_toList, Option.map_eq_some_iff, Prod.mk.injEq] at h
      obtain ⟨_, _, rfl, _⟩ := h
      exact .inr rfl

omit [LinearOrder K] [DecidableEq V] in
theorem settle_fault {kd : Kind K V} {s s' : Store kd} {f : Fault} (h : (f, s') ∈ s.settleErr) :
    f = .delete ∨ f = .relist := by
  unfold settleErr at h
  split at h
  · split at h
    · simp at h
    · exact repl_fault h
  · simp at h

theorem panics {kd : Kind K V} {x : Bool} (L : Laws kd x) (hL : ∀ l, L.good l) (c : Cfg K V)
    (es : List (Ev K V)) (hst : Stays es) (k : K) (v : V) (d d' : Nat) {s : Store kd}
    (hr : Runs c (new kd) (es ++ [.done (.insert k v) d .unit, .failed .flush d' .create]) s) :
    ∀ v' d'', s.step c (.insert k v') d'' = none ∧ s.step c (.remove k) d'' = none := by
  obtain ⟨s0, h0, s1, h1, s2, h2, rfl⟩ := runs_append.1 hr
  obtain ⟨W, k1, k2, _⟩ := core_runs hL es hst h0
  -- the state after the insertion: the key is in memory, or memory is empty
  have hmem : s1.mem = [] ∨ ∃ e, SL.find k s1.mem = some e := by
    simp only [step, Option.map_eq_some_iff, Prod.mk.injEq, and_true] at h1
    obtain ⟨s1', hw, rfl⟩ := h1
    have kw := core_work d k1
    have hsrt : SL.Sorted (work d s0).mem := kw.memSorted
    cases hu : (work d s0).usageAfter c k ⟨some v, (work d s0).clock⟩ with
    | none =>
      unfold write at hw
      rw [tick_eq] at hw
      have hu' : usageAfter c ({ work d s0 with
        clock := (work d s0).clock + 1, disk := { (work d s0).disk with time := some ((work d s0).clock + 1) },
        trace := (work d s0).trace ++ [{ (work d s0).disk with time := some ((work d s0).clock + 1) }] } : Store kd) k
          ⟨some v, (work d s0).clock⟩ = none := hu
      simp only [hu'] at hw
      simp at hw
    | some u =>
      rw [write_eq hu] at hw
      split at hw
      · left
        have hm' : ((work d s0).noted k (some v) u).mem ≠ [] := by
          intro he
          have : (k, (⟨some v, (work d s0).clock⟩ : Val V)) ∈ SL.ins k ⟨some v, (work d s0).clock⟩ (work d s0).mem := mem_ins_key
          have he' : SL.ins k ⟨some v, (work d s0).clock⟩ (work d s0).mem = [] := he
          rw [he'] at this; simp at this
        obtain ⟨⟨s3, a1, _, _, a4⟩, _⟩ := core_tryCompact hL (core_noted kw k (some v) u) (hand_work d k2) hm'
        rw [hw] at a1
        simp only [Option.some.injEq] at a1
        rw [a1]; exact a4
      · right
        simp only [Option.some.injEq] at hw
        subst hw
        refine ⟨(k, ⟨some v, (work d s0).clock⟩), ?_⟩
        show SL.find k (SL.ins k _ (work d s0).mem) = _
        rw [SL.find_ins hsrt, if_pos rfl]
  -- the failing call leaves memory, but not its size
  have hfail : s2.usage = 0 ∧ ∃ e, SL.find k s2.mem = some e := by
    have hw1 : (work d' s1).mem = s1.mem := (work_frame d' s1).1
    simp only [stepErr, flushErr] at h2
    split at h2
    · rcases settle_fault h2 with h | h <;> simp at h
    · rename_i hm
      rcases hmem with hmem | ⟨e, he⟩
      · rw [hw1, hmem] at hm; simp at hm
      · rcases List.mem_append.1 h2 with h2 | h2
        · unfold tryCompactErr at h2
          simp only [List.mem_cons, Prod.mk.injEq, true_and, reduceCtorEq, false_and, false_or] at h2
          rcases h2 with rfl | h2
          · exact ⟨rfl, e, by simpa [hw1] using he⟩
          · exfalso
            split at h2
            · simp at h2
            · simp only [List.mem_cons, Prod.mk.injEq, reduceCtorEq, false_and, false_or] at h2
              unfold startErr at h2
              split at h2
              · simp at h2
              · rcases repl_fault h2 with h | h <;> simp at h
        · exfalso
          split at h2
          · simp at h2
          · rcases settle_fault h2 with h | h <;> simp at h
  obtain ⟨hu, e, he⟩ := hfail
  have key : ∀ (d'' : Nat) (data : Option V), (work d'' s2).write c k data = none := by
    intro d'' data
    obtain ⟨f1, f2, _⟩ := work_frame d'' s2
    unfold write
    rw [tick_eq]
    have : usageAfter c ({ work d'' s2 with
        clock := (work d'' s2).clock + 1, disk := { (work d'' s2).disk with time := some ((work d'' s2).clock + 1) },
        trace := (work d'' s2).trace ++ [{ (work d'' s2).disk with time := some ((work d'' s2).clock + 1) }] } : Store kd) k
          ⟨data, (work d'' s2).clock⟩ = none := by
      unfold usageAfter
      simp only [f1, f2, he, hu]
      rw [if_neg]
      have := entry_pos c.sizes (k, e.2)
      omega
    simp only [this]
  intro v' d''
  simp only [step, key, Option.map_none, and_self]

/-- C70 is violated: after a failing call the next one can panic.  `in_memory_usage` is set to zero before the new table
is created; if that fails, the tree stays in memory, and writing one of its keys again subtracts the size of the old
entry from zero. -/
theorem C70_panic_violated (c : Cfg K V) (p : Leveled.Params) (q : SizeTiered.Params) (es : List (Ev K V)) (hst : Stays es)
    (k : K) (v : V) (d d' : Nat) :
    (∀ s, Runs c (new (Leveled.kind c p)) (es ++ [.done (.insert k v) d .unit, .failed .flush d' .create]) s →
      ∀ v' d'', s.step c (.insert k v') d'' = none ∧ s.step c (.remove k) d'' = none) ∧
    ∀ s, Runs c (new (SizeTiered.kind c q)) (es ++ [.done (.insert k v) d .unit, .failed .flush d' .create]) s →
      ∀ v' d'', s.step c (.insert k v') d'' = none ∧ s.step c (.remove k) d'' = none :=
  ⟨fun _ hr => panics (Leveled.laws c p) (fun _ => trivial) c es hst k v d d' hr,
    fun _ hr => panics (SizeTiered.laws c q) (fun _ => trivial) c es hst k v d d' hr⟩

/-! ### C70: a failing iteration switches compactions off -/

/-- No compaction is running or waiting to be taken over, and `metadata_lock_count` is more than the number `n` of
iterators. -/
structure Stuck {kd : Kind K V} (n : Nat) (s : Store kd) : Prop where
  job : s.job = none
  next : s.next = none
  locks : n < s.locks

/-- Every table of `s` is still there in `s'`. -/
def Grown {kd : Kind K V} (s s' : Store kd) : Prop := ∀ t ∈ kd.tabs s.cur, t ∈ kd.tabs s'.cur

section

variable {kd : Kind K V} {x : Bool} {n : Nat}

omit [LinearOrder K] [DecidableEq V] in
theorem Grown.trans {a b c : Store kd} (h : Grown a b) (h' : Grown b c) : Grown a c := fun t ht => h' t (h t ht)

omit [LinearOrder K] [DecidableEq V] in
theorem Grown.refl (a : Store kd) : Grown a a := fun _ h => h

omit [LinearOrder K] [DecidableEq V] in
theorem stuck_work (d : Nat) : ∀ {s : Store kd}, Stuck n s → Stuck n (work d s) ∧ Grown s (work d s) := by
  induction d with
  | zero => intro s h; exact ⟨h, .refl s⟩
  | succ d ih =>
    intro s h
    simp only [work]
    rw [deliver_none h.job]
    exact ih ⟨h.job, h.next, h.locks⟩

omit [LinearOrder K] [DecidableEq V] in
theorem stuck_replace {s : Store kd} (h : Stuck n s) : s.tryReplace = some s ∧ s.tryReplaceErr = [] := by
  unfold tryReplace tryReplaceErr; rw [h.next]; exact ⟨rfl, rfl⟩

omit [DecidableEq V] in
theorem stuck_tryCompact (L : Laws kd x) {c : Cfg K V} {s : Store kd} (h : Stuck n s) :
    (∀ s', s.tryCompact c = some s' → Stuck n s' ∧ Grown s s') ∧
    ∀ f s', (f, s') ∈ s.tryCompactErr c → Stuck n s' ∧ Grown s s' := by
  have hp : ∀ t, Grown s (s.pushTable t) := fun t u hu => (L.tabs_push _ _).mem_iff.2 (List.mem_cons_of_mem _ hu)
  have hl : s.locks ≠ 0 := by have := h.locks; omega
  unfold tryCompact tryCompactErr
  cases hb : build c.sizes (c.block s.mem.length) s.mem s.fresh with
  | none =>
    refine ⟨by simp, fun f s' hf => ?_⟩
    simp only [List.mem_cons, Prod.mk.injEq, List.not_mem_nil, or_false] at hf
    rcases hf with ⟨rfl, rfl⟩ | ⟨rfl, rfl⟩ <;> exact ⟨⟨h.job, h.next, h.locks⟩, .refl _⟩
  | some t =>
    simp only
    constructor
    · intro s' hs'
      unfold start at hs'
      rw [if_pos (.inr hl)] at hs'
      simp only [Option.some.injEq] at hs'
      subst hs'
      exact ⟨⟨h.job, h.next, h.locks⟩, hp t⟩
    · intro f s' hf
      simp only [List.mem_cons, Prod.mk.injEq] at hf
      rcases hf with ⟨rfl, rfl⟩ | ⟨rfl, rfl⟩ | ⟨rfl, rfl⟩ | hf
      · exact ⟨⟨h.job, h.next, h.locks⟩, .refl _⟩
      · exact ⟨⟨h.job, h.next, h.locks⟩, .refl _⟩
      · exact ⟨⟨h.job, h.next, h.locks⟩, hp t⟩
      · unfold startErr at hf
        rw [if_pos (.inr hl)] at hf
        simp at hf

omit [LinearOrder K] [DecidableEq V] in
theorem stuck_settle {s : Store kd} (h : Stuck n s) :
    (∀ s', s.settle = some s' → Stuck n s' ∧ Grown s s') ∧ s.settleErr = [] := by
  unfold settle settleErr
  split
  · cases hj : s.join with
    | none => simp
    | some s1 =>
      simp only
      have h1 : Stuck n s1 ∧ Grown s s1 := by
        unfold join at hj
        simp only at hj
        split at hj
        · simp at hj
        · simp only [Option.some.injEq] at hj
          subst hj
          exact stuck_work 2 h
      obtain ⟨k1, k2⟩ := stuck_replace (s := { s1 with handle := false }) ⟨h1.1.job, h1.1.next, h1.1.locks⟩
      refine ⟨fun s' hs' => ?_, k2⟩
      rw [k1] at hs'
      simp only [Option.some.injEq] at hs'
      subst hs'
      exact ⟨⟨h1.1.job, h1.1.next, h1.1.locks⟩, h1.2⟩
  · refine ⟨fun s' hs' => ?_, rfl⟩
    simp only [Option.some.injEq] at hs'
    subst hs'
    exact ⟨h, .refl _⟩

omit [DecidableEq V] in
theorem stuck_flush (L : Laws kd x) {c : Cfg K V} {s : Store kd} (h : Stuck n s) :
    (∀ s', s.flush c = some s' → Stuck n s' ∧ Grown s s') ∧
    ∀ f s', (f, s') ∈ s.flushErr c → Stuck n s' ∧ Grown s s' := by
  unfold flush flushErr
  cases s.mem with
  | nil => exact ⟨(stuck_settle h).1, by simp [(stuck_settle h).2]⟩
  | cons e l =>
    simp only
    obtain ⟨k1, k2⟩ := stuck_tryCompact L (c := c) h
    cases ht : s.tryCompact c with
    | none => exact ⟨by simp, fun f s' hf => k2 f s' (by simpa using hf)⟩
    | some s1 =>
      simp only
      obtain ⟨j1, j2⟩ := k1 s1 ht
      refine ⟨fun s' hs' => ?_, fun f s' hf => ?_⟩
      · obtain ⟨i1, i2⟩ := (stuck_settle j1).1 s' hs'
        exact ⟨i1, j2.trans i2⟩
      · rw [(stuck_settle j1).2, List.append_nil] at hf
        exact k2 f s' hf

omit [DecidableEq V] in
theorem stuck_write (L : Laws kd x) {c : Cfg K V} {s : Store kd} (h : Stuck n s) (k : K) (data : Option V) :
    (∀ s', s.write c k data = some s' → Stuck n s' ∧ Grown s s') ∧
    ∀ f s', (f, s') ∈ s.writeErr c k data → Stuck n s' ∧ Grown s s' := by
  have hN : ∀ u, Stuck n (s.noted k data u) := fun u => ⟨h.job, h.next, h.locks⟩
  have hG : ∀ u, Grown s (s.noted k data u) := fun u => .refl s
  constructor
  · intro s' hs'
    cases hu : s.usageAfter c k ⟨data, s.clock⟩ with
    | none =>
      unfold write at hs'
      rw [tick_eq] at hs'
      have hu' : usageAfter c ({ s with
        clock := s.clock + 1, disk := { s.disk with time := some (s.clock + 1) },
        trace := s.trace ++ [{ s.disk with time := some (s.clock + 1) }] } : Store kd) k ⟨data, s.clock⟩ = none := hu
      simp only [hu'] at hs'
      simp at hs'
    | some u =>
      rw [write_eq hu] at hs'
      split at hs'
      · obtain ⟨i1, i2⟩ := (stuck_tryCompact L (hN u)).1 s' hs'
        exact ⟨i1, (hG u).trans i2⟩
      · simp only [Option.some.injEq] at hs'
        subst hs'
        exact ⟨hN u, hG u⟩
  · intro f s' hf
    unfold writeErr at hf
    rw [tick_eq] at hf
    simp only [List.mem_cons, Prod.mk.injEq] at hf
    rcases hf with ⟨rfl, rfl⟩ | hf
    · exact ⟨⟨h.job, h.next, h.locks⟩, .refl _⟩
    · split at hf
      · simp at hf
      · rename_i u hu
        split at hf
        · have hf' : (f, s') ∈ (s.noted k data u).tryCompactErr c := hf
          obtain ⟨i1, i2⟩ := (stuck_tryCompact L (hN u)).2 f s' hf'
          exact ⟨i1, (hG u).trans i2⟩
        · simp at hf

end

/-- The events after a failing iteration: an iterator is dropped only after it was made (`n` of them are alive), and
the map is not cleared or opened again. -/
def Orderly : Nat → List (Ev K V) → Prop
  | _, [] => True
  | n, .done .hold _ _ :: es => Orderly (n + 1) es
  | n, .done .release _ _ :: es => 0 < n ∧ Orderly (n - 1) es
  | _, .done .clear _ _ :: _ => False
  | _, .failed .clear _ _ :: _ => False
  | _, .done .reopen _ _ :: _ => False
  | n, _ :: es => Orderly n es

section

variable {kd : Kind K V} {x : Bool} {n : Nat}

theorem stuck_step (L : Laws kd x) {c : Cfg K V} {s s' : Store kd} {op : KvOp K V} {d : Nat} {r : KvRes K V}
    {es : List (Ev K V)} (h : Stuck n s) (ho : Orderly n (.done op d r :: es)) (hs : s.step c op d = some (s', r)) :
    ∃ m, Stuck m s' ∧ Grown s s' ∧ Orderly m es := by
  obtain ⟨hw, hg⟩ := stuck_work d h
  simp only [step] at hs
  generalize work d s = w at *
  have hr : ∀ {s1 : Store kd}, Stuck n s1 → s1.tryReplace = some s1 := fun h => (stuck_replace h).1
  have hfl : ∀ {s1 : Store kd}, w.flush c = some s1 → Stuck n s1 ∧ Grown s s1 := fun e =>
    ⟨((stuck_flush L hw).1 _ e).1, hg.trans ((stuck_flush L hw).1 _ e).2⟩
  have hwr : ∀ {s1 : Store kd} {k : K} {data : Option V}, w.write c k data = some s1 → Stuck n s1 ∧ Grown s s1 :=
    fun e => ⟨((stuck_write L hw _ _).1 _ e).1, hg.trans ((stuck_write L hw _ _).1 _ e).2⟩
  cases op with
  | insert k v =>
    simp only [Option.map_eq_some_iff, Prod.mk.injEq] at hs
    obtain ⟨s1, e, rfl, _⟩ := hs
    exact ⟨n, (hwr e).1, (hwr e).2, ho⟩
  | remove k =>
    simp only [Option.map_eq_some_iff, Prod.mk.injEq] at hs
    obtain ⟨s1, e, rfl, _⟩ := hs
    exact ⟨n, (hwr e).1, (hwr e).2, ho⟩
  | get k =>
    simp only at hs
    split at hs
    · simp only [Option.some.injEq, Prod.mk.injEq] at hs
      obtain ⟨rfl, _⟩ := hs; exact ⟨n, hw, hg, ho⟩
    · simp only [hr hw, Option.map_some, Option.some.injEq, Prod.mk.injEq] at hs
      obtain ⟨rfl, _⟩ := hs; exact ⟨n, hw, hg, ho⟩
  | containsKey k =>
    simp only at hs
    split at hs
    · simp only [Option.some.injEq, Prod.mk.injEq] at hs
      obtain ⟨rfl, _⟩ := hs; exact ⟨n, hw, hg, ho⟩
    · simp only [hr hw, Option.map_some, Option.some.injEq, Prod.mk.injEq] at hs
      obtain ⟨rfl, _⟩ := hs; exact ⟨n, hw, hg, ho⟩
  | lenHint =>
    simp only [hr hw, Option.bind_some, Option.map_eq_some_iff, Prod.mk.injEq] at hs
    obtain ⟨_, _, rfl, _⟩ := hs; exact ⟨n, hw, hg, ho⟩
  | min =>
    simp only [hr hw, Option.map_some, Option.some.injEq, Prod.mk.injEq] at hs
    obtain ⟨rfl, _⟩ := hs; exact ⟨n, hw, hg, ho⟩
  | max =>
    simp only [hr hw, Option.map_some, Option.some.injEq, Prod.mk.injEq] at hs
    obtain ⟨rfl, _⟩ := hs; exact ⟨n, hw, hg, ho⟩
  | len =>
    simp only [Option.bind_eq_some_iff] at hs
    obtain ⟨s1, e, hs⟩ := hs
    simp only [hr (hfl e).1, Option.map_some, Option.some.injEq, Prod.mk.injEq] at hs
    obtain ⟨rfl, _⟩ := hs; exact ⟨n, (hfl e).1, (hfl e).2, ho⟩
  | isEmpty =>
    simp only [Option.bind_eq_some_iff] at hs
    obtain ⟨s1, e, hs⟩ := hs
    simp only [hr (hfl e).1, Option.map_some, Option.some.injEq, Prod.mk.injEq] at hs
    obtain ⟨rfl, _⟩ := hs; exact ⟨n, (hfl e).1, (hfl e).2, ho⟩
  | iter =>
    simp only [Option.bind_eq_some_iff] at hs
    obtain ⟨s1, e, hs⟩ := hs
    simp only [hr (hfl e).1, Option.map_some, Option.some.injEq, Prod.mk.injEq] at hs
    obtain ⟨rfl, _⟩ := hs; exact ⟨n, (hfl e).1, (hfl e).2, ho⟩
  | hold =>
    simp only [Option.bind_eq_some_iff] at hs
    obtain ⟨s1, e, hs⟩ := hs
    simp only [hr (hfl e).1, Option.map_some, Option.some.injEq, Prod.mk.injEq] at hs
    obtain ⟨rfl, _⟩ := hs
    exact ⟨n + 1, ⟨(hfl e).1.job, (hfl e).1.next, Nat.succ_lt_succ (hfl e).1.locks⟩, (hfl e).2, ho⟩
  | release =>
    simp only [Option.some.injEq, Prod.mk.injEq] at hs
    obtain ⟨rfl, _⟩ := hs
    simp only [Orderly] at ho
    refine ⟨n - 1, ⟨hw.job, hw.next, ?_⟩, hg, ho.2⟩
    have := hw.locks
    show n - 1 < w.locks - 1
    omega
  | flush =>
    simp only [Option.map_eq_some_iff, Prod.mk.injEq] at hs
    obtain ⟨s1, e, rfl, _⟩ := hs
    exact ⟨n, (hfl e).1, (hfl e).2, ho⟩
  | clear => exact absurd ho (by simp [Orderly])
  | reopen => exact absurd ho (by simp [Orderly])

omit [DecidableEq V] in
theorem stuck_stepErr (L : Laws kd x) {c : Cfg K V} {s s' : Store kd} {op : KvOp K V} {d : Nat} {f : Fault}
    {es : List (Ev K V)} (h : Stuck n s) (ho : Orderly n (.failed op d f :: es))
    (hs : (f, s') ∈ (work d s).stepErr c op) : Stuck n s' ∧ Grown s s' ∧ Orderly n es := by
  obtain ⟨hw, hg⟩ := stuck_work d h
  generalize work d s = w at *
  have hfl : (f, s') ∈ w.flushErr c → Stuck n s' ∧ Grown s s' := fun e =>
    ⟨((stuck_flush L hw).2 _ _ e).1, hg.trans ((stuck_flush L hw).2 _ _ e).2⟩
  have hwr : ∀ {k : K} {data : Option V}, (f, s') ∈ w.writeErr c k data → Stuck n s' ∧ Grown s s' :=
    fun e => ⟨((stuck_write L hw _ _).2 _ _ e).1, hg.trans ((stuck_write L hw _ _).2 _ _ e).2⟩
  have hge : (f, s') ∈ w.getErr → Stuck n s' ∧ Grown s s' := by
    intro e
    unfold getErr at e
    rw [(stuck_replace hw).1, (stuck_replace hw).2] at e
    simp only [List.nil_append, List.mem_singleton, Prod.mk.injEq] at e
    obtain ⟨_, rfl⟩ := e
    exact ⟨hw, hg⟩
  have hie : ∀ {s1 : Store kd}, Stuck n s1 → Grown s s1 → (f, s') ∈ s1.iterErr → Stuck n s' ∧ Grown s s' := by
    intro s1 h1 g1 e
    unfold iterErr at e
    rw [(stuck_replace h1).1, (stuck_replace h1).2] at e
    simp only [List.nil_append, List.mem_singleton, Prod.mk.injEq] at e
    obtain ⟨_, rfl⟩ := e
    exact ⟨⟨h1.job, h1.next, h1.locks.trans (Nat.lt_succ_self _)⟩, g1⟩
  have hia : (f, s') ∈ w.iterAllErr c → Stuck n s' ∧ Grown s s' := by
    intro e
    unfold iterAllErr at e
    rcases List.mem_append.1 e with e | e
    · exact hfl e
    · cases hf : w.flush c with
      | none => rw [hf] at e; simp at e
      | some s1 =>
        rw [hf] at e
        obtain ⟨i1, i2⟩ := (stuck_flush L hw).1 _ hf
        exact hie i1 (hg.trans i2) e
  have key : Stuck n s' ∧ Grown s s' := by
    cases op with
    | insert k v => exact hwr hs
    | remove k => exact hwr hs
    | get k =>
      simp only [stepErr] at hs
      split at hs
      · simp at hs
      · exact hge hs
    | containsKey k =>
      simp only [stepErr] at hs
      split at hs
      · simp at hs
      · exact hge hs
    | lenHint => simp only [stepErr, (stuck_replace hw).2] at hs; simp at hs
    | len => exact hia hs
    | isEmpty => exact hia hs
    | iter => exact hia hs
    | hold => exact hia hs
    | min =>
      rcases List.mem_append.1 hs with hs | hs
      · exact hie hw hg hs
      · exact hge hs
    | max =>
      rcases List.mem_append.1 hs with hs | hs
      · exact hie hw hg hs
      · exact hge hs
    | flush => exact hfl hs
    | reopen => exact hfl hs
    | clear => exact absurd ho (by simp [Orderly])
    | release => simp [stepErr] at hs
  refine ⟨key.1, key.2, ?_⟩
  cases op <;> first | exact ho | exact absurd ho (by simp [Orderly])

theorem stuck_runs (L : Laws kd x) {c : Cfg K V} : ∀ (es : List (Ev K V)) {n : Nat} {s s' : Store kd}, Stuck n s →
    Orderly n es → Runs c s es s' → (∃ m, Stuck m s') ∧ Grown s s'
  | [], n, s, s', h, _, hr => by
    simp only [Runs] at hr; subst hr; exact ⟨⟨n, h⟩, .refl _⟩
  | .done op d r :: es, n, s, s', h, ho, hr => by
    obtain ⟨s1, e, hr⟩ := hr
    obtain ⟨m, k1, k2, k3⟩ := stuck_step L h ho e
    obtain ⟨j1, j2⟩ := stuck_runs L es k1 k3 hr
    exact ⟨j1, k2.trans j2⟩
  | .failed op d f :: es, n, s, s', h, ho, hr => by
    obtain ⟨s1, e, hr⟩ := hr
    obtain ⟨k1, k2, k3⟩ := stuck_stepErr L h ho e
    obtain ⟨j1, j2⟩ := stuck_runs L es k1 k3 hr
    exact ⟨j1, k2.trans j2⟩
  | .died :: es, n, s, s', h, ho, hr => by
    simp only [Runs] at hr
    exact stuck_runs L es (s := s.die) ⟨rfl, h.next, h.locks⟩ ho hr

omit [DecidableEq V] in
theorem tryReplace_quiet {s s' : Store kd} (h : s.tryReplace = some s') : s'.job = s.job ∧ s'.next = none := by
  unfold tryReplace at h
  split at h
  · rename_i hn
    simp only [Option.some.injEq] at h; rw [← h]; exact ⟨rfl, hn⟩
  · simp only [Option.map_eq_some_iff] at h
    obtain ⟨t, h1, rfl⟩ := h
    obtain ⟨tr, rfl, _⟩ := removeDirs_some h1
    exact ⟨rfl, rfl⟩

omit [DecidableEq V] in
theorem settle_quiet {s s' : Store kd} (hh : s.Hand) (h : s.settle = some s') : s'.job = none ∧ s'.next = none := by
  unfold settle at h
  split at h
  · split at h
    · simp at h
    · rename_i s1 hj
      obtain ⟨a1, a2⟩ := tryReplace_quiet h
      refine ⟨a1.trans ?_, a2⟩
      unfold join at hj
      simp only at hj
      split at hj
      · simp at hj
      · rename_i hn
        simp only [Option.some.injEq] at hj
        subst hj
        simpa using hn
  · rename_i hf
    simp only [Option.some.injEq] at h
    subst h
    exact hh (by simpa using hf)

omit [DecidableEq V] in
theorem flush_quiet {L : Laws kd x} (hL : ∀ l, L.good l) {c : Cfg K V} {s s' : Store kd} {g : Ghost K V}
    (h : Core L c s g) (hh : s.Hand) (hf : s.flush c = some s') : s'.job = none ∧ s'.next = none := by
  unfold flush at hf
  split at hf
  · exact settle_quiet hh hf
  · rename_i hm
    split at hf
    · simp at hf
    · rename_i s1 e1
      obtain ⟨⟨s2, a1, a2, a3, a4⟩, _⟩ := core_tryCompact hL h hh (by rw [hm]; simp)
      rw [e1] at a1
      simp only [Option.some.injEq] at a1
      subst a1
      exact settle_quiet a3 hf

end

theorem leaks {kd : Kind K V} {x : Bool} (L : Laws kd x) (hL : ∀ l, L.good l) (c : Cfg K V)
    (pre post : List (Ev K V)) (hst : Stays pre) (d : Nat) (ho : Orderly 0 post) {s1 s : Store kd}
    (h1 : Runs c (new kd) (pre ++ [.failed .iter d .read]) s1) (h2 : Runs c s1 post s) :
    s.job = none ∧ 0 < s.locks ∧ ∀ t ∈ kd.tabs s1.cur, t ∈ kd.tabs s.cur := by
  obtain ⟨s0, e0, s1', e1, rfl⟩ := runs_append.1 h1
  obtain ⟨W, k1, k2, _⟩ := core_runs hL pre hst e0
  have hstuck : Stuck 0 s1' := by
    simp only [stepErr, iterAllErr] at e1
    rcases List.mem_append.1 e1 with e1 | e1
    · exfalso
      unfold flushErr at e1
      have hset : ∀ {a : Store kd}, (Fault.read, s1') ∉ a.settleErr := fun h => by
        rcases settle_fault h with h | h <;> simp at h
      split at e1
      · exact hset e1
      · rcases List.mem_append.1 e1 with e1 | e1
        · unfold tryCompactErr at e1
          simp only [List.mem_cons, Prod.mk.injEq, reduceCtorEq, false_and, false_or] at e1
          split at e1
          · simp at e1
          · simp only [List.mem_cons, Prod.mk.injEq, reduceCtorEq, false_and, false_or] at e1
            unfold startErr at e1
            split at e1
            · simp at e1
            · rcases repl_fault e1 with h | h <;> simp at h
        · split at e1
          · simp at e1
          · exact hset e1
    · cases hf : (work d s0).flush c with
      | none => rw [hf] at e1; simp at e1
      | some s2 =>
        rw [hf] at e1
        obtain ⟨q1, q2⟩ := flush_quiet hL (core_work d k1) (hand_work d k2) hf
        simp only [iterErr, tryReplace, tryReplaceErr, q2, List.nil_append, List.mem_singleton, Prod.mk.injEq, true_and] at e1
        subst e1
        exact ⟨q1, rfl, Nat.succ_pos _⟩
  obtain ⟨⟨m, j1⟩, j2⟩ := stuck_runs L post hstuck ho h2
  exact ⟨j1.job, Nat.lt_of_le_of_lt (Nat.zero_le _) j1.locks, j2⟩

/-- C70 is violated: one failing iteration switches compactions off.  If `iter` (or `len`, or `is_empty`) cannot read the
first entry of a table, the count of iterators stays incremented.  From then on, until the map is cleared or
opened again, no compaction is started: whatever is called, all tables stay in use, and every flush adds one. -/
theorem C70_leak_violated (c : Cfg K V) (p : Leveled.Params) (q : SizeTiered.Params) (pre post : List (Ev K V))
    (hst : Stays pre) (d : Nat) (ho : Orderly 0 post) :
    (∀ s1 s, Runs c (new (Leveled.kind c p)) (pre ++ [.failed .iter d .read]) s1 → Runs c s1 post s →
      s.job = none ∧ ∀ t ∈ (Leveled.kind c p).tabs s1.cur, t ∈ (Leveled.kind c p).tabs s.cur) ∧
    ∀ s1 s, Runs c (new (SizeTiered.kind c q)) (pre ++ [.failed .iter d .read]) s1 → Runs c s1 post s →
      s.job = none ∧ ∀ t ∈ (SizeTiered.kind c q).tabs s1.cur, t ∈ (SizeTiered.kind c q).tabs s.cur :=
  ⟨fun _ _ h1 h2 => have h := leaks (Leveled.laws c p) (fun _ => trivial) c pre post hst d ho h1 h2; ⟨h.1, h.2.2⟩,
    fun _ _ h1 h2 => have h := leaks (SizeTiered.laws c q) (fun _ => trivial) c pre post hst d ho h1 h2; ⟨h.1, h.2.2⟩⟩

/-! ### Examples -/

/-- A choice of what happens next: a call; a call that fails in the `i`-th way that it can; an error in the
thread. -/
inductive Move (K V : Type) where
  | call (op : KvOp K V) (d : Nat)
  | fail (op : KvOp K V) (d i : Nat)
  | kill

/-- The events and the state after the moves. -/
def play {kd : Kind K V} (c : Cfg K V) : Store kd → List (Move K V) → Option (List (Ev K V) × Store kd)
  | s, [] => some ([], s)
  | s, .call op d :: ms =>
    match s.step c op d with
    | none => none
    | some (s, r) => (play c s ms).map fun (es, s) => (.done op d r :: es, s)
  | s, .fail op d i :: ms =>
    match ((work d s).stepErr c op)[i]? with
    | none => none
    | some (f, s) => (play c s ms).map fun (es, s) => (.failed op d f :: es, s)
  | s, .kill :: ms => (play c s.die ms).map fun (es, s) => (.died :: es, s)

theorem play_runs {kd : Kind K V} {c : Cfg K V} : ∀ (ms : List (Move K V)) {s s' : Store kd} {es : List (Ev K V)},
    play c s ms = some (es, s') → Runs c s es s'
  | [], s, s', es, h => by
    simp only [play, Option.some.injEq, Prod.mk.injEq] at h
    obtain ⟨rfl, rfl⟩ := h; rfl
  | .call op d :: ms, s, s', es, h => by
    simp only [play] at h
    split at h
    · simp at h
    · rename_i s1 r e
      simp only [Option.map_eq_some_iff, Prod.mk.injEq] at h
      obtain ⟨⟨es1, s2⟩, e2, rfl, rfl⟩ := h
      exact ⟨s1, e, play_runs ms e2⟩
  | .fail op d i :: ms, s, s', es, h => by
    simp only [play] at h
    split at h
    · simp at h
    · rename_i f s1 e
      simp only [Option.map_eq_some_iff, Prod.mk.injEq] at h
      obtain ⟨⟨es1, s2⟩, e2, rfl, rfl⟩ := h
      exact ⟨s1, List.mem_of_getElem? e, play_runs ms e2⟩
  | .kill :: ms, s, s', es, h => by
    simp only [play, Option.map_eq_some_iff, Prod.mk.injEq] at h
    obtain ⟨⟨es1, s2⟩, e2, rfl, rfl⟩ := h
    exact play_runs (s := s.die) ms e2

theorem play_events {kd : Kind K V} {c : Cfg K V} {ms : List (Move K V)} {s : Store kd} {es : List (Ev K V)}
    (h : (play c s ms).map (·.1) = some es) : ∃ s', Runs c s es s' := by
  obtain ⟨⟨es', s'⟩, h1, rfl⟩ := Option.map_eq_some_iff.1 h
  exact ⟨s', play_runs ms h1⟩

/-- `C70_exact_partial`, `C70_partial`, `C70_flushed_partial` are not vacuous: all kinds of failures but `fill`, and a
compaction that dies. -/
example : ∃ s, Runs Example.cfg (new (Leveled.kind Example.cfg Example.leveled))
    [.done (.insert 1 10) 0 .unit, .failed (.insert 2 20) 0 .clock, .failed .flush 0 .create,
      .done (.insert 3 30) 0 .unit, .failed .flush 0 .list, .done (.insert 4 40) 0 .unit, .done .flush 0 .unit,
      .done (.insert 5 50) 0 .unit, .failed .iter 0 .list, .died, .done (.remove 1) 0 .unit, .failed .len 0 .delete,
      .failed (.get 7) 0 .read, .done (.get 3) 0 (.val (some 30)),
      .done .iter 0 (.list [(3, 30), (4, 40), (5, 50)])] s :=
  play_events (ms := [.call (.insert 1 10) 0, .fail (.insert 2 20) 0 0, .fail .flush 0 0, .call (.insert 3 30) 0,
    .fail .flush 0 2, .call (.insert 4 40) 0, .call .flush 0, .call (.insert 5 50) 0, .fail .iter 0 2, .kill,
    .call (.remove 1) 0, .fail .len 0 3, .fail (.get 7) 0 0, .call (.get 3) 0, .call .iter 0]) (by decide +kernel)

/-- What `C70_exact_partial` says of a history in which memory is lost: key 1 was written out and stays, the removal
of key 1 and the insertion of key 2 are lost. -/
example : ∃ s, Runs Example.cfg (new (Leveled.kind Example.cfg Example.leveled))
    [.done (.insert 1 10) 0 .unit, .done .flush 0 .unit, .done (.remove 1) 0 .unit, .done (.insert 2 20) 0 .unit,
      .done (.get 1) 0 (.val none), .failed .flush 0 .fill, .done (.get 1) 0 (.val (some 10)),
      .done (.get 2) 0 (.val none)] s :=
  play_events (ms := [.call (.insert 1 10) 0, .call .flush 0, .call (.remove 1) 0, .call (.insert 2 20) 0,
    .call (.get 1) 0, .fail .flush 0 1, .call (.get 1) 0, .call (.get 2) 0]) (by decide +kernel)

/-- `C70_sizeTiered_partial` is not vacuous. -/
example : ∃ s, Runs Example.cfg (new (SizeTiered.kind Example.cfg Example.tiered))
    [.done (.insert 1 10) 0 .unit, .done .flush 0 .unit, .done (.insert 2 20) 0 .unit, .done .flush 0 .unit,
      .done (.insert 3 30) 0 .unit, .failed .flush 0 .delete, .done (.get 2) 0 (.val (some 20))] s :=
  play_events (ms := [.call (.insert 1 10) 0, .call .flush 0, .call (.insert 2 20) 0, .call .flush 0,
    .call (.insert 3 30) 0, .fail .flush 0 4, .call (.get 2) 0]) (by decide +kernel)

/-- `C70_violated`, `C70_flush_violated` are not vacuous. -/
example : [(1, 10), (2, 20)] ≠ ([] : List (Nat × Nat)) ∧ ([(1, 10), (2, 20)].map (·.1)).Nodup ∧
    bytes Example.cfg [(1, 10), (2, 20)] ≤ Example.cfg.maxMem := by decide +kernel

/-- `C70_panic_violated` is not vacuous. -/
example : ∃ s, Runs Example.cfg (new (Leveled.kind Example.cfg Example.leveled))
    ([.done (.insert 7 70) 0 .unit, .done .flush 0 .unit] ++ [.done (.insert 1 10) 0 .unit, .failed .flush 0 .create]) s :=
  play_events (ms := [.call (.insert 7 70) 0, .call .flush 0, .call (.insert 1 10) 0, .fail .flush 0 0])
    (by decide +kernel)

/-- `C70_leak_violated` is not vacuous: with one iteration that fails, three flushes leave three tables, and without
it they leave one. -/
example : (play Example.cfg (new (SizeTiered.kind Example.cfg Example.tiered))
      [.call (.insert 1 10) 0, .fail .iter 0 3, .call (.insert 2 20) 0, .call .flush 0, .call (.insert 3 30) 0,
        .call .hold 0, .call .release 0, .call .flush 0]).map (fun a => (a.1.take 2, a.2.cur.length)) =
    some ([.done (.insert 1 10) 0 .unit, .failed .iter 0 .read], 3) ∧
    (play Example.cfg (new (SizeTiered.kind Example.cfg Example.tiered))
      [.call (.insert 1 10) 0, .call .iter 0, .call (.insert 2 20) 0, .call .flush 0, .call (.insert 3 30) 0,
        .call .hold 0, .call .release 0, .call .flush 0]).map (·.2.cur.length) = some 1 := by decide +kernel

/-- C70 is violated: a failing call can leave a directory that cannot be opened again, although the calls after it
return.  When the result of a compaction is taken over, the old tables are deleted before the metadata is
written; if one of them cannot be deleted, the metadata is not written, and no later call that has nothing to
write makes up for it. -/
theorem C70_open_violated :
    (∃ s, Runs Example.cfg (new (SizeTiered.kind Example.cfg Example.tiered))
      [.done (.insert 1 10) 0 .unit, .done .flush 0 .unit, .done (.insert 2 20) 0 .unit, .done .flush 0 .unit,
        .done (.insert 3 30) 0 .unit, .failed .flush 0 .delete, .done (.get 2) 0 (.val (some 20)), .done .flush 0 .unit] s ∧
      s.step Example.cfg .reopen 0 = none) ∧
    ∃ s, Runs Example.cfg (new (Leveled.kind Example.cfg Example.leveled))
      [.done (.insert 1 10) 0 .unit, .done .flush 0 .unit, .done (.insert 2 20) 0 .unit, .failed .flush 0 .delete,
        .done (.get 2) 0 (.val (some 20)), .done .flush 0 .unit] s ∧
      s.step Example.cfg .reopen 0 = none := by
  constructor
  · have h : (play Example.cfg (new (SizeTiered.kind Example.cfg Example.tiered))
        [.call (.insert 1 10) 0, .call .flush 0, .call (.insert 2 20) 0, .call .flush 0, .call (.insert 3 30) 0,
          .fail .flush 0 4, .call (.get 2) 0, .call .flush 0]).map
        (fun a => (a.1, (a.2.step Example.cfg .reopen 0).isNone)) = some ([.done (.insert 1 10) 0 .unit, .done .flush 0 .unit, .done (.insert 2 20) 0 .unit, .done .flush 0 .unit,
          .done (.insert 3 30) 0 .unit, .failed .flush 0 .delete, .done (.get 2) 0 (.val (some 20)), .done .flush 0 .unit], true) := by decide +kernel
    obtain ⟨⟨es, s⟩, h1, h2⟩ := Option.map_eq_some_iff.1 h
    simp only [Prod.mk.injEq] at h2
    obtain ⟨rfl, h2⟩ := h2
    exact ⟨s, play_runs _ h1, by simpa using h2⟩
  · have h : (play Example.cfg (new (Leveled.kind Example.cfg Example.leveled))
        [.call (.insert 1 10) 0, .call .flush 0, .call (.insert 2 20) 0,
          .fail .flush 0 4, .call (.get 2) 0, .call .flush 0]).map
        (fun a => (a.1, (a.2.step Example.cfg .reopen 0).isNone)) = some ([.done (.insert 1 10) 0 .unit, .done .flush 0 .unit, .done (.insert 2 20) 0 .unit, .failed .flush 0 .delete,
          .done (.get 2) 0 (.val (some 20)), .done .flush 0 .unit], true) := by decide +kernel
    obtain ⟨⟨es, s⟩, h1, h2⟩ := Option.map_eq_some_iff.1 h
    simp only [Prod.mk.injEq] at h2
    obtain ⟨rfl, h2⟩ := h2
    exact ⟨s, play_runs _ h1, by simpa using h2⟩

end Verif.Lsm
