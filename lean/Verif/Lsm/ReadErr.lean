/-
C71: reading a table fails in the middle of an iteration of the LSM map, with both strategies.

After the failing read, the run it belongs to (a table, or a level) has no entry in the heap any more, so nothing more
is read from it.  So what matters of a run is how many of its entries can be read, and whether the read after
them fails.
-/
import Verif.Lsm.Props
import Mathlib.Data.List.Forall2

namespace Verif.Lsm

open Verif Verif.Spec Store

variable {K V : Type}

/-! ### The model -/

/-- A run as it is read: the entry in the heap followed by the entries that can still be read, and whether the read
after them fails (sstable.rs:350-381) instead of finding the end. -/
abbrev Tape (K V : Type) := List (Ent K V) × Bool

/-- The tape of a run of which the first entry can be read, in an iteration in which reads may fail.  (If the first
entry of a run cannot be read, `iter` itself returns the error, see C70.) -/
def Reads (l : List (Ent K V)) (t : Tape K V) : Prop :=
  t.1 <+: l ∧ (t.2 = false → t.1 = l) ∧ (t.2 = true → t.1 ≠ [])

/-- The entries are popped and read from the tape: size_tiered.rs:614-622, leveled.rs:772-787.  The result is the
entry that was popped, whether the read of the next one succeeded, and the tapes after that. -/
def pickTape [LinearOrder K] : List (Tape K V) → Option (Ent K V × Bool × List (Tape K V))
  | [] => none
  | ([], b) :: ts => (pickTape ts).map fun (e, ok, ts) => (e, ok, ([], b) :: ts)
  | (e :: r, b) :: ts =>
    let here := (e, !(b && r.isEmpty), (r, b && !r.isEmpty) :: ts)
    match pickTape ts with
    | none => some here
    | some (e', ok, ts') => if before e' e then some (e', ok, (e :: r, b) :: ts') else some here

/-- size_tiered.rs:553-560, 613-636, leveled.rs:667-678, 771-801: what the calls of `next` return until `None`:
`some p` is `Ok(p)`, `none` is an error.  After an error the entry popped is gone and `last_key_opt` is not changed.  The
first argument bounds the number of pops. -/
def nexts [LinearOrder K] : Nat → Option K → List (Tape K V) → List (Option (K × V))
  | 0, _, _ => []
  | n + 1, last, ts =>
    match pickTape ts with
    | none => []
    | some (_, false, ts) => none :: nexts n last ts
    | some (e, true, ts) =>
      if last = some e.1 then nexts n last ts
      else
        match e.2.data with
        | none => nexts n (some e.1) ts
        | some v => some (e.1, v) :: nexts n (some e.1) ts

/-- The number of entries on the tapes. -/
def left (ts : List (Tape K V)) : Nat := (ts.map fun t => t.1.length).sum

/-- Everything an iterator yields. -/
def yields [LinearOrder K] (ts : List (Tape K V)) : List (Option (K × V)) := nexts (left ts) none ts

/-- size_tiered.rs:489-491, leveled.rs:593-595 `len`: `Ok(self.iter()?.count())`, which counts errors as well. -/
def lenOf (items : List (Option (K × V))) : Nat := items.length

/-- size_tiered.rs:524-529, leveled.rs:628-633 `min`: `none` is an error. -/
def minOf (items : List (Option (K × V))) : Option (Option K) :=
  match items.head? with
  | some (some p) => some (some p.1)
  | some none => none
  | none => some none

/-- size_tiered.rs:531-536, leveled.rs:635-640 `max`: only the last item matters; `none` is an error. -/
def maxOf (items : List (Option (K × V))) : Option (Option K) :=
  match items.getLast? with
  | some (some p) => some (some p.1)
  | some none => none
  | none => some none

/-! ### Up to the first error -/

variable [LinearOrder K]

theorem pickTape_reads : ∀ {ls : List (List (Ent K V))} {ts : List (Tape K V)}, List.Forall₂ Reads ls ts →
    (pickTape ts = none → pick ls = none) ∧
    ∀ e ok ts', pickTape ts = some (e, ok, ts') → left ts = left ts' + 1 ∧ ∃ ls', pick ls = some (e, ls') ∧
      total ls = total ls' + 1 ∧ (ok = true → List.Forall₂ Reads ls' ts')
  | _, _, .nil => ⟨fun _ => rfl, by simp [pickTape]⟩
  | l :: ls, (p, b) :: ts, .cons h hs => by
    obtain ⟨i1, i2⟩ := pickTape_reads hs
    obtain ⟨h1, h2, h3⟩ := h
    simp only at h1 h2 h3
    cases p with
    | nil =>
      have hb : b = false := by cases b <;> simp_all
      subst hb
      obtain rfl := h2 rfl
      constructor
      · intro hn
        simp only [pickTape, Option.map_eq_none_iff] at hn
        simp [pick, i1 hn]
      · intro e ok ts' hp
        simp only [pickTape, Option.map_eq_some_iff, Prod.mk.injEq] at hp
        obtain ⟨⟨e1, ok1, ts1⟩, hp, rfl, rfl, rfl⟩ := hp
        obtain ⟨j1, ls', j2, j3, j4⟩ := i2 _ _ _ hp
        refine ⟨by simpa [left] using j1, [] :: ls', by simp [pick, j2], by simpa [total] using j3, fun hok => ?_⟩
        exact .cons ⟨List.prefix_rfl, fun _ => rfl, by simp⟩ (j4 hok)
    | cons a p =>
      obtain ⟨q, rfl⟩ := h1
      simp only [List.cons_append]
      have hhere : left ((a :: p, b) :: ts) = left ((p, b && !p.isEmpty) :: ts) + 1 ∧
          total ((a :: (p ++ q)) :: ls) = total ((p ++ q) :: ls) + 1 ∧
          ((!(b && p.isEmpty)) = true → List.Forall₂ Reads ((p ++ q) :: ls) ((p, b && !p.isEmpty) :: ts)) := by
        refine ⟨by simp only [left, List.map_cons, List.sum_cons, List.length_cons]; omega,
          by simp only [total, List.map_cons, List.sum_cons, List.length_cons]; omega, fun hok => .cons ⟨⟨q, rfl⟩, ?_, ?_⟩ hs⟩
        · intro hb
          simp only at hb ⊢
          have : b = false := by
            cases b with
            | false => rfl
            | true => cases p <;> simp at hb hok
          simpa using h2 this
        · intro hb
          simp only at hb ⊢
          intro hp; simp [hp] at hb
      constructor
      · intro hn
        simp only [pickTape] at hn
        split at hn
        · simp at hn
        · split at hn <;> simp at hn
      · intro e ok ts' hp
        simp only [pickTape] at hp
        simp only [pick]
        cases hq : pickTape ts with
        | none =>
          rw [hq] at hp
          simp only [Option.some.injEq, Prod.mk.injEq] at hp
          obtain ⟨rfl, rfl, rfl⟩ := hp
          rw [i1 hq]
          exact ⟨hhere.1, _, rfl, hhere.2.1, hhere.2.2⟩
        | some r =>
          obtain ⟨e1, ok1, ts1⟩ := r
          obtain ⟨j1, ls1, j2, j3, j4⟩ := i2 _ _ _ hq
          rw [hq] at hp
          rw [j2]
          simp only at hp ⊢
          split at hp
          · rename_i hbf
            simp only [Option.some.injEq, Prod.mk.injEq] at hp
            obtain ⟨rfl, rfl, rfl⟩ := hp
            rw [if_pos hbf]
            refine ⟨?_, _, rfl, ?_, fun hok => .cons ⟨⟨q, rfl⟩, h2, h3⟩ (j4 hok)⟩
            · simp only [left, List.map_cons, List.sum_cons] at j1 ⊢; omega
            · simp only [total, List.map_cons, List.sum_cons] at j3 ⊢; omega
          · rename_i hbf
            simp only [Option.some.injEq, Prod.mk.injEq] at hp
            obtain ⟨rfl, rfl, rfl⟩ := hp
            rw [if_neg hbf]
            exact ⟨hhere.1, _, rfl, hhere.2.1, hhere.2.2⟩

theorem nexts_prefix : ∀ (n m : Nat) (last : Option K) {ls : List (List (Ent K V))} {ts : List (Tape K V)},
    List.Forall₂ Reads ls ts → left ts ≤ n → total ls ≤ m →
    nexts n last ts = (live (mergeLoop m last ls)).map some ∨
      ∃ i rest, nexts n last ts = ((live (mergeLoop m last ls)).take i).map some ++ none :: rest := by
  intro n
  induction n with
  | zero =>
    intro m last ls ts h hn hm
    left
    obtain ⟨h1, h2⟩ := pickTape_reads h
    have hp : pickTape ts = none := by
      cases hp : pickTape ts with
      | none => rfl
      | some r => have := (h2 r.1 r.2.1 r.2.2 hp).1; omega
    cases m with
    | zero => rfl
    | succ m => simp [nexts, mergeLoop, h1 hp, live]
  | succ n ih =>
    intro m last ls ts h hn hm
    obtain ⟨h1, h2⟩ := pickTape_reads h
    simp only [nexts]
    cases hp : pickTape ts with
    | none =>
      left
      simp only
      cases m with
      | zero => rfl
      | succ m => simp [mergeLoop, h1 hp, live]
    | some r =>
      obtain ⟨e, ok, ts'⟩ := r
      obtain ⟨k1, ls', k2, k3, k4⟩ := h2 _ _ _ hp
      cases ok with
      | false =>
        simp only
        right
        exact ⟨0, nexts n last ts', by simp⟩
      | true =>
        cases m with
        | zero => omega
        | succ m =>
          simp only [mergeLoop, k2]
          have ih' := fun last => ih m last (k4 rfl) (by omega) (by omega)
          split
          · exact ih' last
          · cases hd : e.2.data with
            | none =>
              simp only [live, List.filterMap_cons, hd, Option.map_none]
              exact ih' _
            | some v =>
              simp only [live, List.filterMap_cons, hd, Option.map_some, List.map_cons, List.cons.injEq, true_and]
              rcases ih' (some e.1) with i | ⟨i, rest, hi⟩
              · exact .inl i
              · exact .inr ⟨i + 1, rest, by rw [hi]; simp [live]⟩

/-! ### All that is yielded -/

/-- The entries of a run that take part in the iteration: if a read fails, the last entry read before it is lost as
well, since it is dropped when the error is returned. -/
def kept (t : Tape K V) : List (Ent K V) := if t.2 then t.1.dropLast else t.1

/-- The entry in the heap. -/
theorem not_before_trans {a b c : Ent K V} (h1 : ¬ before a b) (h2 : ¬ before b c) : ¬ before a c := by
  simp only [before, not_or, not_and, not_lt] at *
  obtain ⟨a1, a2⟩ := h1
  obtain ⟨b1, b2⟩ := h2
  refine ⟨b1.trans a1, fun h => ?_⟩
  have hab : a.1 = b.1 := le_antisymm (h ▸ b1) a1
  exact (a2 hab).trans (b2 (hab ▸ h))

omit [LinearOrder K] in
theorem kept_cons (a : Ent K V) (p : List (Ent K V)) (b : Bool) :
    kept (a :: p, b) = if b && p.isEmpty then [] else a :: kept (p, b && !p.isEmpty) := by
  unfold kept
  cases b <;> cases p <;> simp

theorem irrefl_before (a : Ent K V) : ¬ before a a := by simp [before]

/-- The number of runs with a read that fails. -/
def fails (ts : List (Tape K V)) : Nat := ts.countP (·.2)

/-- Only the read after some entry fails. -/
def Started (ts : List (Tape K V)) : Prop := ∀ t ∈ ts, t.2 = true → t.1 ≠ []

/-- One pop, seen from the entries that take part in the iteration. -/
theorem pickTape_kept : ∀ {ts : List (Tape K V)}, Started ts →
    (pickTape ts = none → pick (ts.map kept) = none ∧ fails ts = 0) ∧
    ∀ e ok ts', pickTape ts = some (e, ok, ts') → Started ts' ∧ left ts = left ts' + 1 ∧
      (∀ e' ls', pick (ts.map kept) = some (e', ls') → ¬ before e' e) ∧
      (ok = true → pick (ts.map kept) = some (e, ts'.map kept) ∧ fails ts = fails ts') ∧
      (ok = false → ts.map kept = ts'.map kept ∧ fails ts = fails ts' + 1)
  | [], _ => ⟨fun _ => ⟨rfl, rfl⟩, by simp [pickTape]⟩
  | ([], b) :: ts, hw => by
    have hb : b = false := by
      cases b with
      | false => rfl
      | true => exact absurd rfl (hw (([], true) : Tape K V) (by simp) rfl)
    subst hb
    obtain ⟨i1, i2⟩ := pickTape_kept (ts := ts) fun t ht => hw t (List.mem_cons_of_mem _ ht)
    have hk : kept (([], false) : Tape K V) = [] := by simp [kept]
    constructor
    · intro hn
      simp only [pickTape, Option.map_eq_none_iff] at hn
      obtain ⟨j1, j2⟩ := i1 hn
      exact ⟨by simp [hk, pick, j1], by simpa [fails] using j2⟩
    · intro e ok ts' h
      simp only [pickTape, Option.map_eq_some_iff, Prod.mk.injEq] at h
      obtain ⟨⟨e1, ok1, ts1⟩, hp, rfl, rfl, rfl⟩ := h
      obtain ⟨j1, j2, j3, j4, j5⟩ := i2 _ _ _ hp
      refine ⟨?_, by simpa [left] using j2, ?_, fun hok => ?_, fun hok => ?_⟩
      · intro t ht
        rcases List.mem_cons.1 ht with rfl | ht
        · simp
        · exact j1 t ht
      · intro e' ls' h'
        simp only [List.map_cons, hk, pick, Option.map_eq_some_iff, Prod.mk.injEq] at h'
        obtain ⟨⟨e2, ls2⟩, hp', rfl, rfl⟩ := h'
        exact j3 _ _ hp'
      · obtain ⟨a1, a2⟩ := j4 hok
        exact ⟨by simp [hk, pick, a1], by simpa [fails] using a2⟩
      · obtain ⟨a1, a2⟩ := j5 hok
        exact ⟨by simp [a1], by simpa [fails] using a2⟩
  | (a :: p, b) :: ts, hw => by
    have hwt : Started ts := fun t ht => hw t (List.mem_cons_of_mem _ ht)
    obtain ⟨i1, i2⟩ := pickTape_kept hwt
    -- popping the head of this run
    have here : (∀ e' ls', pick (ts.map kept) = some (e', ls') → ¬ before e' a) →
        Started ((p, b && !p.isEmpty) :: ts) ∧ left ((a :: p, b) :: ts) = left ((p, b && !p.isEmpty) :: ts) + 1 ∧
        (∀ e' ls', pick (((a :: p, b) :: ts).map kept) = some (e', ls') → ¬ before e' a) ∧
        ((!(b && p.isEmpty)) = true →
          pick (((a :: p, b) :: ts).map kept) = some (a, ((p, b && !p.isEmpty) :: ts).map kept) ∧
            fails ((a :: p, b) :: ts) = fails ((p, b && !p.isEmpty) :: ts)) ∧
        ((!(b && p.isEmpty)) = false →
          ((a :: p, b) :: ts).map kept = ((p, b && !p.isEmpty) :: ts).map kept ∧
            fails ((a :: p, b) :: ts) = fails ((p, b && !p.isEmpty) :: ts) + 1) := by
      intro hmin
      refine ⟨?_, ?_, ?_, ?_, ?_⟩
      · intro t ht
        rcases List.mem_cons.1 ht with rfl | ht
        · intro hb hp
          simp only at hb hp
          simp [hp] at hb
        · exact hwt t ht
      · simp only [left, List.map_cons, List.sum_cons, List.length_cons]; omega
      · intro e' ls' h'
        simp only [List.map_cons, kept_cons] at h'
        split at h'
        · simp only [pick, Option.map_eq_some_iff, Prod.mk.injEq] at h'
          obtain ⟨⟨e2, ls2⟩, hp', rfl, rfl⟩ := h'
          exact hmin _ _ hp'
        · simp only [pick] at h'
          cases hq : pick (ts.map kept) with
          | none =>
            rw [hq] at h'
            simp only [Option.some.injEq, Prod.mk.injEq] at h'
            rw [← h'.1]; exact irrefl_before a
          | some r =>
            rw [hq] at h'
            simp only [if_neg (hmin r.1 r.2 hq), Option.some.injEq, Prod.mk.injEq] at h'
            rw [← h'.1]; exact irrefl_before a
      · intro hok
        have hb : (b && p.isEmpty) = false := by rw [← Bool.not_eq_true', hok]
        constructor
        · simp only [List.map_cons, kept_cons, hb, Bool.false_eq_true, if_false, pick]
          cases hq : pick (ts.map kept) with
          | none => rfl
          | some r => simp only [if_neg (hmin r.1 r.2 hq)]
        · unfold fails
          rw [List.countP_cons, List.countP_cons]
          cases b <;> cases p <;> simp_all
      · intro hok
        have hb : (b && p.isEmpty) = true := by simpa using hok
        simp only [Bool.and_eq_true, List.isEmpty_iff] at hb
        obtain ⟨rfl, rfl⟩ := hb
        simp [kept, fails]
    constructor
    · intro hn
      exfalso
      simp only [pickTape] at hn
      split at hn
      · simp at hn
      · split at hn <;> simp at hn
    · intro e ok ts' h
      simp only [pickTape] at h
      cases hq : pickTape ts with
      | none =>
        rw [hq] at h
        simp only [Option.some.injEq, Prod.mk.injEq] at h
        obtain ⟨rfl, rfl, rfl⟩ := h
        exact here fun e' ls' h' => by rw [(i1 hq).1] at h'; simp at h'
      | some r =>
        obtain ⟨e1, ok1, ts1⟩ := r
        obtain ⟨j1, j2, j3, j4, j5⟩ := i2 _ _ _ hq
        rw [hq] at h
        simp only at h
        split at h
        · rename_i hbf
          simp only [Option.some.injEq, Prod.mk.injEq] at h
          obtain ⟨rfl, rfl, rfl⟩ := h
          refine ⟨?_, ?_, ?_, fun hok => ?_, fun hok => ?_⟩
          · intro t ht
            rcases List.mem_cons.1 ht with rfl | ht
            · exact hw _ (by simp)
            · exact j1 t ht
          · simp only [left, List.map_cons, List.sum_cons] at j2 ⊢; omega
          · intro e' ls' h'
            simp only [List.map_cons, kept_cons] at h'
            have hna : ¬ before a e1 := by
              rcases hbf with hbf | ⟨hbf, hbf'⟩
              · rintro (h | ⟨h, _⟩)
                · exact lt_asymm hbf h
                · exact ne_of_lt hbf h.symm
              · rintro (h | ⟨_, h⟩)
                · exact ne_of_lt h hbf.symm
                · exact lt_asymm hbf' h
            split at h'
            · simp only [pick, Option.map_eq_some_iff, Prod.mk.injEq] at h'
              obtain ⟨⟨e2, ls2⟩, hp', rfl, rfl⟩ := h'
              exact j3 _ _ hp'
            · simp only [pick] at h'
              cases hq' : pick (ts.map kept) with
              | none =>
                rw [hq'] at h'
                simp only [Option.some.injEq, Prod.mk.injEq] at h'
                rw [← h'.1]; exact hna
              | some r =>
                rw [hq'] at h'
                simp only at h'
                split at h'
                · simp only [Option.some.injEq, Prod.mk.injEq] at h'
                  rw [← h'.1]; exact j3 _ _ hq'
                · simp only [Option.some.injEq, Prod.mk.injEq] at h'
                  rw [← h'.1]; exact hna
          · obtain ⟨a1, a2⟩ := j4 hok
            refine ⟨?_, by simp only [fails, List.countP_cons] at a2 ⊢; omega⟩
            simp only [List.map_cons, kept_cons]
            split
            · simp [pick, a1]
            · simp only [pick, a1, if_pos hbf]
          · obtain ⟨a1, a2⟩ := j5 hok
            exact ⟨by simp [a1], by simp only [fails, List.countP_cons] at a2 ⊢; omega⟩
        · rename_i hbf
          simp only [Option.some.injEq, Prod.mk.injEq] at h
          obtain ⟨rfl, rfl, rfl⟩ := h
          exact here fun e' ls' h' => not_before_trans (j3 _ _ h') hbf

theorem pick_total : ∀ {ls : List (List (Ent K V))} {e : Ent K V} {ls' : List (List (Ent K V))},
    pick ls = some (e, ls') → total ls = total ls' + 1
  | [], _, _, h => by simp [pick] at h
  | [] :: rs, e, rs', h => by
    simp only [pick, Option.map_eq_some_iff, Prod.mk.injEq] at h
    obtain ⟨⟨e1, rs1⟩, h1, rfl, rfl⟩ := h
    simpa [total] using pick_total h1
  | (a :: r) :: rs, e, rs', h => by
    simp only [pick] at h
    cases hp : pick rs with
    | none =>
      rw [hp] at h
      simp only [Option.some.injEq, Prod.mk.injEq] at h
      rw [← h.2]; simp only [total, List.map_cons, List.sum_cons, List.length_cons]; omega
    | some q =>
      have ih := pick_total (ls := rs) (e := q.1) (ls' := q.2) hp
      rw [hp] at h
      simp only at h
      split at h
      · simp only [Option.some.injEq, Prod.mk.injEq] at h
        rw [← h.2]; simp only [total, List.map_cons, List.sum_cons] at ih ⊢; omega
      · simp only [Option.some.injEq, Prod.mk.injEq] at h
        rw [← h.2]; simp only [total, List.map_cons, List.sum_cons, List.length_cons]; omega

theorem nexts_exact : ∀ (n m : Nat) (last : Option K) {ts : List (Tape K V)}, Started ts → left ts ≤ n →
    total (ts.map kept) ≤ m →
    (nexts n last ts).filterMap id = live (mergeLoop m last (ts.map kept)) ∧
      (nexts n last ts).countP (·.isNone) = fails ts := by
  intro n
  induction n with
  | zero =>
    intro m last ts h hn hm
    obtain ⟨h1, h2⟩ := pickTape_kept h
    have hp : pickTape ts = none := by
      cases hp : pickTape ts with
      | none => rfl
      | some r => have := (h2 r.1 r.2.1 r.2.2 hp).2.1; omega
    obtain ⟨k1, k2⟩ := h1 hp
    cases m with
    | zero => exact ⟨rfl, by simp [nexts, k2]⟩
    | succ m => simp [nexts, mergeLoop, k1, live, k2]
  | succ n ih =>
    intro m last ts h hn hm
    obtain ⟨h1, h2⟩ := pickTape_kept h
    simp only [nexts]
    cases hp : pickTape ts with
    | none =>
      obtain ⟨k1, k2⟩ := h1 hp
      cases m with
      | zero => exact ⟨rfl, by simp [k2]⟩
      | succ m => simp [mergeLoop, k1, live, k2]
    | some r =>
      obtain ⟨e, ok, ts'⟩ := r
      obtain ⟨j1, j2, _, j4, j5⟩ := h2 _ _ _ hp
      cases ok with
      | false =>
        obtain ⟨a1, a2⟩ := j5 rfl
        obtain ⟨b1, b2⟩ := ih m last j1 (by omega) (by rw [← a1]; exact hm)
        simp only [List.filterMap_cons, id, a1]
        exact ⟨b1, by rw [List.countP_cons]; simp [b2, a2]⟩
      | true =>
        obtain ⟨a1, a2⟩ := j4 rfl
        have a3 := pick_total a1
        cases m with
        | zero => omega
        | succ m =>
          simp only [mergeLoop, a1]
          have ih' := fun last => ih m last j1 (by omega) (by omega)
          split
          · rw [a2]; exact ih' last
          · rw [a2]
            cases hd : e.2.data with
            | none =>
              simp only [live, List.filterMap_cons, hd, Option.map_none]
              exact ih' _
            | some v =>
              obtain ⟨b1, b2⟩ := ih' (some e.1)
              refine ⟨?_, ?_⟩
              · simp only [live] at b1
                simp [live, hd, ← b1]
              · rw [List.countP_cons]; simpa using b2

/-! ### C71 -/

variable [DecidableEq V]

omit [LinearOrder K] [DecidableEq V] in
theorem started {ls : List (List (Ent K V))} {ts : List (Tape K V)} (h : List.Forall₂ Reads ls ts) : Started ts := by
  induction h with
  | nil => intro t ht; simp at ht
  | cons h hs ih =>
    intro t ht
    rcases List.mem_cons.1 ht with rfl | ht
    · exact h.2.2
    · exact ih t ht

theorem iter_items {kd : Kind K V} {c : Cfg K V} {s s' : Store kd} {d : Nat} {l : List (K × V)}
    (hs : s.step c .iter d = some (s', .list l)) : l = live (mergeRuns (kd.runs s'.cur)) := by
  simp only [step, Option.bind_eq_some_iff, Option.map_eq_some_iff, Prod.mk.injEq, KvRes.list.injEq] at hs
  obtain ⟨s1, _, s2, _, rfl, rfl⟩ := hs
  rfl

omit [LinearOrder K] [DecidableEq V] in
theorem min_right {l : List (K × V)} {items : List (Option (K × V))}
    (h : items = l.map some ∨ ∃ i rest, items = (l.take i).map some ++ none :: rest) {k : Option K}
    (hk : minOf items = some k) : k = l.head?.map (·.1) := by
  unfold minOf at hk
  rcases h with rfl | ⟨i, rest, rfl⟩
  · cases l with
    | nil => simpa using hk.symm
    | cons a l => simpa using hk.symm
  · cases l with
    | nil => simp at hk
    | cons a l =>
      cases i with
      | zero => simp at hk
      | succ i => simpa using hk.symm

omit [DecidableEq V] in
/-- Every entry that takes part is an entry of its run. -/
theorem kept_sub {ls : List (List (Ent K V))} {ts : List (Tape K V)} (h : List.Forall₂ Reads ls ts) :
    (∀ e, In (ts.map kept) e → In ls e) ∧ ((∀ r ∈ ls, SL.Sorted r) → ∀ r ∈ ts.map kept, SL.Sorted r) := by
  induction h with
  | nil => exact ⟨fun e h => h, fun h => h⟩
  | @cons l t ls ts h hs ih =>
    have hk : (kept t).Sublist l := by
      unfold kept
      split
      · exact (List.dropLast_sublist _).trans h.1.sublist
      · exact h.1.sublist
    constructor
    · rintro e ⟨r, hr, he⟩
      rcases List.mem_cons.1 hr with rfl | hr
      · exact ⟨l, by simp, hk.subset he⟩
      · obtain ⟨r', h1, h2⟩ := ih.1 e ⟨r, hr, he⟩
        exact ⟨r', by simp [h1], h2⟩
    · intro hl r hr
      rcases List.mem_cons.1 hr with rfl | hr
      · exact List.Pairwise.sublist hk (hl l (by simp))
      · exact ih.2 (fun r hr => hl r (by simp [hr])) r hr

/-- No read of a run that has entries of the key fails. -/
def Intact (k : K) (ls : List (List (Ent K V))) (ts : List (Tape K V)) : Prop :=
  List.Forall₂ (fun l t => t.2 = true → ∀ e ∈ l, e.1 ≠ k) ls ts

omit [LinearOrder K] [DecidableEq V] in
theorem intact_in {k : K} {ls : List (List (Ent K V))} {ts : List (Tape K V)} (h : List.Forall₂ Reads ls ts) :
    Intact k ls ts → ∀ e : Ent K V, e.1 = k → In ls e → In (ts.map kept) e := by
  induction h with
  | nil => intro _ e _ h; exact h
  | @cons l t ls ts h hs ih =>
    intro hi e he hin
    cases hi with
    | cons h1 h2 =>
      obtain ⟨r, hr, hre⟩ := hin
      rcases List.mem_cons.1 hr with rfl | hr
      · refine ⟨kept t, by simp, ?_⟩
        cases hb : t.2 with
        | true => exact absurd he (h1 hb e hre)
        | false => unfold kept; rw [hb, h.2.1 hb]; exact hre
      · obtain ⟨r', j1, j2⟩ := ih h2 e he ⟨r, hr, hre⟩
        exact ⟨r', by simp only [List.map_cons]; exact List.mem_cons_of_mem _ j1, j2⟩

/-- The pairs among the items. -/
def pairs (items : List (Option (K × V))) : List (K × V) := items.filterMap id

omit [LinearOrder K] [DecidableEq V] in
theorem max_err {items : List (Option (K × V))} : maxOf items = none ↔ items.getLast? = some none := by
  unfold maxOf
  split <;> simp_all

omit [LinearOrder K] [DecidableEq V] in
theorem max_value {items : List (Option (K × V))} {k : Option K} (h : maxOf items = some k) :
    k = (pairs items).getLast?.map (·.1) := by
  unfold maxOf at h
  rcases List.eq_nil_or_concat items with rfl | ⟨l, a, rfl⟩
  · simpa [pairs] using h.symm
  · cases a with
    | none => simp at h
    | some p => simpa [pairs] using h.symm

omit [LinearOrder K] [DecidableEq V] in
theorem mem_live {l : List (Ent K V)} {k : K} {v : V} : (k, v) ∈ live l ↔ ∃ e ∈ l, e.1 = k ∧ e.2.data = some v := by
  unfold live
  simp only [List.mem_filterMap, Option.map_eq_some_iff, Prod.mk.injEq]
  constructor
  · rintro ⟨e, he, x, hx, rfl, rfl⟩; exact ⟨e, he, rfl, hx⟩
  · rintro ⟨e, he, rfl, hx⟩; exact ⟨e, he, v, hx, rfl, rfl⟩

omit [DecidableEq V] in
theorem live_sorted {l : List (Ent K V)} (h : SL.Sorted l) : (live l).Pairwise fun a b => a.1 < b.1 := by
  unfold live
  refine List.Pairwise.filterMap _ ?_ h
  intro a b hab x hx y hy
  simp only [Option.map_eq_some_iff] at hx hy
  obtain ⟨_, _, rfl⟩ := hx
  obtain ⟨_, _, rfl⟩ := hy
  exact hab

/-- C71, with both strategies and for every state of the map: what an iteration yields when reads of tables fail, in
terms of the list `l` that it yields when they do not.

Up to the first error the pairs are those of `l`.  All pairs together are the result of merging what is left if every
run with a failing read ends one entry before it.  There is an error for every run with a failing read, and `len` returns
the number of pairs and errors together.  If `min` returns a key, it is the right one.  `max`
returns an error if the last item is one, and else the last key that was read. -/
theorem C71_exact {kd : Kind K V} (c : Cfg K V) {s s' : Store kd} {d : Nat} {l : List (K × V)} {ts : List (Tape K V)}
    (hs : s.step c .iter d = some (s', .list l)) (ht : List.Forall₂ Reads (kd.runs s'.cur) ts) :
    (yields ts = l.map some ∨ ∃ i rest, yields ts = (l.take i).map some ++ none :: rest) ∧
    pairs (yields ts) = live (mergeRuns (ts.map kept)) ∧
    (yields ts).countP (·.isNone) = fails ts ∧
    lenOf (yields ts) = (live (mergeRuns (ts.map kept))).length + fails ts ∧
    (∀ k, minOf (yields ts) = some k → k = l.head?.map (·.1)) ∧
    (maxOf (yields ts) = none ↔ (yields ts).getLast? = some none) ∧
    ∀ k, maxOf (yields ts) = some k → k = (pairs (yields ts)).getLast?.map (·.1) := by
  have h1 := nexts_prefix (left ts) (total (kd.runs s'.cur)) none ht le_rfl le_rfl
  obtain ⟨h2, h3⟩ := nexts_exact (left ts) (total (ts.map kept)) none (started ht) le_rfl le_rfl
  have hl : l = live (mergeLoop (total (kd.runs s'.cur)) none (kd.runs s'.cur)) := iter_items hs
  rw [← hl] at h1
  refine ⟨h1, h2, h3, ?_, fun k hk => min_right h1 hk, max_err, fun k hk => max_value hk⟩
  have hlen : ∀ items : List (Option (K × V)), items.length = (items.filterMap id).length + items.countP (·.isNone) := by
    intro items
    induction items with
    | nil => rfl
    | cons a items ih => cases a <;> simp [ih] <;> omega
  unfold lenOf yields
  rw [hlen, h3, h2]
  rfl

omit [LinearOrder K] [DecidableEq V] in
/-- The newest version of a key is unique. -/
theorem newest_unique {T : List (Table K V)} {W : K → Option (Val V)} (h : Sees true T W) {k : K} {v v' : Val V}
    (h1 : Ver T k v) (h2 : Ver T k v') (m1 : ∀ w, Ver T k w → w.time ≤ v.time) (m2 : ∀ w, Ver T k w → w.time ≤ v'.time) :
    v = v' := by
  obtain ⟨w, hw, h3⟩ := h.old k v h1
  obtain ⟨w', hw', h4⟩ := h.old k v' h2
  rw [hw] at hw'
  simp only [Option.some.injEq] at hw'
  subst hw'
  have hv : Ver T k w := by
    cases hd : w.data with
    | some x => exact h.live k w hw (by simp [hd])
    | none =>
      rcases h.dead rfl k w hw hd with h | h
      · exact h
      · exact absurd h1 (h v)
  have a1 := m1 w hv
  have a2 := m2 w hv
  rcases h3 with h3 | rfl
  · omega
  · rcases h4 with h4 | rfl
    · omega
    · rfl

theorem pairs_sound {kd : Kind K V} {x : Bool} (L : Laws kd x) (hL : ∀ l, L.good l) {c : Cfg K V}
    {ops : List (KvOp K V × Nat)} {s s' : Store kd} {rs : List (KvRes K V)}
    (hr : run c (new kd) ops = some (s, rs)) {d : Nat} {l : List (K × V)}
    (hs : s.step c .iter d = some (s', .list l)) {ts : List (Tape K V)} (ht : List.Forall₂ Reads (kd.runs s'.cur) ts) :
    (pairs (yields ts)).Pairwise (fun a b => a.1 < b.1) ∧
    ∀ k v, (k, v) ∈ pairs (yields ts) → ∃ d, (.insert k v, d) ∈ ops := by
  obtain ⟨W, k1, k2, k3, k4⟩ := inv_reach_step (L := L) (goodRun_true (fun _ => hL _) ops _) hr
    (fun _ _ => hL _) hs
  obtain ⟨j1, j2⟩ := kept_sub ht
  have hm := mergeRuns_merged (j2 (L.runs_sorted k1.inv))
  obtain ⟨_, hp, _⟩ := C71_exact c hs ht
  rw [hp]
  refine ⟨live_sorted hm.sorted, fun k v hv => ?_⟩
  obtain ⟨e, he, rfl, hx⟩ := mem_live.1 hv
  have := k1.vals e.1 e.2 v ((L.runs_in k1.inv e).1 (j1 e (hm.sub e he))) hx
  simpa [ghost] using this

/-- C71 with `LeveledStrategy`: after every history, when reads fail in an iteration, the pairs are ascending, a pair
that is yielded was inserted at some time, and for every key that does not occur in a run with a failing read the
iteration is right. -/
theorem C71_partial (c : Cfg K V) (p : Leveled.Params) (ops : List (KvOp K V × Nat)) {s s' : Store (Leveled.kind c p)}
    {rs : List (KvRes K V)} (hr : run c (new (Leveled.kind c p)) ops = some (s, rs)) {d : Nat} {l : List (K × V)}
    (hs : s.step c .iter d = some (s', .list l)) {ts : List (Tape K V)}
    (ht : List.Forall₂ Reads ((Leveled.kind c p).runs s'.cur) ts) :
    (pairs (yields ts)).Pairwise (fun a b => a.1 < b.1) ∧
    (∀ k v, (k, v) ∈ pairs (yields ts) → ∃ d, (.insert k v, d) ∈ ops) ∧
    ∀ k, Intact k ((Leveled.kind c p).runs s'.cur) ts →
      ∀ v, (k, v) ∈ pairs (yields ts) ↔ contents (ops.map (·.1)) k = some v := by
  obtain ⟨a1, a2⟩ := pairs_sound (Leveled.laws c p) (fun _ => trivial) hr hs ht
  refine ⟨a1, a2, fun k hk v => ?_⟩
  obtain ⟨W, k1, k2, k3, k4⟩ := inv_reach_step (L := Leveled.laws c p) (goodRun_true (fun _ => trivial) ops _) hr
    (fun _ _ => trivial) hs
  have hsort := (Leveled.laws c p).runs_sorted k1.inv
  have hin := (Leveled.laws c p).runs_in k1.inv
  obtain ⟨j1, j2⟩ := kept_sub ht
  have hm := mergeRuns_merged (j2 hsort)
  have hM := mergeRuns_merged hsort
  obtain ⟨_, hp, _⟩ := C71_exact c hs ht
  have hans : (k, v) ∈ l ↔ contents (ops.map (·.1)) k = some v := by
    obtain ⟨l', h1, h2⟩ := C37_leveled c p ops hr (op := .iter) trivial hs
    simp only [KvRes.list.injEq] at h2
    subst h2
    exact h1.2 k v
  rw [hp, ← hans, iter_items hs, mem_live, mem_live]
  have huniq : ∀ e ∈ mergeRuns (ts.map kept), ∀ e' ∈ mergeRuns ((Leveled.kind c p).runs s'.cur), e.1 = k → e'.1 = k →
      e = e' := by
    intro e he e' he' hek hek'
    have i1 := j1 e (hm.sub e he)
    have i2 := hM.sub e' he'
    have i3 := hm.newest e he e' (intact_in ht hk e' hek' i2) (hek'.trans hek.symm)
    have v1 : Ver ((Leveled.kind c p).tabs s'.cur) k e.2 := hek ▸ (hin e).1 i1
    have v2 : Ver ((Leveled.kind c p).tabs s'.cur) k e'.2 := hek' ▸ (hin e').1 i2
    have n2 : ∀ w, Ver ((Leveled.kind c p).tabs s'.cur) k w → w.time ≤ e'.2.time := fun w hw =>
      hM.newest e' he' (k, w) ((hin (k, w)).2 hw) hek'.symm
    have := newest_unique k1.sees v1 v2 (fun w hw => (n2 w hw).trans i3) n2
    exact Prod.ext (hek.trans hek'.symm) this
  constructor
  · rintro ⟨e, he, hek, hd⟩
    obtain ⟨e', he', hk'⟩ := hM.all e (j1 e (hm.sub e he))
    have := huniq e he e' he' hek (hk'.trans hek)
    subst this
    exact ⟨e, he', hek, hd⟩
  · rintro ⟨e', he', hek', hd⟩
    obtain ⟨e, he, hk'⟩ := hm.all e' (intact_in ht hk e' hek' (hM.sub e' he'))
    have := huniq e he e' he' (hk'.trans hek') hek'
    subst this
    exact ⟨e, he, hek', hd⟩

/-- C71 with `SizeTieredStrategy`: the pairs are ascending, and a pair that is yielded was inserted at some time. -/
theorem C71_sizeTiered_partial (c : Cfg K V) (p : SizeTiered.Params) (ops : List (KvOp K V × Nat))
    {s s' : Store (SizeTiered.kind c p)} {rs : List (KvRes K V)}
    (hr : run c (new (SizeTiered.kind c p)) ops = some (s, rs)) {d : Nat} {l : List (K × V)}
    (hs : s.step c .iter d = some (s', .list l)) {ts : List (Tape K V)}
    (ht : List.Forall₂ Reads ((SizeTiered.kind c p).runs s'.cur) ts) :
    (pairs (yields ts)).Pairwise (fun a b => a.1 < b.1) ∧
    ∀ k v, (k, v) ∈ pairs (yields ts) → ∃ d, (.insert k v, d) ∈ ops :=
  pairs_sound (SizeTiered.laws c p) (fun _ => trivial) hr hs ht

/-! ### C71: what goes wrong -/

omit [DecidableEq V] in
theorem mergeLoop_single : ∀ (l : List (Ent K V)) (n : Nat) (last : Option K), SL.Sorted l → l.length ≤ n →
    (∀ e ∈ l, last ≠ some e.1) → mergeLoop n last [l] = l
  | [], n, last, _, _, _ => by cases n <;> simp [mergeLoop, pick]
  | e :: l, 0, last, _, h, _ => by simp at h
  | e :: l, n + 1, last, hs, h, hl => by
    have hlt : ∀ x ∈ l, e.1 < x.1 := (List.pairwise_cons.1 hs).1
    simp only [mergeLoop, pick]
    rw [if_neg (hl e (by simp)), mergeLoop_single l n (some e.1) (List.pairwise_cons.1 hs).2 (by simpa using h)]
    intro x hx hc
    simp only [Option.some.injEq] at hc
    exact ne_of_lt (hlt x hx) hc

/-- C71 is violated: `len` returns a wrong number instead of the error.  If all entries of the map are in one table and
none is a removal, then, depending on which read fails, `len` returns any number from 1 up to the right one. -/
theorem C71_len_violated {kd : Kind K V} (c : Cfg K V) {s s' : Store kd} {d n : Nat}
    (hs : s.step c .len d = some (s', .num n)) {l : List (Ent K V)} (hr : kd.runs s'.cur = [l]) (hl : SL.Sorted l)
    (hd : ∀ e ∈ l, e.2.data.isSome) {j : Nat} (h1 : 1 ≤ j) (hj : j ≤ n) :
    ∃ ts, List.Forall₂ Reads (kd.runs s'.cur) ts ∧ lenOf (yields ts) = j := by
  have hlive : ∀ l' : List (Ent K V), (∀ e ∈ l', e.2.data.isSome) → (live l').length = l'.length := by
    intro l'
    induction l' with
    | nil => intro _; rfl
    | cons e l' ih =>
      intro h
      obtain ⟨v, hv⟩ := Option.isSome_iff_exists.1 (h e (by simp))
      have := ih fun e he => h e (by simp [he])
      simp only [live] at this
      simp [live, hv, this]
  have hsingle : ∀ l' : List (Ent K V), SL.Sorted l' → mergeRuns [l'] = l' := fun l' h =>
    mergeLoop_single l' _ none h (by simp [total]) (by simp)
  have hn : n = l.length := by
    simp only [step, Option.bind_eq_some_iff, Option.map_eq_some_iff, Prod.mk.injEq, KvRes.num.injEq] at hs
    obtain ⟨s1, _, s2, _, rfl, rfl⟩ := hs
    unfold items
    rw [hr, hsingle l hl, hlive l hd]
  have hreads : List.Forall₂ Reads [l] [((l.take j, true) : Tape K V)] := by
    refine .cons ⟨List.take_prefix _ _, by simp, fun _ => ?_⟩ .nil
    intro h
    have := congrArg List.length h
    simp only [List.length_take, List.length_nil] at this
    omega
  refine ⟨[(l.take j, true)], hr ▸ hreads, ?_⟩
  obtain ⟨h2, h3⟩ := nexts_exact (left [((l.take j, true) : Tape K V)]) (total ([((l.take j, true) : Tape K V)].map kept))
    none (started hreads) le_rfl le_rfl
  have hlen : ∀ items : List (Option (K × V)), items.length = (items.filterMap id).length + items.countP (·.isNone) := by
    intro items
    induction items with
    | nil => rfl
    | cons a items ih => cases a <;> simp [ih] <;> omega
  have hk : kept ((l.take j, true) : Tape K V) = (l.take j).dropLast := by simp [kept]
  have hsub : (l.take j).dropLast.Sublist l := (List.dropLast_sublist _).trans (List.take_sublist _ _)
  unfold lenOf yields
  rw [hlen, h3, h2]
  simp only [List.map_cons, List.map_nil, hk]
  have := hsingle _ (List.Pairwise.sublist hsub hl)
  unfold mergeRuns at this
  rw [this, hlive _ fun e he => hd e (hsub.subset he)]
  simp only [List.length_dropLast, List.length_take, fails, List.countP_cons, List.countP_nil]
  simp
  omega

namespace Example

/-- A strategy that does not compact in the examples below. -/
def lazyL : Leveled.Params := ⟨10, 60, 1, 2⟩

/-- A strategy that does not compact in the examples below. -/
def lazyT : SizeTiered.Params := ⟨10, 0, fun _ _ _ _ => false⟩

/-- Keys 5 and 9 in one table, 1 and 7 in another one. -/
def twoTables : List (KvOp Nat Nat × Nat) :=
  [(.insert 5 50, 0), (.insert 9 90, 0), (.flush, 0), (.insert 1 10, 0), (.insert 7 70, 0), (.flush, 0)]

/-- Key 1 with its first value in one table, with its second value in another one. -/
def twoVersions : List (KvOp Nat Nat × Nat) := [(.insert 1 10, 0), (.flush, 0), (.insert 1 11, 0), (.flush, 0)]

/-- Key 1 in one table, and its removal in another one. -/
def removal : List (KvOp Nat Nat × Nat) := [(.insert 1 10, 0), (.flush, 0), (.remove 1, 0), (.flush, 0)]

end Example

theorem iter_case {kd : Kind K V} {c : Cfg K V} {ops : List (KvOp K V × Nat)} {ls : List (List (Ent K V))}
    {l : List (K × V)} (h : ((run c (new kd) ops).bind fun a => (a.1.step c .iter 0).map fun b => (kd.runs b.1.cur, b.2)) =
      some (ls, .list l)) :
    ∃ s rs s', run c (new kd) ops = some (s, rs) ∧ s.step c .iter 0 = some (s', .list l) ∧ kd.runs s'.cur = ls := by
  obtain ⟨⟨s, rs⟩, h1, h2⟩ := Option.bind_eq_some_iff.1 h
  obtain ⟨⟨s', r⟩, h3, h4⟩ := Option.map_eq_some_iff.1 h2
  simp only [Prod.mk.injEq] at h4
  obtain ⟨rfl, rfl⟩ := h4
  exact ⟨s, rs, s', h1, h3, rfl⟩

/-- C71 is violated: `max` returns a wrong key instead of the error.  Keys 5 and 9 are in one table, 1 and 7 in
another one; the second read of the first table fails; `max` returns 7.  -/
theorem C71_max_violated :
    (∃ s rs s' l ts, run Example.cfg (new (Leveled.kind Example.cfg Example.lazyL)) Example.twoTables = some (s, rs) ∧
      s.step Example.cfg .iter 0 = some (s', .list l) ∧ List.Forall₂ Reads ((Leveled.kind _ _).runs s'.cur) ts ∧
      l = [(1, 10), (5, 50), (7, 70), (9, 90)] ∧ yields ts = [some (1, 10), none, some (7, 70)] ∧
      maxOf (yields ts) = some (some 7)) ∧
    ∃ s rs s' l ts, run Example.cfg (new (SizeTiered.kind Example.cfg Example.lazyT)) Example.twoTables = some (s, rs) ∧
      s.step Example.cfg .iter 0 = some (s', .list l) ∧ List.Forall₂ Reads ((SizeTiered.kind _ _).runs s'.cur) ts ∧
      l = [(1, 10), (5, 50), (7, 70), (9, 90)] ∧ yields ts = [some (1, 10), none, some (7, 70)] ∧
      maxOf (yields ts) = some (some 7) := by
  have hreads : List.Forall₂ Reads
      [[(5, (⟨some 50, 0⟩ : Val Nat)), (9, ⟨some 90, 1⟩)], [(1, ⟨some 10, 2⟩), (7, ⟨some 70, 3⟩)]]
      [([(5, ⟨some 50, 0⟩)], true), ([(1, ⟨some 10, 2⟩), (7, ⟨some 70, 3⟩)], false)] :=
    .cons ⟨⟨[(9, ⟨some 90, 1⟩)], rfl⟩, by simp, by simp⟩ (.cons ⟨List.prefix_rfl, by simp, by simp⟩ .nil)
  constructor
  · obtain ⟨s, rs, s', h1, h2, h3⟩ := iter_case (kd := Leveled.kind Example.cfg Example.lazyL) (c := Example.cfg)
      (ops := Example.twoTables)
      (ls := [[(5, ⟨some 50, 0⟩), (9, ⟨some 90, 1⟩)], [(1, ⟨some 10, 2⟩), (7, ⟨some 70, 3⟩)]])
      (l := [(1, 10), (5, 50), (7, 70), (9, 90)]) (by decide +kernel)
    exact ⟨s, rs, s', _, _, h1, h2, h3 ▸ hreads, rfl, by decide +kernel, by decide +kernel⟩
  · obtain ⟨s, rs, s', h1, h2, h3⟩ := iter_case (kd := SizeTiered.kind Example.cfg Example.lazyT) (c := Example.cfg)
      (ops := Example.twoTables)
      (ls := [[(5, ⟨some 50, 0⟩), (9, ⟨some 90, 1⟩)], [(1, ⟨some 10, 2⟩), (7, ⟨some 70, 3⟩)]])
      (l := [(1, 10), (5, 50), (7, 70), (9, 90)]) (by decide +kernel)
    exact ⟨s, rs, s', _, _, h1, h2, h3 ▸ hreads, rfl, by decide +kernel, by decide +kernel⟩

/-- C71 is violated: after an error the iterator goes on with outdated pairs.  Key 1 was overwritten, or removed, and
the old version is in another table; the read after the new version fails; the error is followed by the old
value. -/
theorem C71_stale_violated :
    (∃ s rs s' l ts, run Example.cfg (new (Leveled.kind Example.cfg Example.lazyL)) Example.twoVersions = some (s, rs) ∧
      s.step Example.cfg .iter 0 = some (s', .list l) ∧ List.Forall₂ Reads ((Leveled.kind _ _).runs s'.cur) ts ∧
      l = [(1, 11)] ∧ yields ts = [none, some (1, 10)]) ∧
    (∃ s rs s' l ts, run Example.cfg (new (Leveled.kind Example.cfg Example.lazyL)) Example.removal = some (s, rs) ∧
      s.step Example.cfg .iter 0 = some (s', .list l) ∧ List.Forall₂ Reads ((Leveled.kind _ _).runs s'.cur) ts ∧
      l = [] ∧ yields ts = [none, some (1, 10)]) ∧
    ∃ s rs s' l ts, run Example.cfg (new (SizeTiered.kind Example.cfg Example.lazyT)) Example.twoVersions = some (s, rs) ∧
      s.step Example.cfg .iter 0 = some (s', .list l) ∧ List.Forall₂ Reads ((SizeTiered.kind _ _).runs s'.cur) ts ∧
      l = [(1, 11)] ∧ yields ts = [none, some (1, 10)] := by
  have hreads : ∀ v : Val Nat, List.Forall₂ Reads [[(1, (⟨some 10, 0⟩ : Val Nat))], [(1, v)]]
      [([(1, ⟨some 10, 0⟩)], false), ([(1, v)], true)] := fun v =>
    .cons ⟨List.prefix_rfl, by simp, by simp⟩ (.cons ⟨List.prefix_rfl, by simp, by simp⟩ .nil)
  refine ⟨?_, ?_, ?_⟩
  · obtain ⟨s, rs, s', h1, h2, h3⟩ := iter_case (kd := Leveled.kind Example.cfg Example.lazyL) (c := Example.cfg)
      (ops := Example.twoVersions) (ls := [[(1, ⟨some 10, 0⟩)], [(1, ⟨some 11, 1⟩)]]) (l := [(1, 11)]) (by decide +kernel)
    exact ⟨s, rs, s', _, _, h1, h2, h3 ▸ hreads _, rfl, by decide +kernel⟩
  · obtain ⟨s, rs, s', h1, h2, h3⟩ := iter_case (kd := Leveled.kind Example.cfg Example.lazyL) (c := Example.cfg)
      (ops := Example.removal) (ls := [[(1, ⟨some 10, 0⟩)], [(1, ⟨none, 1⟩)]]) (l := []) (by decide +kernel)
    exact ⟨s, rs, s', _, _, h1, h2, h3 ▸ hreads _, rfl, by decide +kernel⟩
  · obtain ⟨s, rs, s', h1, h2, h3⟩ := iter_case (kd := SizeTiered.kind Example.cfg Example.lazyT) (c := Example.cfg)
      (ops := Example.twoVersions) (ls := [[(1, ⟨some 10, 0⟩)], [(1, ⟨some 11, 1⟩)]]) (l := [(1, 11)]) (by decide +kernel)
    exact ⟨s, rs, s', _, _, h1, h2, h3 ▸ hreads _, rfl, by decide +kernel⟩

/-- The hypotheses of `C71_exact`, `C71_partial`, `C71_sizeTiered_partial` are met in `C71_max_violated`; key 7 is
intact there. -/
example : Intact 7 [[(5, (⟨some 50, 0⟩ : Val Nat)), (9, ⟨some 90, 1⟩)], [(1, ⟨some 10, 2⟩), (7, ⟨some 70, 3⟩)]]
    [([(5, ⟨some 50, 0⟩)], true), ([(1, ⟨some 10, 2⟩), (7, ⟨some 70, 3⟩)], false)] :=
  .cons (by simp) (.cons (by simp) .nil)

/-- The hypotheses of `C71_len_violated` are met: three keys in one table. -/
example : ((run Example.cfg (new (Leveled.kind Example.cfg Example.lazyL))
      [(.insert 1 10, 0), (.insert 2 20, 0), (.insert 3 30, 0)]).bind fun a => (a.1.step Example.cfg .len 0).map fun b =>
      ((Leveled.kind Example.cfg Example.lazyL).runs b.1.cur, b.2)) =
    some ([[(1, ⟨some 10, 0⟩), (2, ⟨some 20, 1⟩), (3, ⟨some 30, 2⟩)]], .num 3) := by decide +kernel

end Verif.Lsm
