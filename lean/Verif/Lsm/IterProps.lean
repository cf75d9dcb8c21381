/-
C58: what the iterators of `LsmMap` yield while the map goes on being used.  The model is Verif/Lsm/Iter.lean.
-/
import Verif.Lsm.Iter

namespace Verif.Lsm.Iter

open Verif Verif.Spec Verif.Lsm Store

variable {K V : Type}

/-! ### One iterator -/

/-- The entries of a queue of sources. -/
def ahead (dirs : List (Table K V)) (qs : List (Source K V)) : List (Ent K V) := qs.flatMap fun q => (q.left dirs).getD []

/-- The entries of a run: the one in the heap and those not yet read. -/
def Run.ents (dirs : List (Table K V)) (r : Run K V) : List (Ent K V) := r.head.toList ++ ahead dirs r.rest

/-- All files of the run are there, and it is in the heap unless it has ended. -/
def Run.Ok (dirs : List (Table K V)) (r : Run K V) : Prop :=
  (∀ q ∈ r.rest, (q.left dirs).isSome) ∧ (r.head = none → ahead dirs r.rest = [])

theorem nextEntry_spec {dirs : List (Table K V)} : ∀ {qs : List (Source K V)}, (∀ q ∈ qs, (q.left dirs).isSome) →
    (∀ q ∈ (nextEntry dirs qs).1, (q.left dirs).isSome) ∧
    (((nextEntry dirs qs).2 = .stop ∧ ahead dirs qs = [] ∧ ahead dirs (nextEntry dirs qs).1 = []) ∨
      ∃ e, (nextEntry dirs qs).2 = .entry e ∧ ahead dirs qs = e :: ahead dirs (nextEntry dirs qs).1)
  | [], _ => ⟨by simp [nextEntry], .inl ⟨rfl, rfl, rfl⟩⟩
  | q :: qs, h => by
    have hq := h q (by simp)
    have hqs : ∀ p ∈ qs, (p.left dirs).isSome := fun p hp => h p (List.mem_cons_of_mem _ hp)
    obtain ⟨i1, i2⟩ := nextEntry_spec hqs
    obtain ⟨l, hl⟩ := Option.isSome_iff_exists.1 hq
    cases l with
    | nil =>
      have : nextEntry dirs (q :: qs) = nextEntry dirs qs := by simp [nextEntry, Source.next, hl]
      rw [this]
      have ha : ahead dirs (q :: qs) = ahead dirs qs := by simp [ahead, hl]
      rw [ha]
      exact ⟨i1, i2⟩
    | cons e l =>
      have : nextEntry dirs (q :: qs) = ({ q with file := some l } :: qs, .entry e) := by
        simp [nextEntry, Source.next, hl]
      rw [this]
      refine ⟨?_, .inr ⟨e, rfl, ?_⟩⟩
      · intro p hp
        rcases List.mem_cons.1 hp with rfl | hp
        · simp [Source.left]
        · exact hqs p hp
      · have hl' : Source.left dirs { q with file := some l } = some l := rfl
        simp [ahead, hl, hl']

theorem pull_spec {dirs : List (Table K V)} {qs : List (Source K V)} (h : ∀ q ∈ qs, (q.left dirs).isSome) :
    (pull dirs qs).2 = true ∧ (pull dirs qs).1.Ok dirs ∧ (pull dirs qs).1.ents dirs = ahead dirs qs := by
  obtain ⟨h1, h2⟩ := nextEntry_spec h
  rcases e : nextEntry dirs qs with ⟨qs', g⟩
  rw [e] at h1 h2
  rcases h2 with ⟨rfl, h3, h4⟩ | ⟨e', rfl, h3⟩
  · exact ⟨by simp [pull, e], ⟨by simpa [pull, e] using h1, by simpa [pull, e] using h4⟩,
      by simp only [pull, e, Run.ents]; simp [h3]; exact h4⟩
  · exact ⟨by simp [pull, e], ⟨by simpa [pull, e] using h1, by simp [pull, e]⟩,
      by simp only [pull, e, Run.ents]; simp [h3]⟩

variable [LinearOrder K]

theorem first_none {dirs : List (Table K V)} : ∀ {rs : List (Run K V)}, (∀ r ∈ rs, r.Ok dirs) →
    first (rs.map (·.head)) = none → pick (rs.map (Run.ents dirs)) = none
  | [], _, _ => rfl
  | ⟨none, q⟩ :: rs, h, e => by
    have he : Run.ents dirs ⟨none, q⟩ = [] := by simpa [Run.ents] using (h _ List.mem_cons_self).2 rfl
    simp only [List.map_cons, first, Option.map_eq_none_iff] at e
    simp only [List.map_cons, he, pick, first_none (fun r hr => h r (List.mem_cons_of_mem _ hr)) e, Option.map_none]
  | ⟨some a, q⟩ :: rs, h, e => by
    simp only [List.map_cons, first] at e
    split at e
    · simp at e
    · split at e <;> simp at e

theorem first_some {dirs : List (Table K V)} : ∀ {rs : List (Run K V)} {e : Ent K V} {i : Nat}, (∀ r ∈ rs, r.Ok dirs) →
    first (rs.map (·.head)) = some (e, i) → ∃ r, rs[i]? = some r ∧ r.head = some e ∧
      pick (rs.map (Run.ents dirs)) = some (e, (rs.map (Run.ents dirs)).set i (ahead dirs r.rest))
  | [], _, _, _, e => by simp [first] at e
  | ⟨none, q⟩ :: rs, e, i, h, he => by
    have hn : Run.ents dirs ⟨none, q⟩ = [] := by simpa [Run.ents] using (h _ List.mem_cons_self).2 rfl
    simp only [List.map_cons, first, Option.map_eq_some_iff] at he
    obtain ⟨⟨e', j⟩, h1, h2⟩ := he
    simp only [Prod.mk.injEq] at h2
    obtain ⟨rfl, rfl⟩ := h2
    obtain ⟨r, k1, k2, k3⟩ := first_some (fun r hr => h r (List.mem_cons_of_mem _ hr)) h1
    exact ⟨r, by simpa using k1, k2, by simp only [List.map_cons, hn, pick, k3, Option.map_some, List.set_cons_succ]⟩
  | ⟨some a, q⟩ :: rs, e, i, h, he => by
    have hn : Run.ents dirs ⟨some a, q⟩ = a :: ahead dirs q := rfl
    have ht : ∀ r ∈ rs, r.Ok dirs := fun r hr => h r (List.mem_cons_of_mem _ hr)
    simp only [List.map_cons, first] at he
    simp only [List.map_cons, hn, pick]
    cases hf : first (rs.map (·.head)) with
    | none =>
      rw [hf] at he
      simp only [Option.some.injEq, Prod.mk.injEq] at he
      obtain ⟨rfl, rfl⟩ := he
      rw [first_none ht hf]
      exact ⟨_, rfl, rfl, rfl⟩
    | some p =>
      obtain ⟨e', j⟩ := p
      obtain ⟨r, k1, k2, k3⟩ := first_some ht hf
      rw [hf] at he
      rw [k3]
      dsimp only at he ⊢
      by_cases hb : before e' a
      · rw [if_pos hb] at he ⊢
        simp only [Option.some.injEq, Prod.mk.injEq] at he
        obtain ⟨rfl, rfl⟩ := he
        exact ⟨r, by simpa using k1, k2, rfl⟩
      · rw [if_neg hb] at he ⊢
        simp only [Option.some.injEq, Prod.mk.injEq] at he
        obtain ⟨rfl, rfl⟩ := he
        exact ⟨_, rfl, rfl, rfl⟩

theorem mergeLoop_more : ∀ (n : Nat) {last : Option K} {R : List (List (Ent K V))}, (∀ r ∈ R, SL.Sorted r) →
    total R ≤ n → mergeLoop n last R = mergeLoop (total R) last R := by
  intro n
  induction n with
  | zero =>
    intro last R _ h
    have : total R = 0 := by omega
    rw [this]
  | succ n ih =>
    intro last R hs h
    cases hp : pick R with
    | none =>
      cases ht : total R with
      | zero => simp [mergeLoop, hp]
      | succ m => simp [mergeLoop, hp]
    | some p =>
      obtain ⟨e, R'⟩ := p
      obtain ⟨h1, _, _, _, _, h6⟩ := pick_some hs hp
      rw [h6]
      simp only [mergeLoop, hp]
      rw [ih h1 (by omega), ih h1 (by omega)]

/-- The iterator will yield these pairs, as long as the directories are these. -/
def Yields (dirs : List (Table K V)) (it : Iter K V) (l : List (K × V)) : Prop :=
  (∀ r ∈ it.runs, r.Ok dirs) ∧ (∀ r ∈ it.runs, SL.Sorted (r.ents dirs)) ∧
    live (mergeLoop (total (it.runs.map (Run.ents dirs))) it.last (it.runs.map (Run.ents dirs))) = l

/-- What `next` returns when these pairs are left. -/
def answer {K V : Type} : List (K × V) → Item K V
  | [] => .done
  | p :: _ => .pair p

theorem set_map {α β : Type} (f : α → β) (l : List α) (i : Nat) (a : α) : (l.set i a).map f = (l.map f).set i (f a) :=
  List.map_set

theorem nextN_spec {dirs : List (Table K V)} : ∀ (n : Nat) {it : Iter K V} {l : List (K × V)}, Yields dirs it l →
    total (it.runs.map (Run.ents dirs)) < n →
    (it.nextN dirs n).2 = answer l ∧ Yields dirs (it.nextN dirs n).1 l.tail := by
  intro n
  induction n with
  | zero => intro it l _ h; omega
  | succ n ih =>
    intro it l hy hn
    obtain ⟨h1, h2, h3⟩ := hy
    cases hf : first (it.runs.map (·.head)) with
    | none =>
      have hp := first_none h1 hf
      have hl : l = [] := by
        rw [← h3]
        cases total (it.runs.map (Run.ents dirs)) <;> simp [mergeLoop, hp, live]
      subst hl
      simp only [Iter.nextN, hf]
      exact ⟨rfl, h1, h2, h3⟩
    | some p =>
      obtain ⟨e, i⟩ := p
      obtain ⟨r, k1, k2, k3⟩ := first_some h1 hf
      have hr : r ∈ it.runs := List.mem_of_getElem? k1
      obtain ⟨q1, q2, q3⟩ := pull_spec (h1 r hr).1
      rw [← q3] at k3
      obtain ⟨s1, _, _, _, _, s6⟩ := pick_some (by
        intro x hx
        obtain ⟨y, hy, rfl⟩ := List.mem_map.1 hx
        exact h2 y hy) k3
      rw [s6] at h3 hn
      simp only [mergeLoop, k3] at h3
      rw [← set_map] at h3 s1 hn
      have hok : ∀ y ∈ it.runs.set i (pull dirs r.rest).1, y.Ok dirs := by
        intro y hy
        rcases List.mem_or_eq_of_mem_set hy with hy | rfl
        · exact h1 y hy
        · exact q2
      have hso : ∀ y ∈ it.runs.set i (pull dirs r.rest).1, SL.Sorted (y.ents dirs) := fun y hy =>
        s1 _ (List.mem_map_of_mem hy)
      have hrest : (it.runs[i]?.map (·.rest)).getD [] = r.rest := by rw [k1]; rfl
      simp only [Iter.nextN, hf, hrest, q1, if_true]
      by_cases hl : it.last = some e.1
      · rw [if_pos hl] at h3 ⊢
        rw [hl] at h3
        exact ih (it := ⟨it.runs.set i (pull dirs r.rest).1, some e.1⟩) ⟨hok, hso, h3⟩ (by simp only; omega)
      · rw [if_neg hl] at h3 ⊢
        cases hd : e.2.data with
        | none =>
          simp only [live, List.filterMap_cons, hd, Option.map_none] at h3
          exact ih (it := ⟨it.runs.set i (pull dirs r.rest).1, some e.1⟩) ⟨hok, hso, h3⟩ (by simp only; omega)
        | some v =>
          simp only [live, List.filterMap_cons, hd, Option.map_some] at h3
          subst h3
          exact ⟨rfl, hok, hso, rfl⟩

theorem count_ents (dirs : List (Table K V)) (r : Run K V) : r.count dirs = (r.ents dirs).length := by
  simp only [Run.count, Run.ents, ahead, List.length_append, List.length_flatMap]

theorem next_spec {dirs : List (Table K V)} {it : Iter K V} {l : List (K × V)} (h : Yields dirs it l) :
    (it.next dirs).2 = answer l ∧ Yields dirs (it.next dirs).1 l.tail := by
  refine nextN_spec _ h ?_
  have : it.runs.map (Run.count dirs) = (it.runs.map (Run.ents dirs)).map List.length := by
    rw [List.map_map]
    exact List.map_congr_left fun r _ => count_ents dirs r
  rw [this]
  exact Nat.lt_succ_self _

/-- A source goes on when directories are added. -/
theorem left_append {dirs : List (Table K V)} {q : Source K V} (more : List (Table K V)) (h : (q.left dirs).isSome) :
    q.left (dirs ++ more) = q.left dirs := by
  unfold Source.left at h ⊢
  cases hq : q.file with
  | some l => rfl
  | none =>
    rw [hq] at h
    simp only [Option.isSome_map] at h
    obtain ⟨t, ht⟩ := Option.isSome_iff_exists.1 h
    simp only [List.find?_append, ht, Option.some_or]

theorem ahead_congr {dirs dirs' : List (Table K V)} {qs : List (Source K V)}
    (h : ∀ q ∈ qs, q.left dirs' = q.left dirs) : ahead dirs' qs = ahead dirs qs := by
  unfold ahead
  rw [List.flatMap_def, List.flatMap_def]
  exact congrArg List.flatten (List.map_congr_left fun q hq => by rw [h q hq])

theorem yields_congr {dirs dirs' : List (Table K V)} {it : Iter K V} {l : List (K × V)}
    (h : ∀ r ∈ it.runs, ∀ q ∈ r.rest, q.left dirs' = q.left dirs) (hy : Yields dirs it l) : Yields dirs' it l := by
  obtain ⟨h1, h2, h3⟩ := hy
  have he : ∀ r ∈ it.runs, r.ents dirs' = r.ents dirs := fun r hr => by
    unfold Run.ents; rw [ahead_congr (h r hr)]
  refine ⟨fun r hr => ⟨fun q hq => ?_, fun hn => ?_⟩, fun r hr => ?_, ?_⟩
  · rw [h r hr q hq]; exact (h1 r hr).1 q hq
  · rw [ahead_congr (h r hr)]; exact (h1 r hr).2 hn
  · rw [he r hr]; exact h2 r hr
  · rw [List.map_congr_left he]; exact h3

theorem yields_append {dirs : List (Table K V)} {it : Iter K V} {l : List (K × V)} (more : List (Table K V))
    (hy : Yields dirs it l) : Yields (dirs ++ more) it l :=
  yields_congr (fun r hr q hq => left_append more ((hy.1 r hr).1 q hq)) hy

/-- All files are open. -/
def Iter.Opened (it : Iter K V) : Prop := ∀ r ∈ it.runs, ∀ q ∈ r.rest, q.file.isSome

theorem yields_opened {dirs : List (Table K V)} {it : Iter K V} {l : List (K × V)} (ho : it.Opened)
    (dirs' : List (Table K V)) (hy : Yields dirs it l) : Yields dirs' it l :=
  yields_congr (fun r hr q hq => by
    obtain ⟨l, hl⟩ := Option.isSome_iff_exists.1 (ho r hr q hq)
    simp [Source.left, hl]) hy

omit [LinearOrder K] in
theorem nextEntry_opened {dirs : List (Table K V)} : ∀ {qs : List (Source K V)}, (∀ q ∈ qs, q.file.isSome) →
    ∀ q ∈ (nextEntry dirs qs).1, q.file.isSome
  | [], _ => by simp [nextEntry]
  | q :: qs, h => by
    obtain ⟨l, hl⟩ := Option.isSome_iff_exists.1 (h q (by simp))
    have hqs : ∀ p ∈ qs, p.file.isSome := fun p hp => h p (List.mem_cons_of_mem _ hp)
    cases l with
    | nil =>
      have : nextEntry dirs (q :: qs) = nextEntry dirs qs := by simp [nextEntry, Source.next, Source.left, hl]
      rw [this]
      exact nextEntry_opened hqs
    | cons e l =>
      have : nextEntry dirs (q :: qs) = ({ q with file := some l } :: qs, .entry e) := by
        simp [nextEntry, Source.next, Source.left, hl]
      rw [this]
      intro p hp
      rcases List.mem_cons.1 hp with rfl | hp
      · rfl
      · exact hqs p hp

omit [LinearOrder K] in
theorem pull_rest (dirs : List (Table K V)) (qs : List (Source K V)) : (pull dirs qs).1.rest = (nextEntry dirs qs).1 := by
  unfold pull
  rcases nextEntry dirs qs with ⟨q, g⟩
  cases g <;> rfl

theorem nextN_opened {dirs : List (Table K V)} : ∀ (n : Nat) {it : Iter K V}, it.Opened → (it.nextN dirs n).1.Opened := by
  intro n
  induction n with
  | zero => intro it h; exact h
  | succ n ih =>
    intro it h
    simp only [Iter.nextN]
    cases hf : first (it.runs.map (·.head)) with
    | none => exact h
    | some p =>
      obtain ⟨e, i⟩ := p
      dsimp only
      have hq : ∀ q ∈ (it.runs[i]?.map (·.rest)).getD [], q.file.isSome := by
        cases hr : it.runs[i]? with
        | none => simp
        | some r => exact fun q hq => h r (List.mem_of_getElem? hr) q hq
      have hset : ∀ last, (⟨it.runs.set i (pull dirs ((it.runs[i]?.map (·.rest)).getD [])).1, last⟩ : Iter K V).Opened := by
        intro last r hr
        rcases List.mem_or_eq_of_mem_set hr with hr | rfl
        · exact h r hr
        · rw [pull_rest]; exact nextEntry_opened hq
      split
      · split
        · exact ih (hset _)
        · split
          · exact ih (hset _)
          · exact hset _
      · exact hset _

end Verif.Lsm.Iter
