/-
C58: an iterator of `LsmMap` yields the contents of the map at the time of its creation, whatever is done with the map
while it is being read.
-/
import Verif.Lsm.IterSys

namespace Verif.Lsm.Iter

open Verif Verif.Spec Verif.Lsm Store

/-! ### Specification -/

/-- What the calls of `next` of the `i`th iterator returned, in order. -/
def answers {K V : Type} (i : Nat) : List (Op K V × Nat) → List (Res K V) → List (Item K V)
  | (.next j, _) :: ops, .item x :: rs => if j = i then x :: answers i ops rs else answers i ops rs
  | _ :: ops, _ :: rs => answers i ops rs
  | _, _ => []

/-- The answers are the pairs of the list, one after the other, and then always the end. -/
def Reads {K V : Type} (l : List (K × V)) (xs : List (Item K V)) : Prop :=
  ∀ (j : Nat) (x : Item K V), xs[j]? = some x → x = (match l[j]? with | some p => Item.pair p | none => Item.done)

/-- The number of the iterators that a program creates. -/
def made {K V : Type} : List (Op K V × Nat) → Nat
  | [] => 0
  | (.iter, _) :: ops => made ops + 1
  | _ :: ops => made ops

/-! ### Proofs -/

variable {K V : Type} [LinearOrder K] {kd : Kind K V} [DecidableEq V] {c : Cfg K V}
  {parts : kd.M → List (List (Table K V))}

omit [LinearOrder K] [DecidableEq V] in
theorem reads_nil (l : List (K × V)) : Reads l [] := by intro j x h; simp at h

omit [LinearOrder K] [DecidableEq V] in
theorem reads_cons {l : List (K × V)} {xs : List (Item K V)} (h : Reads l.tail xs) : Reads l (answer l :: xs) := by
  intro j x hj
  cases j with
  | zero =>
    simp only [List.getElem?_cons_zero, Option.some.injEq] at hj
    subst hj
    cases l <;> rfl
  | succ j =>
    have := h j x (by simpa using hj)
    cases l with
    | nil => simpa using this
    | cons p l => simpa using this

/-- What an action does to the `i`th iterator. -/
theorem iters_step {s s' : Sys kd} {op : Op K V} {d i : Nat} {r : Res K V} {o : Option (Live K V)}
    (hi : s.iters[i]? = some o) (h : s.step c parts op d = some (s', r)) :
    (op = .next i ∧ ∃ l, o = some l ∧ s'.store = work d s.store ∧ r = .item (l.it.next (work d s.store).disk.dirs).2 ∧
      s'.iters[i]? = some (some { l with it := (l.it.next (work d s.store).disk.dirs).1 })) ∨
    (op = .drop i ∧ s'.iters[i]? = some none) ∨ (op ≠ .next i ∧ s'.iters[i]? = some o) := by
  have hlt : i < s.iters.length := by
    by_contra hn
    rw [List.getElem?_eq_none (by omega)] at hi
    simp at hi
  unfold Sys.step at h
  split at h
  · simp at h
  · simp at h
  · simp only [Option.map_eq_some_iff, Prod.mk.injEq, Prod.exists] at h
    obtain ⟨st, r', h3, rfl, _⟩ := h
    exact .inr (.inr ⟨by simp, hi⟩)
  · split at h
    · simp at h
    · simp only [Option.map_eq_some_iff, Prod.mk.injEq] at h
      obtain ⟨it, _, rfl, _⟩ := h
      refine .inr (.inr ⟨by simp, ?_⟩)
      show (s.iters ++ _)[i]? = _
      rw [List.getElem?_append_left hlt]
      exact hi
  · split at h
    · rename_i j _ l hj
      simp only [Option.some.injEq, Prod.mk.injEq] at h
      obtain ⟨rfl, rfl⟩ := h
      by_cases he : j = i
      · subst he
        rw [hi] at hj
        obtain rfl := Option.some.inj hj
        refine .inl ⟨rfl, l, rfl, rfl, rfl, ?_⟩
        show (s.iters.set j _)[j]? = _
        rw [List.getElem?_set_self hlt]
      · refine .inr (.inr ⟨by simpa using he, ?_⟩)
        show (s.iters.set j _)[i]? = _
        rw [List.getElem?_set_ne he]
        exact hi
    · simp at h
  · have hset : ∀ j, (s.iters.set j none)[i]? = if j = i then some none else some o := by
      intro j
      split
      · rename_i he; subst he; rw [List.getElem?_set_self hlt]
      · rename_i he; rw [List.getElem?_set_ne he]; exact hi
    split at h
    · rename_i j _ l hj
      have key : s'.iters = s.iters.set j none := by
        split at h
        · simp only [Option.map_eq_some_iff, Prod.mk.injEq, Prod.exists] at h
          obtain ⟨st, r', h3, rfl, _⟩ := h
          rfl
        · simp only [Option.some.injEq, Prod.mk.injEq] at h
          obtain ⟨rfl, _⟩ := h
          rfl
      rw [key, hset]
      by_cases he : j = i
      · subst he; exact .inr (.inl ⟨rfl, by simp⟩)
      · exact .inr (.inr ⟨by simp, by simp [he]⟩)
    · simp at h

theorem gen_step {s s' : Sys kd} {op : Op K V} {d : Nat} {r : Res K V} (ho : op ≠ .call .reopen)
    (h : s.step c parts op d = some (s', r)) : s'.gen = s.gen := by
  unfold Sys.step at h
  split at h
  · simp at h
  · simp at h
  · rename_i k _ _
    simp only [Option.map_eq_some_iff, Prod.mk.injEq, Prod.exists] at h
    obtain ⟨st, r', h3, rfl, _⟩ := h
    have : k ≠ .reopen := by rintro rfl; exact ho rfl
    simp [this]
  · split at h
    · simp at h
    · simp only [Option.map_eq_some_iff, Prod.mk.injEq] at h
      obtain ⟨it, _, rfl, _⟩ := h
      rfl
  · split at h
    · simp only [Option.some.injEq, Prod.mk.injEq] at h
      obtain ⟨rfl, _⟩ := h
      rfl
    · simp at h
  · split at h
    · split at h
      · simp only [Option.map_eq_some_iff, Prod.mk.injEq, Prod.exists] at h
        obtain ⟨st, r', h3, rfl, _⟩ := h
        rfl
      · simp only [Option.some.injEq, Prod.mk.injEq] at h
        obtain ⟨rfl, _⟩ := h
        rfl
    · simp at h

omit [LinearOrder K] in
theorem answers_other {op : Op K V} {d i : Nat} {ops : List (Op K V × Nat)} {r : Res K V} {rs : List (Res K V)}
    (h : op ≠ .next i) : answers i ((op, d) :: ops) (r :: rs) = answers i ops rs := by
  cases op with
  | next j =>
    cases r with
    | item x => simp only [answers]; rw [if_neg (by rintro rfl; exact h rfl)]
    | _ => rfl
  | _ => rfl

/-- A dropped iterator is not read any more. -/
theorem answers_dropped {i : Nat} : ∀ {ops : List (Op K V × Nat)} {s s' : Sys kd} {rs : List (Res K V)},
    s.iters[i]? = some none → s.run c parts ops = some (s', rs) → answers i ops rs = []
  | [], _, _, _, _, _ => by simp [answers]
  | (op, d) :: ops, s, s', rs, hi, h => by
    obtain ⟨s1, r, rs', h1, h2, rfl⟩ := Sys.run_cons h
    rcases iters_step hi h1 with ⟨_, l, hl, _⟩ | ⟨rfl, e⟩ | ⟨e1, e2⟩
    · simp at hl
    · rw [answers_other (by simp)]; exact answers_dropped e h2
    · rw [answers_other e1]; exact answers_dropped e2 h2

theorem next_opened {dirs : List (Table K V)} {it : Iter K V} (h : it.Opened) : (it.next dirs).1.Opened :=
  nextN_opened _ h

/-- An iterator all of whose files are open yields its pairs whatever happens to the map. -/
theorem reads_opened {i : Nat} : ∀ {ops : List (Op K V × Nat)} {s s' : Sys kd} {rs : List (Res K V)} {l : Live K V}
    {dirs : List (Table K V)} {ps : List (K × V)}, s.iters[i]? = some (some l) → l.it.Opened → Yields dirs l.it ps →
    s.run c parts ops = some (s', rs) → Reads ps (answers i ops rs)
  | [], _, _, _, _, _, ps, _, _, _, _ => by simp only [answers]; exact reads_nil ps
  | (op, d) :: ops, s, s', rs, l, dirs, ps, hi, ho, hy, h => by
    obtain ⟨s1, r, rs', h1, h2, rfl⟩ := Sys.run_cons h
    rcases iters_step hi h1 with ⟨rfl, l', hl, _, rfl, e⟩ | ⟨rfl, e⟩ | ⟨e1, e2⟩
    · obtain rfl := Option.some.inj hl
      obtain ⟨k1, k2⟩ := next_spec (yields_opened ho (work d s.store).disk.dirs hy)
      simp only [answers, if_true]
      rw [k1]
      exact reads_cons (reads_opened e (next_opened ho) k2 h2)
    · rw [answers_other (by simp), answers_dropped e h2]; exact reads_nil ps
    · rw [answers_other e1]; exact reads_opened e2 ho hy h2

/-- An iterator of the map yields its pairs as long as the map is neither cleared nor closed. -/
theorem reads_calm {i : Nat} : ∀ {ops : List (Op K V × Nat)} {s s' : Sys kd} {rs : List (Res K V)} {l : Live K V}
    {ps : List (K × V)}, (∀ o ∈ ops, o.1 ≠ .call .clear ∧ o.1 ≠ .call .reopen) → s.Ok → Calm s.store → l.gen = s.gen →
    s.iters[i]? = some (some l) → Yields s.store.disk.dirs l.it ps →
    s.run c parts ops = some (s', rs) → Reads ps (answers i ops rs)
  | [], _, _, _, _, ps, _, _, _, _, _, _, _ => by simp only [answers]; exact reads_nil ps
  | (op, d) :: ops, s, s', rs, l, ps, hc, hok, hcalm, hg, hi, hy, h => by
    obtain ⟨s1, r, rs', h1, h2, rfl⟩ := Sys.run_cons h
    obtain ⟨c1, c2⟩ := hc _ List.mem_cons_self
    have hc' : ∀ o ∈ ops, o.1 ≠ .call .clear ∧ o.1 ≠ .call .reopen := fun o ho => hc o (List.mem_cons_of_mem _ ho)
    have hl : s.store.locks ≠ 0 := by
      rw [hok.1]
      have : 0 < s.iters.countP (ofGen s.gen) :=
        List.countP_pos_iff.2 ⟨some l, List.mem_of_getElem? hi, by simp [ofGen, hg]⟩
      omega
    have hst : Calm s1.store ∧ Grows s.store s1.store := by
      rcases Sys.step_store h1 with ⟨_, e⟩ | ⟨k, r', e, hk⟩
      · rw [e]; exact calm_work d hcalm
      · refine calm_step hcalm hl ?_ ?_ e
        · rintro rfl
          rcases hk with rfl | ⟨_, hk⟩
          · exact c1 rfl
          · simp at hk
        · rintro rfl
          rcases hk with rfl | ⟨_, hk⟩
          · exact c2 rfl
          · simp at hk
    have hg' := gen_step c2 h1
    rcases iters_step hi h1 with ⟨rfl, l', hl', hs, rfl, e⟩ | ⟨rfl, e⟩ | ⟨e1, e2⟩
    · obtain rfl := Option.some.inj hl'
      obtain ⟨more, hm⟩ := (calm_work d hcalm).2
      have hy' : Yields (work d s.store).disk.dirs l.it ps := by rw [hm]; exact yields_append more hy
      obtain ⟨k1, k2⟩ := next_spec hy'
      simp only [answers, if_true]
      rw [k1]
      refine reads_cons (reads_calm (l := ⟨l.gen, (l.it.next (work d s.store).disk.dirs).1⟩) hc' (ok_step hok h1) hst.1
        (hg.trans hg'.symm) e ?_ h2)
      rw [hs]
      exact k2
    · rw [answers_other (by simp), answers_dropped e h2]; exact reads_nil ps
    · rw [answers_other e1]
      obtain ⟨more, hm⟩ := hst.2
      refine reads_calm hc' (ok_step hok h1) hst.1 (hg.trans hg'.symm) e2 ?_ h2
      rw [hm]
      exact yields_append more hy

/-- The runs of the iterator are made of the tables `parts` names. -/
structure Splits (kd : Kind K V) (parts : kd.M → List (List (Table K V))) : Prop where
  runs : ∀ m, kd.runs m = (parts m).map fun ts => ts.flatMap (·.entries)
  sub : ∀ m, ∀ ts ∈ parts m, ∀ t ∈ ts, t ∈ kd.tabs m

omit [LinearOrder K] [DecidableEq V] in
theorem find_dir {dirs : List (Table K V)} (hn : (dirs.map (·.id)).Nodup) {t : Table K V} (ht : t ∈ dirs) :
    dirs.find? (fun u => u.id = t.id) = some t := by
  induction dirs with
  | nil => simp at ht
  | cons a dirs ih =>
    simp only [List.map_cons, List.nodup_cons] at hn
    rcases List.mem_cons.1 ht with rfl | ht
    · simp
    · have : a.id ≠ t.id := fun e => hn.1 (e ▸ List.mem_map_of_mem ht)
      rw [List.find?_cons_of_neg (by simpa using this)]
      exact ih hn.2 ht

/-- Creating an iterator in a state that a history leads to. -/
theorem new_yields {x : Bool} {L : Laws kd x} {s : Store kd} {g : Ghost K V} (hp : Splits kd parts) (h : Inv L c s g) :
    ∃ it, Iter.new s.disk.dirs ((parts s.cur).map fun ts => ts.map (·.id)) = some it ∧ Yields s.disk.dirs it s.items ∧
      it.runs = (parts s.cur).map fun ts => (pull s.disk.dirs (ts.map fun t => ⟨t.id, none⟩)).1 := by
  have hleft : ∀ ts ∈ parts s.cur, ∀ t ∈ ts, Source.left s.disk.dirs (⟨t.id, none⟩ : Source K V) = some t.entries := by
    intro ts hts t ht
    simp only [Source.left, find_dir h.dirIds (h.files t (hp.sub _ ts hts t ht)), Option.map_some]
  have hsp : ∀ ts ∈ parts s.cur, (pull s.disk.dirs (ts.map fun t => ⟨t.id, none⟩)).2 = true ∧
      (pull s.disk.dirs (ts.map fun t => ⟨t.id, none⟩)).1.Ok s.disk.dirs ∧
      (pull s.disk.dirs (ts.map fun t => ⟨t.id, none⟩)).1.ents s.disk.dirs = ts.flatMap (·.entries) := by
    intro ts hts
    obtain ⟨k1, k2, k3⟩ := pull_spec (dirs := s.disk.dirs) (qs := ts.map fun t => (⟨t.id, none⟩ : Source K V)) (by
      intro q hq
      obtain ⟨t, ht, rfl⟩ := List.mem_map.1 hq
      rw [hleft ts hts t ht]; rfl)
    refine ⟨k1, k2, k3.trans ?_⟩
    unfold ahead
    rw [List.flatMap_map, List.flatMap_def, List.flatMap_def]
    exact congrArg List.flatten (List.map_congr_left fun t ht => by rw [hleft ts hts t ht]; rfl)
  have hall : (((parts s.cur).map fun ts => ts.map (·.id)).map fun ids =>
      pull s.disk.dirs (ids.map fun i => (⟨i, none⟩ : Source K V))) =
      (parts s.cur).map fun ts => pull s.disk.dirs (ts.map fun t => ⟨t.id, none⟩) := by
    rw [List.map_map]
    refine List.map_congr_left fun ts _ => ?_
    simp only [Function.comp_apply, List.map_map]
    rfl
  refine ⟨⟨(parts s.cur).map fun ts => (pull s.disk.dirs (ts.map fun t => ⟨t.id, none⟩)).1, none⟩, ?_, ⟨?_, ?_, ?_⟩, rfl⟩
  · unfold Iter.new
    dsimp only
    rw [hall, if_pos]
    · rw [List.map_map]; rfl
    · rw [List.all_eq_true]
      intro r hr
      obtain ⟨ts, hts, rfl⟩ := List.mem_map.1 hr
      exact (hsp ts hts).1
  · intro r hr
    obtain ⟨ts, hts, rfl⟩ := List.mem_map.1 hr
    exact (hsp ts hts).2.1
  · intro r hr
    obtain ⟨ts, hts, rfl⟩ := List.mem_map.1 hr
    rw [(hsp ts hts).2.2]
    refine L.runs_sorted h.inv _ ?_
    rw [hp.runs]
    exact List.mem_map_of_mem hts
  · have : ((parts s.cur).map fun ts => (pull s.disk.dirs (ts.map fun t => (⟨t.id, none⟩ : Source K V))).1).map
        (Run.ents s.disk.dirs) = kd.runs s.cur := by
      rw [hp.runs, List.map_map]
      exact List.map_congr_left fun ts hts => (hsp ts hts).2.2
    rw [this]
    rfl

theorem made_iters : ∀ {ops : List (Op K V × Nat)} {s s' : Sys kd} {rs : List (Res K V)},
    s.run c parts ops = some (s', rs) → s'.iters.length = s.iters.length + made ops
  | [], s, s', rs, h => by
    simp only [Sys.run, Option.some.injEq, Prod.mk.injEq] at h
    rw [← h.1]; rfl
  | (op, d) :: ops, s, s', rs, h => by
    obtain ⟨s1, r, rs', h1, h2, rfl⟩ := Sys.run_cons h
    have ih := made_iters h2
    rw [ih]
    unfold Sys.step at h1
    split at h1
    · simp at h1
    · simp at h1
    · simp only [Option.map_eq_some_iff, Prod.mk.injEq, Prod.exists] at h1
      obtain ⟨st, r', h3, rfl, _⟩ := h1
      rfl
    · split at h1
      · simp at h1
      · simp only [Option.map_eq_some_iff, Prod.mk.injEq] at h1
        obtain ⟨it, _, rfl, _⟩ := h1
        simp only [List.length_append, List.length_singleton, made]
        omega
    · split at h1
      · simp only [Option.some.injEq, Prod.mk.injEq] at h1
        obtain ⟨rfl, _⟩ := h1
        simp only [List.length_set, made]
      · simp at h1
    · split at h1
      · split at h1
        · simp only [Option.map_eq_some_iff, Prod.mk.injEq, Prod.exists] at h1
          obtain ⟨st, r', h3, rfl, _⟩ := h1
          simp only [List.length_set, made]
        · simp only [Option.some.injEq, Prod.mk.injEq] at h1
          obtain ⟨rfl, _⟩ := h1
          simp only [List.length_set, made]
      · simp at h1

theorem hold_iter {s s' : Store kd} {d : Nat} {r : KvRes K V} (h : s.step c .hold d = some (s', r)) :
    ∃ s'', s.step c .iter d = some (s'', r) := by
  unfold Store.step at h ⊢
  simp only [Option.bind_eq_some_iff, Option.map_eq_some_iff, Prod.mk.injEq] at h
  obtain ⟨t, h1, u, h2, rfl, rfl⟩ := h
  exact ⟨u, by simp only [h1, h2, Option.bind_some, Option.map_some]⟩

/-- The state after a program, and an iterator created in it. -/
theorem created {x : Bool} {L : Laws kd x} (hg : ∀ l, L.good l) (hp : Splits kd parts) {pre : List (Op K V × Nat)}
    {s s' : Sys kd} {rs : List (Res K V)} {r : Res K V} {d : Nat} (h : (Sys.new kd).run c parts pre = some (s, rs))
    (h' : s.step c parts .iter d = some (s', r)) :
    ∃ (kops : List (KvOp K V × Nat)) (st : Store kd) (rs' : List (KvRes K V)) (n : Nat) (it : Iter K V) (st' : Store kd),
      Store.run c (Store.new kd) kops = some (st, rs') ∧
      contents (kops.map (·.1)) = contents (calls pre) ∧ st.step c .hold n = some (s'.store, .list s'.store.items) ∧
      s.store.step c .iter d = some (st', .list s'.store.items) ∧
      s'.iters[made pre]? = some (some ⟨s.gen, it⟩) ∧ s'.gen = s.gen ∧ s'.Ok ∧ Calm s'.store ∧
      Yields s'.store.disk.dirs it s'.store.items ∧ (it.runs = (parts s'.store.cur).map fun ts =>
        (pull s'.store.disk.dirs (ts.map fun t => ⟨t.id, none⟩)).1) ∧
      (∀ t ∈ kd.tabs s'.store.cur, (Source.left s'.store.disk.dirs (⟨t.id, none⟩ : Source K V)).isSome) ∧
      ∀ k v, KvOp.insert k v ∈ kops.map (·.1) → KvOp.insert k v ∈ calls pre := by
  obtain ⟨kops, st, rs', n, h1, h2, h3, h4⟩ := Sys.run_store h
  have hok := ok_step (ok_run ok_new h) h'
  have hlen := made_iters h
  have hgr := goodRun_true (kd := kd) (good := L.good) (c := c) hg kops (Store.new kd)
  unfold Sys.step at h'
  dsimp only at h'
  split at h'
  · simp at h'
  · rename_i st' r' hs
    have hs0 := hs
    rw [h2, step_work] at hs
    obtain ⟨W, k1, k2, k3, k4⟩ := inv_reach_step (L := L) hgr h1 (fun l _ => hg l) hs
    obtain ⟨it, i1, i2, i3⟩ := new_yields hp k1
    rw [i1] at h'
    simp only [Option.map_some, Option.some.injEq, Prod.mk.injEq] at h'
    obtain ⟨rfl, _⟩ := h'
    have hr : r' = .list st'.items := k4.2
    subst hr
    obtain ⟨st2, e2⟩ := hold_iter hs0
    refine ⟨kops, st, rs', n + d, it, st2, h1, h3 _, hs, e2, ?_, rfl, hok, ?_, i2, i3, ?_, h4⟩
    · have : made pre = s.iters.length := by rw [hlen]; simp [Sys.new]
      show (s.iters ++ _)[made pre]? = _
      rw [this, List.getElem?_append_right (Nat.le_refl _)]
      simp
    · refine k1.locked ?_
      have := step_locks hs0
      rw [this]
      simp [locksAfter]
    · intro t ht
      simp only [Source.left, find_dir k1.dirIds (k1.files t ht), Option.map_some, Option.isSome_some]

theorem splits_leveled (c : Cfg K V) (p : Leveled.Params) : Splits (Leveled.kind c p) leveledParts where
  runs m := by
    show m.l0.map (·.entries) ++ m.levels.map Leveled.entriesOf = _
    simp only [leveledParts, List.map_append, List.map_map, Leveled.entriesOf]
    congr 1
    · exact List.map_congr_left fun t _ => by simp
    · exact List.map_congr_left fun l _ => by simp [List.flatMap_map]
  sub m ts hts t ht := by
    show t ∈ m.l0 ++ Leveled.tabsL m.levels
    simp only [leveledParts, List.mem_append, List.mem_map] at hts
    rcases hts with ⟨u, hu, rfl⟩ | ⟨l, hl, rfl⟩
    · rw [List.mem_singleton.1 ht]
      exact List.mem_append_left _ hu
    · exact List.mem_append_right _ (List.mem_flatMap.2 ⟨l, hl, ht⟩)

theorem splits_tiered (c : Cfg K V) (p : SizeTiered.Params) : Splits (SizeTiered.kind c p) tieredParts where
  runs ts := by
    show ts.map (·.entries) = _
    simp only [tieredParts, List.map_map]
    exact List.map_congr_left fun t _ => by simp
  sub m ts hts t ht := by
    simp only [tieredParts, List.mem_map] at hts
    obtain ⟨u, hu, rfl⟩ := hts
    rw [List.mem_singleton.1 ht]
    exact hu

/-- The iterators of the size-tiered strategy open all their files at once. -/
theorem opened_tiered {dirs : List (Table K V)} {ts : List (Table K V)} {it : Iter K V}
    (h : it.runs = (tieredParts ts).map fun ts => (pull dirs (ts.map fun t => ⟨t.id, none⟩)).1)
    (hy : ∀ t ∈ ts, (Source.left dirs (⟨t.id, none⟩ : Source K V)).isSome) : it.Opened := by
  intro r hr q hq
  rw [h] at hr
  simp only [tieredParts, List.map_map, List.mem_map, Function.comp_apply] at hr
  obtain ⟨t, ht, rfl⟩ := hr
  rw [pull_rest] at hq
  obtain ⟨l, hl⟩ := Option.isSome_iff_exists.1 (hy t ht)
  cases l with
  | nil => simp [nextEntry, Source.next, hl] at hq
  | cons e l =>
    simp only [List.map_cons, List.map_nil, nextEntry, Source.next, hl, List.mem_singleton] at hq
    rw [hq]; rfl

/-! ### C58 -/

/-- C58 with `SizeTieredStrategy`: an iterator yields, one pair per `next`, exactly what `iter()` collected at once would
have yielded, and then ends, whatever is done between the calls of `next`: writes, compactions, other iterators,
`clear`, and even closing the map and opening it again.  These pairs are in ascending order, every live pair is among
them, and every pair was inserted at some time (see C37 for the removed keys that may be among them). -/
theorem C58_sizeTiered (c : Cfg K V) (p : SizeTiered.Params) (pre post : List (Op K V × Nat)) (d : Nat)
    {s : Sys (SizeTiered.kind c p)} {rs : List (Res K V)}
    (h : (Sys.new (SizeTiered.kind c p)).run c tieredParts (pre ++ (.iter, d) :: post) = some (s, rs)) :
    ∃ (l : List (K × V)) (s0 : Sys (SizeTiered.kind c p)) (rs0 : List (Res K V)) (st : Store (SizeTiered.kind c p)),
      (Sys.new (SizeTiered.kind c p)).run c tieredParts pre = some (s0, rs0) ∧
      s0.store.step c .iter d = some (st, .list l) ∧
      l.Pairwise (fun a b => a.1 < b.1) ∧ (∀ k v, contents (calls pre) k = some v → (k, v) ∈ l) ∧
      (∀ k v, (k, v) ∈ l → .insert k v ∈ calls pre) ∧
      Reads l (answers (made pre) post (rs.drop (pre.length + 1))) := by
  obtain ⟨s0, r1, r2, h1, h2, rfl, h4⟩ := Sys.run_append h
  obtain ⟨s1, r, rs', h5, h6, rfl⟩ := Sys.run_cons h2
  obtain ⟨kops, st, rs1, n, it, st', k1, k2, k3, k4, k5, k6, k7, k8, k9, k10, k11, k12⟩ :=
    created (L := SizeTiered.laws c p) (fun _ => trivial) (splits_tiered c p) h1 h5
  obtain ⟨st2, e2⟩ := hold_iter k3
  obtain ⟨l', a1, a2, a3, a4⟩ := C37_sizeTiered_partial c p kops k1 e2
  have hl : s1.store.items = l' := by simpa using a1
  subst hl
  rw [k2] at a3
  refine ⟨_, s0, r1, st', h1, k4, a2, a3, fun k v hv => k12 k v (a4 k v hv), ?_⟩
  have hd : (r1 ++ r :: rs').drop (pre.length + 1) = rs' := by
    rw [← h4, ← List.drop_drop, List.drop_left]; rfl
  rw [hd]
  exact reads_opened k5 (opened_tiered k10 k11) k9 h6

/-- C58 with `LeveledStrategy`: an iterator yields, one pair per `next`, exactly the live pairs of the map at the time
it was created, in ascending order, and then ends, whatever is done between the calls of `next`, except for `clear`
and for closing the map.  Missing: these two (`C58_violated`). -/
theorem C58_leveled_partial (c : Cfg K V) (p : Leveled.Params) (pre post : List (Op K V × Nat)) (d : Nat)
    {s : Sys (Leveled.kind c p)} {rs : List (Res K V)}
    (h : (Sys.new (Leveled.kind c p)).run c leveledParts (pre ++ (.iter, d) :: post) = some (s, rs))
    (hc : ∀ o ∈ post, o.1 ≠ .call .clear ∧ o.1 ≠ .call .reopen) :
    ∃ l, Lists (contents (calls pre)) l ∧ Reads l (answers (made pre) post (rs.drop (pre.length + 1))) := by
  obtain ⟨s0, r1, r2, h1, h2, rfl, h4⟩ := Sys.run_append h
  obtain ⟨s1, r, rs', h5, h6, rfl⟩ := Sys.run_cons h2
  obtain ⟨kops, st, rs1, n, it, st', k1, k2, k3, k4, k5, k6, k7, k8, k9, k10, k11, k12⟩ :=
    created (L := Leveled.laws c p) (fun _ => trivial) (splits_leveled c p) h1 h5
  obtain ⟨l', a1, a2⟩ := C37_leveled c p kops k1 (op := .hold) trivial k3
  have hl : s1.store.items = l' := by simpa using a2
  subst hl
  rw [k2] at a1
  refine ⟨_, a1, ?_⟩
  have hd : (r1 ++ r :: rs').drop (pre.length + 1) = rs' := by
    rw [← h4, ← List.drop_drop, List.drop_left]; rfl
  rw [hd]
  exact reads_calm hc k7 k8 k6.symm k5 k9 h6

/-- C58: with `LeveledStrategy`, the reading calls of the map stay exact while iterators are alive, whatever has been
read from them. -/
theorem C58_calls_leveled (c : Cfg K V) (p : Leveled.Params) (pre : List (Op K V × Nat)) {s : Sys (Leveled.kind c p)}
    {rs : List (Res K V)} (h : (Sys.new (Leveled.kind c p)).run c leveledParts pre = some (s, rs)) {op : KvOp K V}
    (hop : op.Reads) {d : Nat} {s' : Sys (Leveled.kind c p)} {r : KvRes K V}
    (hs : s.step c leveledParts (.call op) d = some (s', .res r)) : op.Answer (contents (calls pre)) r := by
  obtain ⟨kops, st, rs', n, h1, h2, h3, _⟩ := Sys.run_store h
  have hs' : s.store.step c op d = some (s'.store, r) := by
    unfold Sys.step at hs
    split at hs
    · simp at hs
    · simp at hs
    · rename_i k _ _ he
      obtain rfl := Op.call.inj he
      simp only [Option.map_eq_some_iff, Prod.mk.injEq, Prod.exists, Res.res.injEq] at hs
      obtain ⟨st, r', h3, rfl, rfl⟩ := hs
      exact h3
    all_goals rename_i he; simp at he
  rw [h2, step_work] at hs'
  have := C37_leveled c p kops h1 hop hs'
  have hc : contents (kops.map (·.1)) = contents (calls pre) := h3 _
  rwa [hc] at this

/-- C58: while an iterator of the map is alive, no compaction runs and, but for `clear` and closing the map, no table
directory is deleted ("The map will not perform any compactions if there are any undropped iterators", map.rs:486-487).
This holds for both strategies; here for those with laws. -/
theorem C58_no_compaction {x : Bool} (L : Laws kd x) (hg : ∀ l, L.good l) (pre : List (Op K V × Nat)) {s : Sys kd}
    {rs : List (Res K V)} (h : (Sys.new kd).run c parts pre = some (s, rs)) {l : Live K V} (hl : some l ∈ s.iters)
    (hgen : l.gen = s.gen) :
    s.store.job = none ∧ ∀ {op : Op K V} {d : Nat} {s' : Sys kd} {r : Res K V}, op ≠ .call .clear →
      op ≠ .call .reopen → s.step c parts op d = some (s', r) →
      s'.store.job = none ∧ ∀ t ∈ s.store.disk.dirs, t ∈ s'.store.disk.dirs := by
  obtain ⟨kops, st, rs', n, h1, h2, h3, _⟩ := Sys.run_store h
  obtain ⟨W, k1, _⟩ := inv_reach (L := L) (goodRun_true (kd := kd) (good := L.good) (c := c) hg kops (Store.new kd)) h1
  have k2 := inv_work n k1
  rw [← h2] at k2
  have hlk : s.store.locks ≠ 0 := by
    rw [(ok_run ok_new h).1]
    have : 0 < s.iters.countP (ofGen s.gen) := List.countP_pos_iff.2 ⟨some l, hl, by simp [ofGen, hgen]⟩
    omega
  have hcalm : Calm s.store := k2.locked hlk
  refine ⟨hcalm.1, fun {op d s' r} c1 c2 hs => ?_⟩
  have hst : Calm s'.store ∧ Grows s.store s'.store := by
    rcases Sys.step_store hs with ⟨_, e⟩ | ⟨k, r', e, hk⟩
    · rw [e]; exact calm_work d hcalm
    · refine calm_step hcalm hlk ?_ ?_ e
      · rintro rfl
        rcases hk with rfl | ⟨_, hk⟩
        · exact c1 rfl
        · simp at hk
      · rintro rfl
        rcases hk with rfl | ⟨_, hk⟩
        · exact c2 rfl
        · simp at hk
  obtain ⟨more, hm⟩ := hst.2
  exact ⟨hst.1.1, fun t ht => by rw [hm]; exact List.mem_append_left _ ht⟩

/-- C58: `iter()` succeeds whenever its flush does: the files it reads first are there. -/
theorem C58_iter_returns {x : Bool} (L : Laws kd x) (hg : ∀ l, L.good l) (hp : Splits kd parts)
    (pre : List (Op K V × Nat)) {s : Sys kd} {rs : List (Res K V)}
    (h : (Sys.new kd).run c parts pre = some (s, rs)) {d : Nat} {st : Store kd} {r : KvRes K V}
    (hs : s.store.step c .hold d = some (st, r)) : ∃ s', s.step c parts .iter d = some (s', .unit) := by
  obtain ⟨kops, st0, rs', n, h1, h2, h3, _⟩ := Sys.run_store h
  have hs' := hs
  rw [h2, step_work] at hs'
  obtain ⟨W, k1, _⟩ := inv_reach_step (L := L)
    (goodRun_true (kd := kd) (good := L.good) (c := c) hg kops (Store.new kd)) h1 (fun l _ => hg l) hs'
  obtain ⟨it, i1, _⟩ := new_yields hp k1
  unfold Sys.step
  simp only [hs, i1, Option.map_some]
  exact ⟨_, rfl⟩

/-! ### Examples, and where the leveled strategy fails -/

namespace Example

/-- Eight pairs, one of them overwritten, in three levels; the second level has two tables. -/
def fill : List (Op Nat Nat × Nat) :=
  ((List.range 8).map fun i => (.call (.insert i (10 * i)), 2)) ++
    [(.call .flush, 2), (.call (.insert 3 99), 2), (.call .flush, 2)]

/-- Two iterators, and writes between the calls of `next`. -/
def mix : List (Op Nat Nat × Nat) :=
  [(.next 0, 0), (.call (.remove 4), 0), (.call (.insert 9 9), 1), (.call .flush, 0), (.iter, 0), (.next 1, 0), (.next 0, 2)] ++
    ((List.range 8).map fun i => (.call (.insert i (10 * i + 1)), 2)) ++ [(.call .flush, 2)] ++
    List.replicate 8 (.next 1, 0) ++ [(.drop 1, 0), (.call (.insert 8 8), 1), (.call .flush, 1)] ++
    List.replicate 8 (.next 0, 0)

/-- The program of `mix`, then `clear` and closing the map. -/
def wipe : List (Op Nat Nat × Nat) :=
  (mix.take 7) ++ [(.call .clear, 0), (.next 0, 0), (.call (.insert 50 5), 0), (.call .reopen, 0)] ++
    List.replicate 7 (.next 0, 0)

end Example

/-- The programs of `C58_leveled_partial` exist; this one reads two iterators while the map is written. -/
example : ∃ s, (Sys.new (Leveled.kind Lsm.Example.small Lsm.Example.leveled)).run Lsm.Example.small leveledParts
    (Example.fill ++ (.iter, 0) :: Example.mix) = some s ∧ made Example.fill = 0 ∧
    (∀ o ∈ Example.mix, o.1 ≠ .call .clear ∧ o.1 ≠ .call .reopen) ∧
    answers 0 Example.mix (s.2.drop 12) = [.pair (0, 0), .pair (1, 10), .pair (2, 20), .pair (3, 99), .pair (4, 40),
      .pair (5, 50), .pair (6, 60), .pair (7, 70), .done, .done] ∧
    answers 1 Example.mix (s.2.drop 12) = [.pair (0, 0), .pair (1, 10), .pair (2, 20), .pair (3, 99),
      .pair (5, 50), .pair (6, 60), .pair (7, 70), .pair (9, 9), .done] := by
  refine ⟨_, Option.eq_some_of_isSome (by decide +kernel), rfl, by decide +kernel, by decide +kernel, by decide +kernel⟩

/-- The programs of `C58_sizeTiered` exist; this one reads the iterator after `clear` and after the map is closed. -/
example : ∃ s, (Sys.new (SizeTiered.kind Lsm.Example.small Lsm.Example.tiered)).run Lsm.Example.small tieredParts
    (Example.fill ++ (.iter, 0) :: Example.wipe) = some s ∧
    answers 0 Example.wipe (s.2.drop 12) = [.pair (0, 0), .pair (1, 10), .pair (2, 20), .pair (3, 99), .pair (4, 40),
      .pair (5, 50), .pair (6, 60), .pair (7, 70), .done, .done] := by
  refine ⟨_, Option.eq_some_of_isSome (by decide +kernel), by decide +kernel⟩

/-- C58 fails with `LeveledStrategy` if the map is cleared, or closed and opened again and written, while an iterator is
alive: the iterator opens the tables of a level one after the other, and when the next one is gone it returns an error
in place of a pair it has already read, leaves out the rest of the level, and goes on with the other levels. -/
theorem C58_violated :
    let kd := Leveled.kind Lsm.Example.small Lsm.Example.leveled
    ∃ pre, Lists (contents (calls pre)) [(0, 0), (1, 10), (2, 20), (3, 99), (4, 40), (5, 50), (6, 60), (7, 70)] ∧
      made pre = 0 ∧
      (∃ s rs, (Sys.new kd).run Lsm.Example.small leveledParts
          (pre ++ (.iter, 0) :: (.call .clear, 0) :: List.replicate 8 (.next 0, 0)) = some (s, rs) ∧
        answers 0 (List.replicate 8 (.next 0, 0)) (rs.drop (pre.length + 2)) =
          [.pair (0, 0), .pair (1, 10), .pair (2, 20), .error, .pair (6, 60), .pair (7, 70), .done, .done]) ∧
      ∃ mid s rs, (∀ o ∈ mid, o.1 ≠ .call .clear) ∧ (Sys.new kd).run Lsm.Example.small leveledParts
          (pre ++ (.iter, 0) :: (mid ++ List.replicate 8 (.next 0, 0))) = some (s, rs) ∧
        answers 0 (List.replicate 8 (.next 0, 0)) (rs.drop (pre.length + 1 + mid.length)) =
          [.pair (0, 0), .pair (1, 10), .pair (2, 20), .error, .pair (6, 60), .pair (7, 70), .done, .done] := by
  refine ⟨Example.fill, ?_, rfl, ⟨_, _, Option.eq_some_of_isSome (by decide +kernel), by decide +kernel⟩,
    (.call .reopen, 0) :: (((List.range 8).map fun i => (.call (.insert i (10 * i + 1)), 2)) ++ [(.call .flush, 2)]),
    _, _, by decide +kernel, Option.eq_some_of_isSome (by decide +kernel), by decide +kernel⟩
  refine ⟨by decide, fun k v => ?_⟩
  have : contents (calls Example.fill) k = if k = 3 then some 99 else if k = 7 then some 70 else if k = 6 then some 60 else
      if k = 5 then some 50 else if k = 4 then some 40 else if k = 3 then some 30 else if k = 2 then some 20 else
      if k = 1 then some 10 else if k = 0 then some 0 else none := rfl
  rw [this]
  simp only [List.mem_cons, Prod.mk.injEq, List.not_mem_nil, or_false]
  split_ifs <;> simp <;> omega

end Verif.Lsm.Iter
