/- Property C76 for `SkipMap` (and `SkipSet`, which is `SkipMap` with unit values) and `SkipList`: a destructor of an
element panics while the container is cleared or dropped, and the client catches the panic. -/
import Verif.Skip.DropPanic
import Verif.Skip.MapProps
import Verif.Skip.ListProps

namespace Verif.Skip.Map

open Verif.Spec Verif.SL

variable {K V : Type}

/-- map.rs:391-401 `clear`: the map afterwards, the entries whose destructors were started, and whether one panicked.
`len` is set to 0 before the first destructor runs. -/
def SkipMap.clearD (boom : K × V → Bool) (steps : Nat) (s : SkipMap K V) : Ended (SkipMap K V × List (K × V) × Bool) :=
  match Skip.clearD boom id none steps s.mem s.head with
  | .undefined => .undefined
  | .more => .more
  | .done r => .done ({ s with mem := r.mem, len := 0 }, r.started, r.panicked)

/-- map.rs:939-950 `drop`. -/
def SkipMap.dropD (boom : K × V → Bool) (steps : Nat) (s : SkipMap K V) : Ended (Freed (K × V) (Option Addr)) :=
  Skip.dropD boom id steps s.mem s.head

/-- With destructors that return, `freeAllD` is `freeAll`. -/
theorem freeAllD_freeAll {boom : K × V → Bool} (f : Nat) {m m' : MHeap K V} {o : Option Addr} {log lg : List (K × V)}
    (h : freeAllD boom id f m o log = .done ⟨m', lg, false⟩) : freeAll m f o = some m' := by
  induction f generalizing m o log with
  | zero =>
    cases o with
    | none => simp only [freeAllD, Ended.done.injEq, Freed.mk.injEq] at h; simp [freeAll, h.1]
    | some a => simp [freeAllD] at h
  | succ f ih =>
    cases o with
    | none => simp only [freeAllD, Ended.done.injEq, Freed.mk.injEq] at h; simp [freeAll, h.1]
    | some a =>
      simp only [freeAllD, freeNodeD] at h
      cases hg : getLink m a 0 with
      | none => simp [hg] at h
      | some l =>
        cases hm : m a with
        | none => simp [hg, hm] at h
        | some n =>
          cases he : n.entry with
          | none => simp [hg, hm, he] at h
          | some e =>
            simp only [hg, hm, he, Heap.free, Option.map_some] at h
            split_ifs at h with hb
            · simp at h
            · simp only [freeAll, hg, Heap.free, hm, Option.bind_eq_bind, Option.bind_some]
              exact ih h

variable [LinearOrder K]

theorem owned_of_good {s : SkipMap K V} {T : List (Tower (K × V))} (h : Good s T) :
    Owned id s.mem s.head (T.map fun t => (t.addr, t.e)) := by
  obtain ⟨hr, hlen, hs, hb⟩ := h
  have hc := hr.chain 0 (Nat.zero_le _)
  rw [lv_zero fun t ht => (hr.shp.1.pos t ht).1] at hc
  refine ⟨⟨_, hr.shp.1.hd⟩, ⟨_, chain_link hc, ?_⟩, ?_, ?_⟩
  · exact linked_of_chain (fun t ht => ⟨_, hr.shp.1.tow t ht⟩) (fun a Q hP => chain_next (lk := lk s.mem 0) hc a Q hP)
  · rw [List.map_map]; exact hr.shp.1.nodup
  · intro a ha hn
    rw [List.map_map] at hn
    have := hr.shp.2 a ha hn
    simpa [shape] using this

/-- The nodes of a map, from what `Lists` says of it. -/
theorem owned_of_reach {s : SkipMap K V} {m : AMap K V} {l : List (K × V)} (h : Reach s) (hm : Rp s m) (hl : Lists m l) :
    ∃ T : List (Addr × (K × V)), Owned id s.mem s.head T ∧ T.map (·.2) = l ∧ T.length = s.len := by
  obtain ⟨T, hT⟩ := good_of_reach h
  have e1 : l = ents T := lists_unique hl (by rw [contents hT hm]; exact lists_abs hT.2.2.1)
  refine ⟨_, owned_of_good hT, ?_, by rw [List.length_map]; exact hT.2.1.symm⟩
  rw [e1, List.map_map]; rfl

/-- **C76, `drop` of a `SkipMap`.** Whichever destructors panic, dropping a map does nothing undefined and runs no
destructor twice: it runs those of the entries in ascending order until one panics.  Without a panic all memory is
freed; with one, the entries that are left are never dropped, and exactly their nodes and the node of the entry whose
destructor panicked are leaked. -/
theorem C76_skip_map_drop {s : SkipMap K V} {m : AMap K V} {l : List (K × V)} (h : Reach s) (hm : Rp s m) (hl : Lists m l)
    (boom : K × V → Bool) :
    ∃ r, s.dropD boom s.len = .done r ∧ r.started = startedOf boom l ∧ r.panicked = l.any boom ∧
      (r.panicked = false → ∀ a, r.mem a = none) ∧
      (r.panicked = true → ∃ B : List Addr, B.Nodup ∧ B.length = (neverStarted boom l).length + 1 ∧
        ∀ a, (r.mem a).isSome ↔ a ∈ B) := by
  obtain ⟨T, hT, rfl, hlen⟩ := owned_of_reach h hm hl
  rw [SkipMap.dropD, ← hlen]
  exact dropD_ok hT

/-- **C76, `clear` of a `SkipMap`, partial.** If no destructor panics, `clear` runs each of them once and leaves the map
that C05 talks about.  Missing: destructors that panic, for which the claim is false (`C76_skip_map_clear_exact`). -/
theorem C76_skip_map_clear_partial {s : SkipMap K V} {m : AMap K V} {l : List (K × V)} (h : Reach s) (hm : Rp s m)
    (hl : Lists m l) (boom : K × V → Bool) (hb : l.any boom = false) :
    ∃ s', s.clear = some s' ∧ s.clearD boom s.len = .done (s', l, false) := by
  obtain ⟨T, hT, rfl, hlen⟩ := owned_of_reach h hm hl
  obtain ⟨k, m₁, m₂, h1, h2, h3, h4⟩ := clearD_ok (zero := none) hT hb
  have hf := freeAllD_freeAll _ h2
  rw [hlen] at hf h4
  refine ⟨{ s with mem := m₂, len := 0 }, ?_, ?_⟩
  · simp only [SkipMap.clear, h1, Option.bind_eq_bind, Option.bind_some]
    rw [show k = id k from rfl, hf]
    simp [h3]
  · simp only [SkipMap.clearD, h4]

/-- **C76, `clear` of a `SkipMap`, what happens.** If the destructor of any entry panics, the map that is left reports
to be empty, but is linked to memory that has been freed or whose entry has been dropped: dropping the map (which happens
by itself at the end of its scope) is undefined, and so are clearing it again, `get`, `get_mut`, `floor`, `ceil` and
`min`. -/
theorem C76_skip_map_clear_exact {s : SkipMap K V} {m : AMap K V} {l : List (K × V)} (h : Reach s) (hm : Rp s m)
    (hl : Lists m l) (boom : K × V → Bool) (hb : l.any boom = true) :
    ∃ s', s.clearD boom s.len = .done (s', startedOf boom l, true) ∧ s'.len = 0 ∧
      (∀ boom' f, s'.dropD boom' (f + 1) = .undefined) ∧ (∀ boom' f, s'.clearD boom' (f + 1) = .undefined) ∧
      (∀ k, s'.get k = none) ∧ (∀ k f, s'.getMut k f = none) ∧ (∀ k, s'.floor k = none) ∧ (∀ k, s'.ceil k = none) ∧
      s'.min = none := by
  obtain ⟨T, hT, rfl, hlen⟩ := owned_of_reach h hm hl
  obtain ⟨m', h1, h2, k, a, h3, h4, h5, h6⟩ := clearD_panic (zero := none) hT hb
  obtain ⟨n, hd⟩ := hT.hd
  rw [hlen] at h1
  have h3' : getLink m' s.head 0 = some (some a) := by rw [h3, show k = some a from h4]
  have hw : ∀ p : K × V → Bool, walk m' p 0 1 s.head = none := by
    intro p; simp [walk, h3', h6]
  have hst : startHeight 0 = 0 := rfl
  refine ⟨{ s with mem := m', len := 0 }, by simp only [SkipMap.clearD, h1], rfl, ?_, ?_, ?_, ?_, ?_, ?_, ?_⟩
  · intro boom' f
    exact dropD_undefined (e := none) (n := n) (by rw [shape, h2]; exact hd) h3 h4 h6 h5 f
  · intro boom' f
    simp only [SkipMap.clearD, clearD_undefined h3 h4 h6]
  · intro key
    simp [SkipMap.get, hst, lookup, hw]
  · intro key f
    simp [SkipMap.getMut, hst, lookup, hw]
  · intro key
    simp [SkipMap.floor, hst, descend, hw]
  · intro key
    simp [SkipMap.ceil, hst, descend, hw]
  · simp [SkipMap.min, h3', orNull, h6]

/-- The hypotheses of the theorems above are met by every map that can be built, `{1, 3, 5}` for instance. -/
theorem exists_lists {s : SkipMap K V} (h : Reach s) : ∃ m l, Rp s m ∧ Lists m l ∧ s.iter = some l ∧ l.length = s.len := by
  obtain ⟨T, hT⟩ := good_of_reach h
  exact ⟨_, ents T, good_represents hT, lists_abs hT.2.2.1, iter_ok hT, by simp [ents, hT.2.1]⟩

/-- What happened in a run: the destructors started and whether one panicked. -/
def Ended.log {α E : Type} : Ended (α × List E × Bool) → Option (List E × Bool)
  | .done p => some p.2
  | _ => none

example : Reach exA ∧ exA.iter = some [(1, 10), (3, 30), (5, 50)] ∧
    Ended.log (exA.clearD (fun e => e.1 == 3) 3) = some ([(1, 10), (3, 30)], true) ∧
    Ended.log (exA.clearD (fun _ => false) 3) = some ([(1, 10), (3, 30), (5, 50)], false) :=
  ⟨reach_mk 0 _, by decide +kernel, by decide +kernel, by decide +kernel⟩

/-- **C76 is violated by `SkipMap`**: in every map that is not empty, if a destructor panics in `clear`, dropping the map
afterwards drops an entry a second time or uses freed memory. -/
theorem C76_skip_map_violated : ¬ ∀ (s s' : SkipMap Nat Nat) (boom : Nat × Nat → Bool) (st : List (Nat × Nat)) (p : Bool),
    Reach s → s.clearD boom s.len = .done (s', st, p) → ∃ f r, s'.dropD (fun _ => false) (f + 1) = .done r := by
  intro h
  have hr := reach_mk 0 [(1, 10, 0)]
  obtain ⟨m, l, hm, hl, _, hlen⟩ := exists_lists hr
  have hany : l.any (fun _ => true) = true := by
    cases l with
    | nil => exact absurd hlen (by decide +kernel)
    | cons e l => rfl
  obtain ⟨s', h1, _, h3, _⟩ := C76_skip_map_clear_exact hr hm hl _ hany
  obtain ⟨f, r, h4⟩ := h _ s' _ _ _ hr h1
  rw [h3] at h4
  cases h4

end Verif.Skip.Map

namespace Verif.Skip.Lst

open Verif.Spec

variable {V : Type}

/-- list.rs:434-444 `clear`: the list afterwards, the values whose destructors were started, and whether one
panicked. -/
def SkipList.clearD (boom : V → Bool) (steps : Nat) (s : SkipList V) : Ended (SkipList V × List V × Bool) :=
  match Skip.clearD boom Link.next Link.zero steps s.mem s.head with
  | .undefined => .undefined
  | .more => .more
  | .done r => .done ({ s with mem := r.mem, len := 0 }, r.started, r.panicked)

/-- list.rs:499-510 `drop`. -/
def SkipList.dropD (boom : V → Bool) (steps : Nat) (s : SkipList V) : Ended (Freed V Link) :=
  Skip.dropD boom Link.next steps s.mem s.head

theorem freeAllD_freeAll {boom : V → Bool} (f : Nat) {m m' : LHeap V} {o : Option Addr} {log lg : List V}
    (h : freeAllD boom Link.next f m o log = .done ⟨m', lg, false⟩) : freeAll m f o = some m' := by
  induction f generalizing m o log with
  | zero =>
    cases o with
    | none => simp only [freeAllD, Ended.done.injEq, Freed.mk.injEq] at h; simp [freeAll, h.1]
    | some a => simp [freeAllD] at h
  | succ f ih =>
    cases o with
    | none => simp only [freeAllD, Ended.done.injEq, Freed.mk.injEq] at h; simp [freeAll, h.1]
    | some a =>
      simp only [freeAllD, freeNodeD] at h
      cases hg : getLink m a 0 with
      | none => simp [hg] at h
      | some l =>
        cases hm : m a with
        | none => simp [hg, hm] at h
        | some n =>
          cases he : n.entry with
          | none => simp [hg, hm, he] at h
          | some e =>
            simp only [hg, hm, he, Heap.free, Option.map_some] at h
            split_ifs at h with hb
            · simp at h
            · simp only [freeAll, hg, Heap.free, hm, Option.bind_eq_bind, Option.bind_some]
              exact ih h

theorem owned_of_good {ex : Prop} {s : SkipList V} {T : List (Tower V)} (h : Good ex s T) :
    Owned Link.next s.mem s.head (T.map fun t => (t.addr, t.e)) := by
  obtain ⟨hr, hlen, hb⟩ := h
  obtain ⟨d, hfst⟩ := bottom_first hr
  refine ⟨⟨_, hr.sub.hd⟩, ⟨_, hfst, ?_⟩, ?_, ?_⟩
  · exact linked_of_links (fun t ht => ⟨_, hr.sub.tow t ht⟩) (fun a Q hP => bottom_links hr a Q hP)
  · rw [List.map_map]; exact hr.sub.nodup
  · intro a ha hn
    rw [List.map_map] at hn
    have := hr.only a ha hn
    simpa [shape] using this

theorem owned_of_reach {f : Bool} {s : SkipList V} {l : List V} (h : Reach f s) (hl : Rp s l) :
    ∃ T : List (Addr × V), Owned Link.next s.mem s.head T ∧ T.map (·.2) = l ∧ T.length = s.len := by
  obtain ⟨T, hT⟩ := good_of_reach h
  refine ⟨_, owned_of_good hT, ?_, by rw [List.length_map]; exact hT.2.1.symm⟩
  rw [contents hT hl, List.map_map]; rfl

/-- **C76, `drop` of a `SkipList`**, as `C76_skip_map_drop`. -/
theorem C76_skip_list_drop {f : Bool} {s : SkipList V} {l : List V} (h : Reach f s) (hl : Rp s l) (boom : V → Bool) :
    ∃ r, s.dropD boom s.len = .done r ∧ r.started = startedOf boom l ∧ r.panicked = l.any boom ∧
      (r.panicked = false → ∀ a, r.mem a = none) ∧
      (r.panicked = true → ∃ B : List Addr, B.Nodup ∧ B.length = (neverStarted boom l).length + 1 ∧
        ∀ a, (r.mem a).isSome ↔ a ∈ B) := by
  obtain ⟨T, hT, rfl, hlen⟩ := owned_of_reach h hl
  rw [SkipList.dropD, ← hlen]
  exact dropD_ok hT

/-- **C76, `clear` of a `SkipList`, partial.** If no destructor panics, `clear` runs each of them once and leaves the list
that C13 talks about.  Missing: destructors that panic, for which the claim is false (`C76_skip_list_clear_exact`). -/
theorem C76_skip_list_clear_partial {f : Bool} {s : SkipList V} {l : List V} (h : Reach f s) (hl : Rp s l)
    (boom : V → Bool) (hb : l.any boom = false) :
    ∃ s', s.clear = some s' ∧ s.clearD boom s.len = .done (s', l, false) := by
  obtain ⟨T, hT, rfl, hlen⟩ := owned_of_reach h hl
  obtain ⟨k, m₁, m₂, h1, h2, h3, h4⟩ := clearD_ok (zero := Link.zero) hT hb
  have hf := freeAllD_freeAll _ h2
  rw [hlen] at hf h4
  refine ⟨{ s with mem := m₂, len := 0 }, ?_, ?_⟩
  · simp [SkipList.clear, h1, hf, h3]
  · simp only [SkipList.clearD, h4]

/-- **C76, `clear` of a `SkipList`, what happens.** If the destructor of any value panics, the list that is left reports
to be empty, but is linked to memory that has been freed or whose value has been dropped: dropping the list (which
happens by itself at the end of its scope) and clearing it again are undefined, and so is the first call of `next` of an
iterator. -/
theorem C76_skip_list_clear_exact {f : Bool} {s : SkipList V} {l : List V} (h : Reach f s) (hl : Rp s l)
    (boom : V → Bool) (hb : l.any boom = true) :
    ∃ s', s.clearD boom s.len = .done (s', startedOf boom l, true) ∧ s'.len = 0 ∧
      (∀ boom' f, s'.dropD boom' (f + 1) = .undefined) ∧ (∀ boom' f, s'.clearD boom' (f + 1) = .undefined) ∧
      ∀ n, s'.iter (n + 1) = none := by
  obtain ⟨T, hT, rfl, hlen⟩ := owned_of_reach h hl
  obtain ⟨m', h1, h2, k, a, h3, h4, h5, h6⟩ := clearD_panic (zero := Link.zero) hT hb
  obtain ⟨n, hd⟩ := hT.hd
  rw [hlen] at h1
  refine ⟨{ s with mem := m', len := 0 }, by simp only [SkipList.clearD, h1], rfl, ?_, ?_, ?_⟩
  · intro boom' f
    exact dropD_undefined (e := none) (n := n) (by rw [shape, h2]; exact hd) h3 h4 h6 h5 f
  · intro boom' f
    simp only [SkipList.clearD, clearD_undefined h3 h4 h6]
  · intro n
    simp [SkipList.iter, h3, h4, iterate, h6]

/-- The hypotheses of the theorems above are met by every list that can be built, `7, 8` for instance. -/
example : (∃ f, Reach f exB) ∧ exB.iter 3 = some [some 7, some 8, none] ∧
    Map.Ended.log (exB.clearD (fun e => e == 8) 2) = some ([7, 8], true) ∧
    Map.Ended.log (exB.clearD (fun e => e == 7) 2) = some ([7], true) ∧
    Map.Ended.log (exB.clearD (fun _ => false) 2) = some ([7, 8], false) :=
  ⟨reach_mk 5 _, by decide +kernel, by decide +kernel, by decide +kernel, by decide +kernel⟩

/-- **C76 is violated by `SkipList`.** -/
theorem C76_skip_list_violated : ¬ ∀ (f : Bool) (s s' : SkipList Nat) (boom : Nat → Bool) (st : List Nat) (p : Bool),
    Reach f s → s.clearD boom s.len = .done (s', st, p) → ∃ f r, s'.dropD (fun _ => false) (f + 1) = .done r := by
  intro h
  obtain ⟨f, hr⟩ := reach_mk 5 [(.pushBack 8, (0, 0)), (.pushBack 7, (1, 0))]
  obtain ⟨l, hl⟩ := C13_skip_list_represents hr
  have hany : l.any (fun _ => true) = true := by
    have h0 := iter_of_rp hl 0
    rw [show (mk 5 [(.pushBack 8, (0, 0)), (.pushBack 7, (1, 0))]).get 0 = some (some 7) by decide +kernel] at h0
    cases l with
    | nil => simp at h0
    | cons e l => rfl
  obtain ⟨s', h1, _, h3, _⟩ := C76_skip_list_clear_exact hr hl _ hany
  obtain ⟨f', r, h4⟩ := h f _ s' _ _ _ hr h1
  rw [h3] at h4
  cases h4

end Verif.Skip.Lst
