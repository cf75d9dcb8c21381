/- Properties C13, C14, C16 (lists) and C52 about `SkipList`. -/
import Verif.Skip.ListAppend

namespace Verif.Skip.Lst

open Verif.Spec

variable {V : Type}

/-- `s` behaves as the plain sequence `l` from now on, for all calls, heights and addresses. -/
abbrev Rp (s : SkipList V) (l : List V) : Prop := (impl V 0).Represents s l

/-- The lists a program can build with the list calls.  The flag says that no element was removed (except
by `clear`) from the list, and from the right-most operand if it was built by `+`; the left operand of `+`
must be so built (otherwise see `C14_skip_list_concat_violated`). -/
inductive Reach : Bool → SkipList V → Prop
  | new (a : Addr) : Reach true (SkipList.new a)
  | keep {b s s' op d r} : Reach b s → removes op = false → step s op d = some (s', r) → Reach b s'
  | remove {b s s' op d r} : Reach b s → step s op d = some (s', r) → Reach false s'
  | clear {b s s'} : Reach b s → s.clear = some s' → Reach true s'
  | add {b s o c} : Reach true s → Reach b o → Disjoint s o → s.append o = some c → Reach b c

theorem good_of_reach {b : Bool} {s : SkipList V} (h : Reach b s) : ∃ T, Good (b = true) s T := by
  induction h with
  | new a => exact ⟨[], (good_new a).weaken fun _ => trivial⟩
  | keep _ hop hs ih =>
    rename_i b s s' op d r _
    obtain ⟨T, hT⟩ := ih
    obtain ⟨h1, h2⟩ := step_ok hT op d
    cases he : op.exec (vals T) with
    | none => rw [h1 he] at hs; cases hs
    | some p =>
      obtain ⟨s2, T', g1, g2, g3⟩ := h2 p.1 p.2 he
      rw [hs] at g1
      obtain ⟨rfl, _⟩ := Prod.mk.inj (Option.some.inj g1)
      exact ⟨T', g3.weaken fun h => ⟨h, hop⟩⟩
  | remove _ hs ih =>
    rename_i b s s' op d r _
    obtain ⟨T, hT⟩ := ih
    obtain ⟨h1, h2⟩ := step_ok hT op d
    cases he : op.exec (vals T) with
    | none => rw [h1 he] at hs; cases hs
    | some p =>
      obtain ⟨s2, T', g1, g2, g3⟩ := h2 p.1 p.2 he
      rw [hs] at g1
      obtain ⟨rfl, _⟩ := Prod.mk.inj (Option.some.inj g1)
      exact ⟨T', g3.weaken fun h => by simp at h⟩
  | clear _ hs ih =>
    obtain ⟨T, hT⟩ := ih
    obtain ⟨s2, g1, g2⟩ := clear_ok hT
    rw [hs] at g1
    obtain rfl := Option.some.inj g1
    exact ⟨[], g2.weaken fun _ => trivial⟩
  | add _ _ hd hs iha ihb =>
    obtain ⟨T, hT⟩ := iha
    obtain ⟨U, hU⟩ := ihb
    obtain ⟨c, g1, g2⟩ := append_ok (hT.weaken fun _ => rfl) hU hd
    rw [hs] at g1
    obtain rfl := Option.some.inj g1
    exact ⟨_, g2⟩

theorem good_represents {ex : Prop} {s : SkipList V} {T : List (Tower V)} (h : Good ex s T) : Rp s (vals T) :=
  (sim V 0).represents ⟨T, h.weaken False.elim, rfl⟩

theorem contents {ex : Prop} {s : SkipList V} {T : List (Tower V)} {l : List V} (h : Good ex s T) (hl : Rp s l) : l = vals T :=
  seqRepresents_unique (I := impl V 0) ((0, 0) : Draw) hl (good_represents h)

/-! ### C13 -/

/-- **C13.** From the empty list, wherever its head is allocated, every sequence of calls returns what the
plain sequence returns and panics exactly where that is out of range, for all tower heights. -/
theorem C13_skip_list_history (V : Type) (a : Addr) : (impl V a).Represents (SkipList.new a) [] :=
  (sim V a).represents (sim V a).empty

/-- Every list a program can build behaves as some plain sequence. -/
theorem C13_skip_list_represents {b : Bool} {s : SkipList V} (h : Reach b s) : ∃ l, Rp s l := by
  obtain ⟨T, hT⟩ := good_of_reach h
  exact ⟨_, good_represents hT⟩

/-- A run with towers of different heights, an insertion in the middle, a removal, iteration, and a panic
at the end. -/
example : (impl Nat 0).run (SkipList.new 0) ([(.pushBack 1, (0, 0)), (.pushBack 2, (3, 1)), (.pushFront 0, (1, 0)),
      (.insert 2 7, (2, 0)), (.remove 1, (0, 0)), (.getMut 1 (· + 1), (0, 0)), (.iter 4, (0, 0)), (.popBack, (0, 0)),
      (.iterMut [(· + 1)], (0, 0)), (.get 0, (0, 0)), (.remove 2, (0, 0)), (.len, (0, 0))] : List (SeqOp Nat × Draw)) =
    [some .unit, some .unit, some .unit, some .unit, some (.val 1), some (.opt (some 7)),
      some (.opts [some 0, some 8, some 2, none]), some (.val 2), some (.opts [some 0]),
      some (.opt (some 1)), none] := by decide +kernel

/-! ### C14 -/

/-- **C14, partial.** If nothing was ever removed from `a` (except by `clear`), then `a + b` behaves as the
concatenation.  Missing: left operands from which elements were removed, for which the claim is false
(`C14_skip_list_concat_violated`). -/
theorem C14_skip_list_concat_partial {f : Bool} {a b : SkipList V} {la lb : List V} (ha : Reach true a) (hb : Reach f b)
    (hd : Disjoint a b) (hla : Rp a la) (hlb : Rp b lb) : ∃ c, a.append b = some c ∧ Rp c (la ++ lb) := by
  obtain ⟨T, hT⟩ := good_of_reach ha
  obtain ⟨U, hU⟩ := good_of_reach hb
  obtain ⟨c, g1, g2⟩ := append_ok (hT.weaken fun _ => rfl) hU hd
  refine ⟨c, g1, ?_⟩
  have := good_represents g2
  rw [contents hT hla, contents hU hlb]
  simpa [vals] using this

/-- A list built by calls; the empty list if one of them panics. -/
def mk (a : Addr) : List (SeqOp Nat × Draw) → SkipList Nat
  | [] => SkipList.new a
  | p :: l => ((step (mk a l) p.1 p.2).map (·.1)).getD (SkipList.new a)

theorem reach_mk (a : Addr) (l : List (SeqOp Nat × Draw)) : ∃ f, Reach f (mk a l) := by
  induction l with
  | nil => exact ⟨_, Reach.new a⟩
  | cons p l ih =>
    obtain ⟨f, ih⟩ := ih
    unfold mk
    cases h : step (mk a l) p.1 p.2 with
    | none => exact ⟨_, Reach.new a⟩
    | some q => exact ⟨_, ih.remove h⟩

theorem reach_mk_true (a : Addr) (l : List (SeqOp Nat × Draw)) (hl : ∀ p ∈ l, removes p.1 = false) : Reach true (mk a l) := by
  induction l with
  | nil => exact Reach.new a
  | cons p l ih =>
    have ih := ih fun q hq => hl q (by simp [hq])
    unfold mk
    cases h : step (mk a l) p.1 p.2 with
    | none => exact Reach.new a
    | some q => exact ih.keep (hl p (by simp)) h

theorem disjoint_of_ranges {f : Bool} {a b : SkipList V} (ha : Reach f a) (hb : ∀ x, x < a.bump → (b.mem x).isNone) : Disjoint a b := by
  obtain ⟨T, hT⟩ := good_of_reach ha
  intro x
  by_cases h : x < a.bump
  · exact .inr (Option.isNone_iff_eq_none.1 (hb x h))
  · exact .inl (hT.2.2 x (Nat.le_of_not_lt h))

/-- The sequence `1, 2`, never shortened. -/
def exA : SkipList Nat := mk 0 [(.pushBack 2, (0, 0)), (.pushBack 1, (2, 0))]
/-- The sequence `1`, left after removing a second element. -/
def exA' : SkipList Nat := mk 0 [(.remove 1, (0, 0)), (.pushBack 2, (0, 0)), (.pushBack 1, (0, 0))]
/-- The sequence `7, 8`, in other addresses. -/
def exB : SkipList Nat := mk 5 [(.pushBack 8, (0, 0)), (.pushBack 7, (1, 0))]

theorem disjoint_ex : Disjoint exA exB := disjoint_of_ranges (reach_mk 0 _).choose_spec (by decide +kernel)
theorem disjoint_ex' : Disjoint exA' exB := disjoint_of_ranges (reach_mk 0 _).choose_spec (by decide +kernel)

/-- The hypotheses of `C14_skip_list_concat_partial` are met by `1, 2` and `7, 8`. -/
example : Reach true exA ∧ Disjoint exA exB ∧ ((exA.append exB).bind (·.iter 5)) = some [some 1, some 2, some 7, some 8, none] :=
  ⟨reach_mk_true 0 _ (by decide), disjoint_ex, by decide +kernel⟩

/-- What the first `n` calls of `next` return. -/
theorem iter_of_rp {s : SkipList V} {l : List V} (h : Rp s l) (i : Nat) : s.get i = some l[i]? := by
  have := h [(.get i, (0, 0))]
  simp only [SeqImpl.run, List.map_cons, List.map_nil, seqRun, SeqOp.exec, impl, step] at this
  cases hg : s.get i with
  | none => rw [hg] at this; simp at this
  | some o => rw [hg] at this; simpa using this

/-- **C14 is violated.** There are lists, built by ordinary calls, whose concatenation is not the
concatenation of the sequences: `1, 2` with the `2` removed, plus `7, 8`, answers `7` for index 2. -/
theorem C14_skip_list_concat_violated : ¬ ∀ a b : SkipList Nat, (∃ f, Reach f a) → (∃ f, Reach f b) → Disjoint a b →
    ∀ la lb, Rp a la → Rp b lb → ∃ c, a.append b = some c ∧ Rp c (la ++ lb) := by
  intro h
  obtain ⟨f, hA⟩ := reach_mk 0 [(.remove 1, (0, 0)), (.pushBack 2, (0, 0)), (.pushBack 1, (0, 0))]
  obtain ⟨g, hB⟩ := reach_mk 5 [(.pushBack 8, (0, 0)), (.pushBack 7, (1, 0))]
  obtain ⟨la, hla⟩ := C13_skip_list_represents hA
  obtain ⟨lb, hlb⟩ := C13_skip_list_represents hB
  obtain ⟨c, h1, h2⟩ := h exA' exB ⟨f, hA⟩ ⟨g, hB⟩ disjoint_ex' la lb hla hlb
  have ha : ∀ i, exA'.get i = some la[i]? := iter_of_rp hla
  have hb : ∀ i, exB.get i = some lb[i]? := iter_of_rp hlb
  have a0 := ha 0
  have a1 := ha 1
  have b1 := hb 1
  have c2 := iter_of_rp h2 2
  rw [show exA'.get 0 = some (some 1) by decide +kernel] at a0
  rw [show exA'.get 1 = some none by decide +kernel] at a1
  rw [show exB.get 1 = some (some 8) by decide +kernel] at b1
  have hlen : la.length = 1 := by
    have h3 := List.getElem?_eq_none_iff.1 (Option.some.inj a1).symm
    have h4 := (List.getElem?_eq_some_iff.1 (Option.some.inj a0).symm).choose
    omega
  have h5 : (exA'.append exB).bind (·.get 2) = some (some 7) := by decide +kernel
  rw [h1] at h5
  simp only [Option.bind_some] at h5
  rw [h5, List.getElem?_append_right (by omega), hlen, ← Option.some.inj b1] at c2
  exact absurd c2 (by decide)

/-! ### C52 -/

/-- **C52.** Dropping any list deallocates every node it owns, each exactly once, and nothing else. -/
theorem C52_skip_list_drop_frees_all {f : Bool} {s : SkipList V} (h : Reach f s) : ∃ m, s.drop = some m ∧ ∀ a, m a = none := by
  obtain ⟨T, hT⟩ := good_of_reach h
  exact drop_ok hT

/-- Such a list is the concatenation above. -/
example : ∃ c, exA.append exB = some c ∧ ∃ f, Reach f c :=
  have h : exA.append exB = some ((exA.append exB).get (by decide +kernel)) := (Option.some_get _).symm
  ⟨_, h, _, Reach.add (reach_mk_true 0 _ (by decide)) (reach_mk 5 _).choose_spec disjoint_ex h⟩

/-! ### C16 -/

theorem linked_of_links {m : LHeap V} {T : List (Tower V)} (he : ∀ t ∈ T, ∃ n, shape m t.addr = some (some t.e, n))
    (hc : ∀ a Q, (∃ P, addrs T = P ++ a :: Q) → ∃ d, getLink m a 0 = some ⟨Q.head?, d⟩) :
    Linked Link.next m (addrs T).head? (T.map fun t => (t.addr, t.e)) := by
  induction T with
  | nil => rfl
  | cons t T ih =>
    obtain ⟨d, h1⟩ := hc t.addr (addrs T) ⟨[], rfl⟩
    refine ⟨rfl, _, h1, he t (by simp), ?_⟩
    refine ih (fun x hx => he x (by simp [hx])) ?_
    rintro a Q ⟨P, hP⟩
    exact hc a Q ⟨t.addr :: P, by simp only [addrs] at hP ⊢; rw [List.map_cons, hP]; rfl⟩

/-- **C16, what happens.** After `n` steps the iterator has handed out the first `n` values; dropping it
drops every other value twice; no memory is leaked. -/
theorem C16_list_into_iter_exact {f : Bool} {s : SkipList V} {l : List V} (h : Reach f s) (hl : Rp s l) (n : Nat) :
    ∃ it it₁ it₂, s.intoIter = some it ∧ it.advance Link.next n = some it₁ ∧ it₁.drop Link.next s.len = some it₂ ∧
      it₂.handed = l.take n ∧ it₂.dropped = (l.drop n).flatMap (fun e => [e, e]) ∧ ∀ a, it₂.mem a = none := by
  obtain ⟨T, hT⟩ := good_of_reach h
  have e1 : l = vals T := contents hT hl
  obtain ⟨hr, hlen, hb⟩ := hT
  have hnd := hr.sub.nodup
  obtain ⟨d, hfst⟩ := bottom_first hr
  obtain ⟨m1, a1, a2, a3⟩ := zeroLinks_ok hr.sub.hd Link.zero
  obtain ⟨m2, b1, b2, b3⟩ := free_ok (m := m1) (by rw [a2]; exact hr.sub.hd)
  have hne : ∀ a ∈ addrs T, a ≠ s.head := by
    rintro a ha rfl; exact (List.nodup_cons.1 hnd).1 ha
  have hshape : ∀ a, a ≠ s.head → shape m2 a = shape s.mem a := fun a ha => by rw [b2, if_neg ha, a2]
  have hlinked : Linked Link.next m2 (addrs T).head? (T.map fun t => (t.addr, t.e)) := by
    refine linked_of_links (fun t ht => ?_) ?_
    · rw [hshape _ (hne _ (List.mem_map.2 ⟨t, ht, rfl⟩))]
      exact ⟨_, hr.sub.tow t ht⟩
    · intro a Q hP
      have ha : a ∈ addrs T := by obtain ⟨P, hP⟩ := hP; rw [hP]; simp
      rw [b3, if_neg (hne a ha), a3, if_neg (hne a ha)]
      exact bottom_links hr a Q hP
  have hn2 : ((T.map fun t => (t.addr, t.e)).map (·.1)).Nodup := by
    rw [List.map_map]; exact (List.nodup_cons.1 hnd).2
  obtain ⟨it1, c1, c2, c3, c4, c5⟩ := advance_ok (it := ⟨m2, (addrs T).head?, [], []⟩) n hn2 hlinked
  have hn3 : (((T.map fun t => (t.addr, t.e)).drop n).map (·.1)).Nodup := by
    rw [List.map_drop]; exact hn2.sublist (List.drop_sublist _ _)
  obtain ⟨it2, d1, d2, d3, d4⟩ := drop_all_ok (it := it1) s.len (by simp [hlen]) hn3 c4
  refine ⟨⟨m2, (addrs T).head?, [], []⟩, it1, it2, ?_, c1, d1, ?_, ?_, ?_⟩
  · simp [SkipList.intoIter, hfst, a1, b1]
  · rw [d2, c2, e1]; simp [vals, List.map_take, Function.comp_def]
  · rw [d3, c3, e1]; simp [vals, List.map_drop, Function.comp_def]
  · intro a
    have : shape it2.mem a = none := by
      rw [d4, c5]
      split
      · rfl
      · split
        · rfl
        · rename_i h1 h2
          by_cases ha : a = s.head
          · simp only; rw [b2, if_pos ha]
          · simp only; rw [hshape a ha]
            refine hr.only a ha ?_
            intro hc
            have h3 : a ∈ ((T.map fun t => (t.addr, t.e)).map (·.1)) := by rw [List.map_map]; exact hc
            rw [← List.take_append_drop n (T.map fun t => (t.addr, t.e)), List.map_append, List.mem_append] at h3
            tauto
    simpa [shape] using this

/-- **C16, partial.** If the iterator is run to its end before it is dropped, every value is accounted for
exactly once.  Missing: iterators dropped early, for which the claim is false (`C16_list_into_iter_violated`). -/
theorem C16_list_into_iter_partial {f : Bool} {s : SkipList V} {l : List V} (h : Reach f s) (hl : Rp s l) (n : Nat)
    (hn : l.length ≤ n) :
    ∃ it it₁ it₂, s.intoIter = some it ∧ it.advance Link.next n = some it₁ ∧ it₁.drop Link.next s.len = some it₂ ∧
      ExactlyOnce l it₂.handed it₂.dropped := by
  obtain ⟨it, it1, it2, h1, h2, h3, h4, h5, _⟩ := C16_list_into_iter_exact h hl n
  refine ⟨it, it1, it2, h1, h2, h3, ?_⟩
  rw [h4, h5, List.take_of_length_le hn, List.drop_of_length_le hn]
  simp [ExactlyOnce]

/-- **C16 is violated** whenever the iterator is dropped before its end: values are dropped twice. -/
theorem C16_list_into_iter_violated {f : Bool} {s : SkipList V} {l : List V} (h : Reach f s) (hl : Rp s l) (n : Nat)
    (hn : n < l.length) :
    ∃ it it₁ it₂, s.intoIter = some it ∧ it.advance Link.next n = some it₁ ∧ it₁.drop Link.next s.len = some it₂ ∧
      ¬ ExactlyOnce l it₂.handed it₂.dropped := by
  obtain ⟨it, it1, it2, h1, h2, h3, h4, h5, _⟩ := C16_list_into_iter_exact h hl n
  exact ⟨it, it1, it2, h1, h2, h3, by rw [h4, h5]; exact not_once l n hn⟩

/-- A run: one of two values is taken, the other is dropped twice. -/
example : (((exB.intoIter.bind (·.advance Link.next 1)).bind (·.drop Link.next exB.len)).map fun it => (it.handed, it.dropped)) =
    some ([7], [8, 8]) := by decide +kernel

end Verif.Skip.Lst
