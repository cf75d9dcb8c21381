/- Property C73, closing and reopening the file of a BpMap after operations on the file have failed. -/
import Verif.Bp.FaultProps
import Verif.Bp.Space

namespace Verif.Bp

open Verif.Spec

variable {K V : Type} [LinearOrder K] {ld id : Nat}

/-! ### Specification -/

/-- The results of calls that changed the number of entries or have cleared the map. -/
def Resized : MapOp K V → MapRes K V → Prop
  | .insert _ _, r => r = .pair none
  | .remove _, r => ∃ e, r = .pair (some e)
  | .clear, _ => True
  | _, _ => False

/-! ### The header -/

theorem insert_noted {p p' : Pager K V} {k : K} {v : V} {o} (e : insert p k v = some (p', o)) : Noted p p' := by
  obtain ⟨_, _, _, -, h⟩ := allocs_insert e
  exact h.noted

theorem remove_noted {p p' : Pager K V} {k : K} {o} (e : remove p k = some (p', o)) : Noted p p' := by
  obtain ⟨_, _, _, -, h⟩ := frees_remove e
  exact h.noted

omit [LinearOrder K] in
theorem clear_hdr {p p' : Pager K V} (e : p.clear = some p') : p'.disk.hdr = p'.md := by
  rw [Pager.clear] at e
  rw [writeNode_some e]
  rfl

theorem step_noted {p p' : Pager K V} {op : MapOp K V} {r} (e : step p op = some (p', r)) : Noted p p' := by
  have same : ∀ {q : Pager K V}, q = p → Noted p q := by rintro q rfl; exact noted_same rfl rfl
  cases op with
  | insert k v =>
    simp only [step, Option.map_eq_some_iff, Prod.mk.injEq] at e
    obtain ⟨⟨a, b⟩, e, rfl, -⟩ := e
    exact insert_noted e
  | remove k =>
    simp only [step, Option.map_eq_some_iff, Prod.mk.injEq] at e
    obtain ⟨⟨a, b⟩, e, rfl, -⟩ := e
    exact remove_noted e
  | clear =>
    simp only [step, Option.map_eq_some_iff, Prod.mk.injEq] at e
    obtain ⟨a, e, rfl, -⟩ := e
    exact noted_of_eq (clear_hdr e)
  | get | containsKey | min | max | iter =>
    simp only [step, Option.map_eq_some_iff, Prod.mk.injEq] at e
    obtain ⟨_, -, rfl, -⟩ := e
    exact same rfl
  | len | isEmpty => cases e; exact same rfl
  | getMut | floor | ceil => cases e

omit [LinearOrder K] in
/-- Nothing but the length and the list of free pages changes. -/
theorem rootKnown_of {p p' : Pager K V} (h : RootKnown p) (hd : p'.disk.hdr = p.disk.hdr) (hr : p'.md.root = p.md.root)
    (hl : p'.md.leafDeg = p.md.leafDeg) (hi : p'.md.intDeg = p.md.intDeg) : RootKnown p' := by
  rw [RootKnown, hd, hr, hl, hi]; exact h

omit [LinearOrder K] in
theorem allocErr_known {p q : Pager K V} {n : Node K V} (h : RootKnown p) (hq : q ∈ p.allocErr n) : RootKnown q := by
  rw [Pager.allocErr] at hq
  split at hq
  · simp only [List.mem_cons, Option.mem_toList] at hq
    rcases hq with rfl | rfl | hq
    · exact rootKnown_of h rfl rfl rfl rfl
    · exact rootKnown_of h rfl rfl rfl rfl
    · rw [writeNode_some hq]
      exact rootKnown_of h rfl rfl rfl rfl
  · rw [List.mem_cons] at hq
    rcases hq with rfl | hq
    · exact h
    split at hq
    · simp only [Option.mem_toList, Option.map_eq_some_iff] at hq
      obtain ⟨q', hq, rfl⟩ := hq
      rw [writeNode_some hq]
      exact rootKnown_of h rfl rfl rfl rfl
    · cases hq

theorem insertErr_known {p : Pager K V} {k : K} {v : V} (h : RootKnown p) :
    ∀ x ∈ insertErr p k v, x.1 ≠ .torn → RootKnown x.2 := by
  intro x hx hnt
  rw [insertErr, List.mem_cons] at hx
  rcases hx with rfl | hx
  · exact h
  split at hx
  · split at hx
    · cases hx
    · rw [List.mem_append] at hx
      rcases hx with hx | hx
      · obtain ⟨q, hq, rfl⟩ := List.mem_map.1 hx
        exact allocErr_known h hq
      · split at hx
        · cases hx
        · rename_i p1 q ha
          have h1 := (allocs_allocate ha).noted.root h
          rw [List.mem_cons] at hx
          rcases hx with rfl | hx
          · exact h1
          · split at hx
            · cases hx
            · rename_i p2 hw
              have h2 := (allocs_writeNode hw).noted.root h1
              rw [List.mem_append] at hx
              rcases hx with hx | hx
              · obtain ⟨q, -, rfl⟩ := List.mem_map.1 hx
                exact absurd rfl hnt
              · split at hx
                · cases hx
                · rename_i p3 hu
                  simp only [List.mem_singleton] at hx
                  rw [hx]
                  exact rootKnown_of ((allocs_insertUp _ hu).noted.root h2) rfl rfl rfl rfl
    · simp only [List.mem_singleton] at hx
      rw [hx]
      exact h
    · rw [List.mem_cons] at hx
      rcases hx with rfl | hx
      · exact h
      · split at hx
        · cases hx
        · rename_i p1 hw
          simp only [List.mem_singleton] at hx
          rw [hx]
          exact rootKnown_of ((allocs_writeNode hw).noted.root h) rfl rfl rfl rfl
  · cases hx

omit [LinearOrder K] in
theorem borrowErr_known {p : Pager K V} (h : RootKnown p) {i a j b k c} :
    ∀ x ∈ borrowErr p i a j b k c, x.1 ≠ .torn → RootKnown x.2 := by
  intro x hx hnt
  simp only [borrowErr, List.cons_append, List.mem_cons, List.mem_append, List.mem_map, Option.mem_toList, Option.map_eq_some_iff] at hx
  rcases hx with rfl | ⟨q, -, rfl⟩ | ⟨q, hq, rfl⟩
  · exact h
  · exact absurd rfl hnt
  · rw [write3] at hq
    split at hq
    · cases hq
    · rename_i p1 h1
      split at hq
      · cases hq
      · rename_i p2 h2
        have hk := (frees_writeNode hq).noted.root ((frees_writeNode h2).noted.root ((frees_writeNode h1).noted.root h))
        exact rootKnown_of hk rfl rfl rfl rfl

theorem mergeErr_known {p : Pager K V} (h : RootKnown p) {gone kept : Nat} {n pp pn i} {st : Stack K} :
    ∀ x ∈ mergeErr p gone kept n pp pn i st, x.1 ≠ .torn → RootKnown x.2 := by
  intro x hx hnt
  rw [mergeErr, List.cons_append, List.mem_cons, List.mem_append, List.mem_map] at hx
  rcases hx with rfl | ⟨q, -, rfl⟩ | hx
  · exact h
  · exact absurd rfl hnt
  · split at hx
    · cases hx
    · rw [List.mem_cons] at hx
      rcases hx with rfl | hx
      · exact absurd rfl hnt
      · split at hx
        · rw [List.mem_cons, List.mem_map] at hx
          rcases hx with rfl | ⟨q, -, rfl⟩ <;> exact absurd rfl hnt
        · cases hx

omit [LinearOrder K] in
theorem simpleErr_known {p : Pager K V} (h : RootKnown p) : ∀ x ∈ simpleErr p, RootKnown x.2 := by
  intro x hx
  simp only [simpleErr, List.mem_cons, List.not_mem_nil, or_false] at hx
  rcases hx with rfl | rfl
  · exact rootKnown_of h rfl rfl rfl rfl
  · exact ⟨rfl, rfl, rfl⟩

theorem removeLeafErr_known {p : Pager K V} (h : RootKnown p) {page n st} {found : Bool} :
    ∀ x ∈ removeLeafErr p page n found st, x.1 ≠ .torn → RootKnown x.2 := by
  intro x hx hnt
  cases st with
  | nil =>
    rw [removeLeafErr] at hx
    split at hx
    · exact simpleErr_known h x hx
    · cases hx
  | cons a st =>
    obtain ⟨pp, pn, i⟩ := a
    rw [removeLeafErr] at hx
    split at hx
    · simp only at hx
      split at hx
      · cases hx
      · rw [List.mem_cons] at hx
        rcases hx with rfl | hx
        · exact h
        split at hx
        · split at hx
          · split at hx
            · split at hx
              · cases hx
              · exact mergeErr_known h x hx hnt
            · split at hx
              · cases hx
              · exact mergeErr_known h x hx hnt
          · split at hx
            · split at hx
              · cases hx
              · split at hx
                · split at hx
                  · exact borrowErr_known h x hx hnt
                  · cases hx
                · cases hx
            · split at hx
              · cases hx
              · split at hx
                · exact borrowErr_known h x hx hnt
                · cases hx
        · cases hx
    · split at hx
      · exact simpleErr_known h x hx
      · cases hx

theorem stepErr_known {p : Pager K V} (h : RootKnown p) {op : MapOp K V} :
    ∀ x ∈ stepErr p op, x.1 ≠ .torn → RootKnown x.2 := by
  intro x hx hnt
  cases op with
  | insert k v => exact insertErr_known h x hx hnt
  | remove k =>
    have hx : x ∈ removeErr p k := hx
    rw [removeErr, List.mem_cons] at hx
    rcases hx with rfl | hx
    · exact h
    split at hx
    · split at hx
      · cases hx
      · exact removeLeafErr_known h x hx hnt
    · cases hx
  | clear =>
    obtain ⟨q, -, rfl⟩ := List.mem_map.1 hx
    exact absurd rfl hnt
  | get k | containsKey k | min | max | iter =>
    simp only [stepErr, List.mem_singleton] at hx
    subst hx
    exact h
  | len | isEmpty | getMut k f | floor k | ceil k => cases hx

theorem runs_known {p p' : Pager K V} {es : List (Event K V)} (hr : Runs p es p') (h : RootKnown p) (hc : Covered ld p es) :
    RootKnown p' := by
  induction hr with
  | nil p => exact h
  | done hs hr ih => exact ih ((step_noted hs).root h) (covered_tail hc fun hq => .done hs hq)
  | @failed p p₁ p₂ op f es hs hr ih =>
    exact ih (stepErr_known h _ hs fun e => (hc [] _ _ rfl).1 op (by rw [show f = .torn from e]))
      (covered_tail hc fun hq => .failed hs hq)

/-! ### Calls that bring the header up to date -/

theorem insert_synced {p p' : Pager K V} {k : K} {v : V} (h : insert p k v = some (p', none)) : p'.disk.hdr = p'.md := by
  rw [insert] at h
  split at h
  · split at h
    · cases h
    · cases h
    · split at h
      · cases h
      · cases h; rfl
  · cases h

theorem removeLeaf_synced {st : Stack K} {p p' : Pager K V} {page : Nat} {n : LNode K V}
    (h : removeLeaf p page n true st = some p') : p'.disk.hdr = p'.md := by
  have plain : (p.setLen (p.md.len - 1)).writeNode page (.leaf n) = some p' → p'.disk.hdr = p'.md :=
    fun h => (frees_writeNode h).noted.all rfl
  cases st with
  | nil =>
    simp only [removeLeaf] at h
    exact plain h
  | cons e st =>
    obtain ⟨pp, pn, i⟩ := e
    simp only [removeLeaf] at h
    split at h
    · split at h
      · cases h
      · split at h
        · split at h
          · split at h
            · split at h
              · split at h
                · exact (frees_removeUp _ h).noted.all rfl
                · cases h
              · cases h
            · split at h
              · split at h
                · exact (frees_removeUp _ h).noted.all rfl
                · cases h
              · cases h
          · split at h
            · split at h
              · cases h
              · split at h
                · split at h
                  · split at h
                    · cases h
                    · split at h
                      · cases h
                      · split at h
                        · cases h
                        · cases h; rfl
                  · cases h
                · cases h
            · split at h
              · cases h
              · split at h
                · split at h
                  · cases h
                  · split at h
                    · cases h
                    · split at h
                      · cases h
                      · cases h; rfl
                · cases h
        · cases h
    · exact plain h

theorem remove_synced {p p' : Pager K V} {k : K} {e} (h : remove p k = some (p', some e)) : p'.disk.hdr = p'.md := by
  rw [remove] at h
  split at h
  · split at h
    · cases h
    · rename_i hn
      simp only [Option.map_eq_some_iff, Prod.mk.injEq] at h
      obtain ⟨q, h, rfl, rfl⟩ := h
      exact removeLeaf_synced h
  · cases h

theorem resized_synced {p p' : Pager K V} {op : MapOp K V} {r} (e : step p op = some (p', r)) (h : Resized op r) :
    p'.disk.hdr = p'.md := by
  cases op with
  | insert k v =>
    simp only [step, Option.map_eq_some_iff, Prod.mk.injEq] at e
    obtain ⟨⟨a, b⟩, e, rfl, rfl⟩ := e
    cases h
    exact insert_synced e
  | remove k =>
    simp only [step, Option.map_eq_some_iff, Prod.mk.injEq] at e
    obtain ⟨⟨a, b⟩, e, rfl, rfl⟩ := e
    obtain ⟨x, h⟩ := h
    cases h
    exact remove_synced e
  | clear =>
    simp only [step, Option.map_eq_some_iff, Prod.mk.injEq] at e
    obtain ⟨a, e, rfl, -⟩ := e
    exact clear_hdr e
  | _ => exact h.elim

theorem runs_append {p p' : Pager K V} {es fs : List (Event K V)} (h : Runs p (es ++ fs) p') :
    ∃ q, Runs p es q ∧ Runs q fs p' := by
  induction es generalizing p with
  | nil => exact ⟨p, .nil p, h⟩
  | cons e es ih =>
    cases h with
    | done hs hr =>
      obtain ⟨q, h1, h2⟩ := ih hr
      exact ⟨q, .done hs h1, h2⟩
    | failed hs hr =>
      obtain ⟨q, h1, h2⟩ := ih hr
      exact ⟨q, .failed hs h1, h2⟩

/-! ### Theorems -/

/-- **C73, reopening (partial).**  Whatever operations on the file fail, if no failing call had written some but not all
pages of the tree, then the map that is read back from the file at any later point has the contents of the map in
memory: no entry is lost and no entry comes back.
Missing: the length (`C73_reopen_violated`), and calls that write (`C73_reopen_violated`, `C73_reopen_synced_partial`). -/
theorem C73_reopen_partial (hld : 1 ≤ ld) (hid : 3 ≤ id) {p : Pager K V} {es : List (Event K V)} (hr : Runs (new ld id) es p)
    (hc : Covered ld (new ld id) es) :
    ∃ m δ, Explains AMap.empty 0 es m δ ∧
      ∀ op, Looks op → op ≠ .len → op ≠ .isEmpty →
        ∃ r, step (Pager.openFile p.disk) op = some (Pager.openFile p.disk, r) ∧ op.Spec m r m := by
  obtain ⟨l, δ, h1, h2⟩ := runs_explained (δ := 0) hld hid hr (relG_weaken ⟨0, _, holds_new ld id, rfl⟩) hc
  obtain ⟨k1, k2, k3⟩ := runs_known hr ⟨rfl, rfl, rfl⟩ hc
  refine ⟨SL.abs l, δ, h1, fun op hl hn1 hn2 => ?_⟩
  have hsame : SameContents p.disk p := sameContents_of rfl k1 k2
  have hf : Fine ld p op := by
    refine ⟨?_, ?_, ?_⟩
    · cases op <;> first | exact hl.elim | trivial
    · rintro k v rfl; exact hl.elim
    · rintro k rfl; exact hl.elim
  obtain ⟨p', r, e, ha, -⟩ := step_relG hld hid h2 hf
  have hans : op.Spec (SL.abs l) r (SL.abs l) := by
    cases op with
    | len => exact absurd rfl hn1
    | isEmpty => exact absurd rfl hn2
    | get | containsKey | min | max | iter => exact ha
    | _ => exact hl.elim
  refine ⟨r, ?_, hans⟩
  cases op with
  | get k =>
    have := hsame.get k
    simp only [step, Option.map_eq_some_iff, Prod.mk.injEq] at e ⊢
    obtain ⟨x, h1, -, h3⟩ := e
    exact ⟨x, this.trans h1, trivial, h3⟩
  | containsKey k =>
    have := hsame.get k
    simp only [step, Option.map_eq_some_iff, Prod.mk.injEq] at e ⊢
    obtain ⟨x, h1, -, h3⟩ := e
    exact ⟨x, this.trans h1, trivial, h3⟩
  | min =>
    have := hsame.min
    simp only [step, Option.map_eq_some_iff, Prod.mk.injEq] at e ⊢
    obtain ⟨x, h1, -, h3⟩ := e
    exact ⟨x, this.trans h1, trivial, h3⟩
  | max =>
    have := hsame.max
    simp only [step, Option.map_eq_some_iff, Prod.mk.injEq] at e ⊢
    obtain ⟨x, h1, -, h3⟩ := e
    exact ⟨x, this.trans h1, trivial, h3⟩
  | iter =>
    have := hsame.iter
    simp only [step, Option.map_eq_some_iff, Prod.mk.injEq] at e ⊢
    obtain ⟨x, h1, -, h3⟩ := e
    exact ⟨x, this.trans h1, trivial, h3⟩
  | len => exact absurd rfl hn1
  | isEmpty => exact absurd rfl hn2
  | _ => exact hl.elim

/-- **C73, reopening up to date (partial).**  If in addition the last call before the file is closed has returned and
has changed the number of entries or cleared the map, then the reopened map goes on where the map in memory stopped,
also with calls that write and with further failures: the events before and after are those of one map.
Missing: other last calls (`C73_reopen_violated`). -/
theorem C73_reopen_synced_partial (hld : 1 ≤ ld) (hid : 3 ≤ id) {p p' : Pager K V} {es es' : List (Event K V)} {op : MapOp K V} {r}
    (hr : Runs (new ld id) (es ++ [.done op r]) p) (hc : Covered ld (new ld id) (es ++ [.done op r])) (hop : Resized op r)
    (hr' : Runs (Pager.openFile p.disk) es' p') (hc' : Covered ld (Pager.openFile p.disk) es') :
    ∃ m δ m' δ', Explains AMap.empty 0 (es ++ [.done op r]) m δ ∧ Explains m δ es' m' δ' ∧
      ∀ op, Fine ld p' op → ∃ p'' r, step p' op = some (p'', r) ∧ Answer m' δ' op r := by
  obtain ⟨l, δ, h1, h2⟩ := runs_explained (δ := 0) hld hid hr (relG_weaken ⟨0, _, holds_new ld id, rfl⟩) hc
  have hs : p.disk.hdr = p.md := by
    obtain ⟨q, -, hq⟩ := runs_append hr
    cases hq with
    | done hs hr => cases hr; exact resized_synced hs hop
  have hmd : (Pager.openFile p.disk).md = p.md := hs
  have h3 : RelG false δ ld id (Pager.openFile p.disk) l :=
    relG_header h2 rfl (by rw [hmd]) (by rw [hmd])
  obtain ⟨l', δ', h4, h5⟩ := runs_explained hld hid hr' h3 hc'
  refine ⟨SL.abs l, δ, SL.abs l', δ', h1, h4, fun op hf => ?_⟩
  obtain ⟨p', r, e, ha, -⟩ := step_relG hld hid h5 hf
  exact ⟨p', r, e, ha⟩

/-- Make the calls, then one more that fails in a state with the given property. -/
theorem failing_run {ops : List (MapOp Nat Nat × Option Fault)} {op : MapOp Nat Nat} {f : Fault} {P : Pager Nat Nat → Prop}
    [DecidablePred P] (h : (trouble (new 2 3) ops).any (fun x => x.2.all noTorn && noTorn (.failed op f : Event Nat Nat) &&
      coveredB 2 (new 2 3) (x.2 ++ [.failed op f]) && (stepErr x.1 op).any fun y => decide (y.1 = f) && decide (P y.2)) = true) :
    ∃ es p, Runs (new 2 3) (es ++ [.failed op f]) p ∧ Covered 2 (new 2 3) (es ++ [.failed op f]) ∧ P p := by
  cases ht : trouble (new 2 3) ops with
  | none => rw [ht] at h; cases h
  | some x =>
    rw [ht] at h
    simp only [Option.any_some, Bool.and_eq_true] at h
    obtain ⟨⟨⟨h1, h2⟩, h3⟩, h4⟩ := h
    obtain ⟨⟨f', q⟩, h5, h6⟩ := List.any_eq_true.1 h4
    simp only [Bool.and_eq_true, decide_eq_true_eq] at h6
    obtain ⟨rfl, h6⟩ := h6
    refine ⟨x.2, q, ?_, covered_of_check (by simp [List.all_append, h1, h2]) h3, h6⟩
    have hr := runs_of_trouble ht
    generalize x.2 = es at hr
    clear h1 h2 h3 h4 ht
    generalize (new 2 3 : Pager Nat Nat) = p at hr
    generalize x.1 = p1 at hr h5
    induction hr with
    | nil p => exact .failed h5 (.nil _)
    | done hs _ ih => exact .done hs (ih h5)
    | failed hs _ ih => exact .failed hs (ih h5)

/-- **C73 does not hold after reopening.**  The first map has a free page.  An `insert` of 3 needs it and fails when the
header cannot be written.  The process could go on (trying the `insert` again succeeds), but in the file the header
still names the page as free although a leaf has been written to it: after reopening, the same `insert` panics
("Expected a free node.", pager.rs:249).  In the second map the `insert` of 1 fails when the length cannot be written:
after reopening the entry is there but the length is 0. -/
theorem C73_reopen_violated :
    (∃ es p, Runs (new 2 3) (es ++ [.failed (.insert 3 3) .alloc]) p ∧
      Covered 2 (new 2 3) (es ++ [.failed (.insert 3 3) .alloc]) ∧
      toList (Pager.openFile p.disk) = some [(1, 1), (2, 2)] ∧ (step p (.insert 3 3)).isSome = true ∧
      step (Pager.openFile p.disk) (.insert 3 3) = none) ∧
    ∃ es p, Runs (new 2 3) (es ++ [.failed (.insert 1 1) .len]) p ∧ Covered 2 (new 2 3) (es ++ [.failed (.insert 1 1) .len]) ∧
      toList (Pager.openFile p.disk) = some [(1, 1)] ∧ (Pager.openFile p.disk).md.len = 0 :=
  ⟨failing_run (ops := [(.insert 1 1, none), (.insert 2 2, none), (.insert 3 3, none), (.remove 3, none),
      (.remove 2, none), (.insert 2 2, none)])
    (P := fun p => toList (Pager.openFile p.disk) = some [(1, 1), (2, 2)] ∧ (step p (.insert 3 3)).isSome = true ∧
      step (Pager.openFile p.disk) (.insert 3 3) = none) (by decide +kernel),
   failing_run (ops := []) (P := fun p => toList (Pager.openFile p.disk) = some [(1, 1)] ∧ (Pager.openFile p.disk).md.len = 0)
    (by decide +kernel)⟩

/-- A history with failures that ends with a call that changes the number of entries, and one for the reopened file. -/
def troubled' : List (MapOp Nat Nat × Option Fault) :=
  [(.insert 1 1, none), (.insert 2 2, none), (.insert 3 3, some .alloc), (.insert 3 3, some .write), (.insert 3 3, some .len),
    (.remove 1, some .early), (.insert 4 4, none)]

/-- The hypotheses of `C73_reopen_synced_partial` are met: the file is reopened after four failures, two more follow. -/
example : ∃ es r p es' p', Runs (new 2 3) (es ++ [.done (.insert 4 4) r]) p ∧
    Covered 2 (new 2 3) (es ++ [.done (.insert 4 4) r]) ∧ Resized (.insert 4 4 : MapOp Nat Nat) r ∧
    Runs (Pager.openFile p.disk) es' p' ∧ Covered 2 (Pager.openFile p.disk) es' ∧ es.length = 6 ∧ es'.length = 4 ∧
    toList p' = some [(1, 1), (2, 2), (3, 3), (4, 4), (5, 5), (6, 6)] ∧ p'.md.len = 5 := by
  have h : (trouble (new 2 3) troubled').any (fun x => x.2.all noTorn && coveredB 2 (new 2 3) x.2 && decide (x.2.length = 7) &&
      (match x.2.getLast? with | some (.done (.insert 4 4) (.pair none)) => true | _ => false) &&
      (trouble (Pager.openFile x.1.disk) [(.insert 5 5, some .write), (.insert 5 5, none), (.remove 7, some .read),
        (.insert 6 6, none)]).any fun y => y.2.all noTorn && coveredB 2 (Pager.openFile x.1.disk) y.2 && decide (y.2.length = 4) &&
          decide (toList y.1 = some [(1, 1), (2, 2), (3, 3), (4, 4), (5, 5), (6, 6)]) && decide (y.1.md.len = 5)) = true := by
    decide +kernel
  cases hf : trouble (new 2 3) troubled' with
  | none => rw [hf] at h; cases h
  | some x =>
    rw [hf] at h
    simp only [Option.any_some, Bool.and_eq_true, decide_eq_true_eq] at h
    obtain ⟨⟨⟨⟨h1, h2⟩, h3⟩, h4⟩, h5⟩ := h
    obtain ⟨es, hes⟩ : ∃ es, x.2 = es ++ [.done (.insert 4 4) (.pair none)] := by
      split at h4
      · rename_i hl
        exact ⟨_, (List.dropLast_append_getLast? _ hl).symm⟩
      · cases h4
    cases hg : trouble (Pager.openFile x.1.disk) [(.insert 5 5, some .write), (.insert 5 5, none), (.remove 7, some .read),
        (.insert 6 6, none)] with
    | none => rw [hg] at h5; cases h5
    | some y =>
      rw [hg] at h5
      simp only [Option.any_some, Bool.and_eq_true, decide_eq_true_eq] at h5
      obtain ⟨⟨⟨⟨g1, g2⟩, g3⟩, g4⟩, g5⟩ := h5
      refine ⟨es, .pair none, x.1, y.2, y.1, hes ▸ runs_of_trouble hf, hes ▸ covered_of_check h1 h2, rfl, runs_of_trouble hg,
        covered_of_check g1 g2, ?_, g3, g4, g5⟩
      rw [hes] at h3
      simpa using h3

end Verif.Bp
