/-
C68: the size of the file of a `BpMap`, and the number of writes of a call.
-/
import Verif.Bp.CrashExact
import Mathlib.Data.List.Induction

namespace Verif.Bp

open Verif.Spec

variable {K V : Type} [LinearOrder K] {ld id : Nat}

/-! ### Specification -/

/-- The most pages that a tree with `n` entries may have: at most one leaf for every `⌈ld / 2⌉` entries, and fewer
inner nodes than leaves; an empty tree has one page. -/
def mostPages (ld n : Nat) : Nat := Max.max 1 (2 * (n / ((ld + 1) / 2)) - 1)

/-! ### Pages of a tree -/

omit [LinearOrder K] in
theorem sum_pages {n : Nat} : ∀ {cs : List (BT K V n)}, (∀ c ∈ cs, c.pages.length + 1 ≤ 2 * c.leaves.length) →
    (cs.flatMap BT.pages).length + cs.length ≤ 2 * (cs.flatMap BT.leaves).length
  | [], _ => by simp
  | c :: cs, h => by
    have h1 := h c (by simp)
    have h2 := sum_pages (cs := cs) fun x hx => h x (by simp [hx])
    simp only [List.flatMap_cons, List.length_append, List.length_cons]
    omega

/-- There are fewer inner nodes than leaves. -/
theorem pages_le (hid : 3 ≤ id) : ∀ {n : Nat} {t : BT K V n} {lo hi}, Ok ld id t lo hi → (MinOcc ld id t ∨ RootOk t) →
    t.pages.length + 1 ≤ 2 * t.leaves.length := by
  intro n
  induction n with
  | zero => intro t lo hi _ _; obtain ⟨pg, es, rfl⟩ := t.leaf_cases; simp
  | succ n ih =>
    intro t lo hi hok hm
    obtain ⟨pg, ks, cs, rfl⟩ := t.node_cases
    obtain ⟨hlen, ho⟩ := ok_node.1 hok
    have hcs := ordL_length ho
    have h2 : 2 ≤ cs.length := by
      rcases hm with hm | hm
      · have hm : (id + 1) / 2 ≤ ks.length + 1 := hm
        omega
      · have := List.length_pos_iff.2 (rootOk_node.1 hm)
        omega
    have h3 := sum_pages (cs := cs) fun c hc => by
      obtain ⟨lo, hi, hcok⟩ := ordL_all ho c hc
      exact ih hcok.2 (.inl hcok.1)
    rw [BT.pages_node, BT.leaves_node, List.length_cons]
    omega

omit [LinearOrder K] in
theorem sum_leaves {n b : Nat} : ∀ {cs : List (BT K V n)}, (∀ c ∈ cs, c.leaves.length * b ≤ c.toL.length) →
    (cs.flatMap BT.leaves).length * b ≤ (cs.flatMap BT.toL).length
  | [], _ => by simp
  | c :: cs, h => by
    have h1 := h c (by simp)
    have h2 := sum_leaves (b := b) (cs := cs) fun x hx => h x (by simp [hx])
    simp only [List.flatMap_cons, List.length_append, Nat.add_mul]
    omega

/-- The leaves below the root are half full. -/
theorem leaves_full : ∀ {n : Nat} {t : BT K V n} {lo hi}, Ok ld id t lo hi → (MinOcc ld id t ∨ n ≠ 0) →
    t.leaves.length * ((ld + 1) / 2) ≤ t.toL.length := by
  intro n
  induction n with
  | zero =>
    intro t lo hi hok hm
    obtain ⟨pg, es, rfl⟩ := t.leaf_cases
    rcases hm with hm | hm
    · have hm : (ld + 1) / 2 ≤ es.length := hm
      simpa using hm
    · exact absurd rfl hm
  | succ n ih =>
    intro t lo hi hok hm
    obtain ⟨pg, ks, cs, rfl⟩ := t.node_cases
    obtain ⟨hlen, ho⟩ := ok_node.1 hok
    rw [BT.leaves_node, BT.toL_node]
    exact sum_leaves fun c hc => by
      obtain ⟨lo, hi, hcok⟩ := ordL_all ho c hc
      exact ih hcok.2 (.inl hcok.1)

/-- The pages of a tree. -/
theorem tree_pages (hld : 1 ≤ ld) (hid : 3 ≤ id) {p : Pager K V} {n : Nat} {t : BT K V n} (h : Holds ld id p t) :
    t.pages.length ≤ mostPages ld p.md.len := by
  unfold mostPages
  cases n with
  | zero =>
    obtain ⟨pg, es, rfl⟩ := t.leaf_cases
    simp only [BT.pages_leaf, List.length_singleton]
    exact Nat.le_max_left _ _
  | succ n =>
    have h1 := pages_le hid h.ok (.inr h.rootOk)
    have h2 := leaves_full h.ok (.inr (by omega))
    rw [← h.len] at h2
    have h3 := (Nat.le_div_iff_mul_le (by omega)).2 h2
    refine le_trans ?_ (Nat.le_max_right _ _)
    omega

/-! ### What the calls do to the file -/

/-- At most `a` writes. -/
def Within (a : Nat) (p p' : Pager K V) : Prop := p'.trace.length ≤ p.trace.length + a

/-- The header in the file names the root and the degrees that the process works with. -/
def RootKnown (p : Pager K V) : Prop :=
  p.disk.hdr.root = p.md.root ∧ p.disk.hdr.leafDeg = p.md.leafDeg ∧ p.disk.hdr.intDeg = p.md.intDeg

/-- Between `p` and `p'` the header in the file did not fall behind. -/
structure Noted (p p' : Pager K V) : Prop where
  root : RootKnown p → RootKnown p'
  all : p.disk.hdr = p.md → p'.disk.hdr = p'.md

omit [LinearOrder K] in
theorem Noted.trans {p q r : Pager K V} (h : Noted p q) (h' : Noted q r) : Noted p r :=
  ⟨fun x => h'.root (h.root x), fun x => h'.all (h.all x)⟩

omit [LinearOrder K] in
theorem noted_of_eq {p p' : Pager K V} (h : p'.disk.hdr = p'.md) : Noted p p' :=
  ⟨fun _ => by rw [RootKnown, h]; exact ⟨rfl, rfl, rfl⟩, fun _ => h⟩

omit [LinearOrder K] in
theorem noted_same {p p' : Pager K V} (h : p'.disk.hdr = p.disk.hdr) (h' : p'.md = p.md) : Noted p p' :=
  ⟨fun x => by rw [RootKnown, h, h']; exact x, fun x => by rw [h, h', x]⟩

/-- Between `p` and `p'` pages were only allocated: the file grows only when no page is free. -/
structure Allocs (a : Nat) (p p' : Pager K V) : Prop where
  writes : Within a p p'
  grown : p'.md.pages = p.md.pages ∨ p'.md.free = none
  free : p.md.free = none → p'.md.free = none
  noted : Noted p p'

/-- Between `p` and `p'` no page was added to the file. -/
structure Frees (a : Nat) (p p' : Pager K V) : Prop where
  writes : Within a p p'
  pages : p'.md.pages = p.md.pages
  noted : Noted p p'

omit [LinearOrder K] in
theorem Allocs.trans {a b : Nat} {p q r : Pager K V} (h : Allocs a p q) (h' : Allocs b q r) : Allocs (a + b) p r := by
  refine ⟨?_, ?_, fun e => h'.free (h.free e), h.noted.trans h'.noted⟩
  · have h1 := h.writes
    have h2 := h'.writes
    unfold Within at *
    omega
  · rcases h'.grown with e | e
    · rcases h.grown with e' | e'
      · exact .inl (e.trans e')
      · exact .inr (h'.free e')
    · exact .inr e

omit [LinearOrder K] in
theorem Frees.trans {a b : Nat} {p q r : Pager K V} (h : Frees a p q) (h' : Frees b q r) : Frees (a + b) p r := by
  refine ⟨?_, h'.pages.trans h.pages, h.noted.trans h'.noted⟩
  have h1 := h.writes
  have h2 := h'.writes
  unfold Within at *
  omega

omit [LinearOrder K] in
theorem Allocs.mono {a b : Nat} {p q : Pager K V} (h : Allocs a p q) (hab : a ≤ b) : Allocs b p q :=
  ⟨by have := h.writes; unfold Within at *; omega, h.grown, h.free, h.noted⟩

omit [LinearOrder K] in
theorem Frees.mono {a b : Nat} {p q : Pager K V} (h : Frees a p q) (hab : a ≤ b) : Frees b p q :=
  ⟨by have := h.writes; unfold Within at *; omega, h.pages, h.noted⟩

omit [LinearOrder K] in
theorem allocs_writeNode {p p' : Pager K V} {i n} (e : p.writeNode i n = some p') : Allocs 1 p p' := by
  rw [writeNode_some e]; exact ⟨by simp [Within, Pager.put], .inl rfl, fun h => h, noted_same rfl rfl⟩

omit [LinearOrder K] in
theorem frees_writeNode {p p' : Pager K V} {i n} (e : p.writeNode i n = some p') : Frees 1 p p' := by
  rw [writeNode_some e]; exact ⟨by simp [Within, Pager.put], rfl, noted_same rfl rfl⟩

omit [LinearOrder K] in
theorem allocs_setRoot (p : Pager K V) (r) : Allocs 1 p (p.setRoot r) :=
  ⟨by simp [Within, Pager.setRoot, Pager.writeHdr, Pager.put], .inl rfl, fun h => h, noted_of_eq rfl⟩

omit [LinearOrder K] in
theorem allocs_setLen (p : Pager K V) (r) : Allocs 1 p (p.setLen r) :=
  ⟨by simp [Within, Pager.setLen, Pager.writeHdr, Pager.put], .inl rfl, fun h => h, noted_of_eq rfl⟩

omit [LinearOrder K] in
theorem frees_setRoot (p : Pager K V) (r) : Frees 1 p (p.setRoot r) :=
  ⟨by simp [Within, Pager.setRoot, Pager.writeHdr, Pager.put], rfl, noted_of_eq rfl⟩

omit [LinearOrder K] in
theorem frees_setLen (p : Pager K V) (r) : Frees 1 p (p.setLen r) :=
  ⟨by simp [Within, Pager.setLen, Pager.writeHdr, Pager.put], rfl, noted_of_eq rfl⟩

omit [LinearOrder K] in
theorem allocs_allocate {p p' : Pager K V} {n q} (e : p.allocate n = some (p', q)) : Allocs 3 p p' := by
  rw [Pager.allocate] at e
  split at e
  · rename_i hf
    simp only at e
    split at e
    · cases e
    · rename_i hw
      cases e
      rw [writeNode_some hw]
      exact ⟨by simp [Within, Pager.writeHdr, Pager.setFileLen, Pager.put], .inr hf, fun _ => hf, noted_of_eq rfl⟩
  · rename_i f hf
    split at e
    · split at e
      · cases e
      · rename_i hw
        cases e
        rw [writeNode_some hw]
        refine ⟨by simp [Within, Pager.writeHdr, Pager.put], .inl rfl, fun h => ?_, noted_of_eq rfl⟩
        rw [h] at hf; cases hf
    · cases e

omit [LinearOrder K] in
theorem frees_deallocate {p p' : Pager K V} {i} (e : p.deallocate i = some p') : Frees 2 p p' := by
  rw [Pager.deallocate] at e
  split at e
  · cases e
  · rename_i hw
    cases e
    rw [writeNode_some hw]
    exact ⟨by simp [Within, Pager.writeHdr, Pager.put], rfl, noted_of_eq rfl⟩

theorem allocs_insertLeaf {p p' : Pager K V} {page : Nat} {n : LNode K V} {e : K × V} {s o}
    (h : insertLeaf p page n e = some (p', s, o)) : Allocs 4 p p' := by
  rw [insertLeaf] at h
  split at h
  · cases h
  · split at h
    · cases h
    · rename_i ha
      simp only [Option.map_eq_some_iff] at h
      obtain ⟨q, hw, e⟩ := h
      cases e
      exact (allocs_allocate ha).trans (allocs_writeNode hw)
  · simp only [Option.map_eq_some_iff] at h
    obtain ⟨q, hw, e⟩ := h
    cases e
    exact (allocs_writeNode hw).mono (by omega)
  · simp only [Option.map_eq_some_iff] at h
    obtain ⟨q, hw, e⟩ := h
    cases e
    exact (allocs_writeNode hw).mono (by omega)

omit [LinearOrder K] in
theorem Allocs.refl (p : Pager K V) (a : Nat) : Allocs a p p := ⟨by simp [Within], .inl rfl, fun h => h, noted_same rfl rfl⟩

theorem allocs_insertUp : ∀ (st : Stack K) {p p' : Pager K V} {page : Nat} {s : Option (K × Nat)},
    insertUp p page st s = some p' → Allocs (4 * (st.length + 1)) p p' := by
  intro st
  induction st with
  | nil =>
    intro p p' page s h
    cases s with
    | none => cases h; exact Allocs.refl _ _
    | some kq =>
      obtain ⟨k, q⟩ := kq
      simp only [insertUp] at h
      split at h
      · split at h
        · cases h
        · rename_i ha
          cases h
          exact (allocs_allocate ha).trans (allocs_setRoot _ _)
      · cases h
  | cons e st ih =>
    obtain ⟨pp, n, i⟩ := e
    intro p p' page s h
    cases s with
    | none => cases h; exact Allocs.refl _ _
    | some kq =>
      obtain ⟨k, q⟩ := kq
      simp only [insertUp] at h
      split at h
      · cases h
      · exact (allocs_writeNode h).mono (by omega)
      · split at h
        · cases h
        · rename_i ha
          split at h
          · cases h
          · rename_i hw
            refine (((allocs_allocate ha).trans (allocs_writeNode hw)).trans (ih h)).mono ?_
            simp only [List.length_cons]; omega

theorem allocs_insert {p p' : Pager K V} {k : K} {v : V} {o} (h : insert p k v = some (p', o)) :
    ∃ page n st, search p k = some (page, .leaf n, st) ∧ Allocs (4 * st.length + 9) p p' := by
  rw [insert] at h
  split at h
  · rename_i page n st hs
    refine ⟨page, n, st, hs, ?_⟩
    split at h
    · cases h
    · rename_i hl
      cases h
      exact (allocs_insertLeaf hl).mono (by omega)
    · rename_i hl
      split at h
      · cases h
      · rename_i hu
        cases h
        exact (((allocs_insertLeaf hl).trans (allocs_insertUp _ hu)).trans (allocs_setLen _ _)).mono (by omega)
  · cases h

theorem frees_removeUp : ∀ (st : Stack K) {p p' : Pager K V} {page : Nat} {n : INode K},
    removeUp p page n st = some p' → Frees (3 * (st.length + 1)) p p' := by
  intro st
  induction st with
  | nil =>
    intro p p' page n h
    simp only [removeUp] at h
    split at h
    · split at h
      · split at h
        · cases h
        · exact ((frees_setRoot _ _).trans (frees_deallocate h)).mono (by simp)
      · exact (frees_writeNode h).mono (by simp)
    · exact (frees_writeNode h).mono (by simp)
  | cons e st ih =>
    obtain ⟨pp, pn, i⟩ := e
    intro p p' page n h
    simp only [removeUp] at h
    split at h
    · split at h
      · cases h
      · split at h
        · split at h
          · split at h
            · split at h
              · split at h
                · rename_i hd
                  split at h
                  · rename_i hw _
                    refine (((frees_deallocate hd).trans (frees_writeNode hw)).trans (ih h)).mono ?_
                    simp only [List.length_cons]; omega
                  · cases h
                · cases h
              · cases h
            · split at h
              · split at h
                · rename_i hd
                  split at h
                  · rename_i hw _
                    refine (((frees_deallocate hd).trans (frees_writeNode hw)).trans (ih h)).mono ?_
                    simp only [List.length_cons]; omega
                  · cases h
                · cases h
              · cases h
          · split at h
            · split at h
              · split at h
                · cases h
                · split at h
                  · cases h
                  · rename_i h1
                    split at h
                    · cases h
                    · rename_i h2
                      refine (((frees_writeNode h1).trans (frees_writeNode h2)).trans (frees_writeNode h)).mono ?_
                      simp only [List.length_cons]; omega
              · cases h
            · split at h
              · split at h
                · cases h
                · split at h
                  · cases h
                  · rename_i h1
                    split at h
                    · cases h
                    · rename_i h2
                      refine (((frees_writeNode h1).trans (frees_writeNode h2)).trans (frees_writeNode h)).mono ?_
                      simp only [List.length_cons]; omega
              · cases h
        · cases h
    · exact (frees_writeNode h).mono (by simp only [List.length_cons]; omega)

theorem frees_removeLeaf {st : Stack K} {p p' : Pager K V} {page : Nat} {n : LNode K V} {b : Bool}
    (h : removeLeaf p page n b st = some p') : Frees (3 * st.length + 4) p p' := by
  have plain : (if b then (p.setLen (p.md.len - 1)).writeNode page (.leaf n) else some p) = some p' → Frees 2 p p' := by
    intro h
    split at h
    · exact (frees_setLen _ _).trans (frees_writeNode h)
    · cases h; exact ⟨by simp [Within], rfl, noted_same rfl rfl⟩
  cases st with
  | nil =>
    simp only [removeLeaf] at h
    exact (plain h).mono (by omega)
  | cons e st =>
    obtain ⟨pp, pn, i⟩ := e
    simp only [removeLeaf] at h
    split at h
    · split at h
      · cases h
      · split at h
        · split at h
          · split at h
            · split at h
              · rename_i hd
                split at h
                · rename_i hw _
                  refine ((((frees_deallocate hd).trans (frees_writeNode hw)).trans (frees_setLen _ _)).trans
                    (frees_removeUp _ h)).mono ?_
                  simp only [List.length_cons]; omega
                · cases h
              · cases h
            · split at h
              · rename_i hd
                split at h
                · rename_i hw _
                  refine ((((frees_deallocate hd).trans (frees_writeNode hw)).trans (frees_setLen _ _)).trans
                    (frees_removeUp _ h)).mono ?_
                  simp only [List.length_cons]; omega
                · cases h
              · cases h
          · split at h
            · split at h
              · cases h
              · split at h
                · split at h
                  · split at h
                    · cases h
                    · rename_i h1
                      split at h
                      · cases h
                      · rename_i h2
                        split at h
                        · cases h
                        · rename_i h3
                          cases h
                          refine ((((frees_writeNode h1).trans (frees_writeNode h2)).trans (frees_writeNode h3)).trans
                            (frees_setLen _ _)).mono ?_
                          omega
                  · cases h
                · cases h
            · split at h
              · cases h
              · split at h
                · split at h
                  · cases h
                  · rename_i h1
                    split at h
                    · cases h
                    · rename_i h2
                      split at h
                      · cases h
                      · rename_i h3
                        cases h
                        refine ((((frees_writeNode h1).trans (frees_writeNode h2)).trans (frees_writeNode h3)).trans
                          (frees_setLen _ _)).mono ?_
                        omega
                · cases h
        · cases h
    · exact (plain h).mono (by omega)

theorem frees_remove {p p' : Pager K V} {k : K} {o} (h : remove p k = some (p', o)) :
    ∃ page n st, search p k = some (page, .leaf n, st) ∧ Frees (3 * st.length + 4) p p' := by
  rw [remove] at h
  split at h
  · rename_i page n st hs
    refine ⟨page, n, st, hs, ?_⟩
    split at h
    · cases h
    · simp only [Option.map_eq_some_iff] at h
      obtain ⟨q, hl, e⟩ := h
      cases e
      exact frees_removeLeaf hl
  · cases h

/-! ### C68 -/

/-- **C68, pages in use (partial).**  After every covered history (see C28) the tree of a map with `len` entries has at
most `2 ⌊len / ⌈ld / 2⌉⌋ - 1` pages, or one. -/
theorem C68_in_use_partial (hld : 1 ≤ ld) (hid : 3 ≤ id) {p : Pager K V} (hp : Reached ld id p) :
    ∃ l : List Nat, l.Nodup ∧ (∀ i, i ∈ l ↔ InUse p.disk p.md.root i) ∧ l.length ≤ mostPages ld p.md.len := by
  obtain ⟨l, n, t, h, rfl⟩ := reached_rel hld hid hp
  refine ⟨t.pages, h.wf.nodup, fun i => ⟨fun hi => ?_, fun hu => ?_⟩, tree_pages hld hid h⟩
  · refine inUse_of_mem h.rep h.ok ?_ i hi
    rw [h.root]; exact .root
  · induction hu with
    | root => rw [h.root]; exact t.pg_mem
    | child _ h1 h2 h3 ih => exact inUse_child h.rep h.ok ih h1 h2 h3

omit [LinearOrder K] in
theorem mostPages_mono {a b : Nat} (h : a ≤ b) : mostPages ld a ≤ mostPages ld b := by
  unfold mostPages
  have := Nat.div_le_div_right (c := (ld + 1) / 2) h
  omega

theorem admissible_prefix {pre ops : List (MapOp K V × Bool)} (h : pre <+: ops) (ha : Admissible ld id ops) :
    Admissible ld id pre :=
  ⟨fun op hop => ha.1 op ((h.map _).subset hop), fun pre' k v b hp => ha.2 pre' k v b (hp.trans h)⟩

/-- **C68, the file (partial).**  If a map never had more than `N` entries during a covered history, its file has at most
`2 ⌊N / ⌈ld / 2⌉⌋ - 1` pages, or one, however many entries were inserted and removed. -/
theorem C68_file_partial (hld : 1 ≤ ld) (hid : 3 ≤ id) (ops : List (MapOp K V × Bool)) (ha : Admissible ld id ops) (N : Nat)
    (hN : ∀ pre p h, pre <+: ops → (bp K V ld id).run (new ld id) pre = some (p, h) → p.md.len ≤ N)
    {p : Pager K V} {h} (hr : (bp K V ld id).run (new ld id) ops = some (p, h)) :
    p.disk.pages.length ≤ mostPages ld N := by
  induction ops using List.reverseRecOn generalizing p h with
  | nil =>
    cases hr
    exact Nat.le_max_left _ _
  | append_singleton ops o ih =>
    have hpre : ops <+: ops ++ [o] := List.prefix_append _ _
    have hlen := hN _ _ _ List.prefix_rfl hr
    have hreach : Reached ld id p := ⟨_, _, ha, hr⟩
    rw [run_append] at hr
    cases h1 : (bp K V ld id).run (new ld id) ops with
    | none => rw [h1] at hr; cases hr
    | some q =>
      obtain ⟨p1, hist⟩ := q
      have hk := ih (admissible_prefix hpre ha) (fun pre p h hp => hN pre p h (hp.trans hpre)) h1
      have hreach1 : Reached ld id p1 := ⟨_, _, admissible_prefix hpre ha, h1⟩
      rw [h1] at hr
      obtain ⟨op, b⟩ := o
      simp only [Option.bind_some, Option.map_eq_some_iff] at hr
      obtain ⟨⟨p2, hist2⟩, hr, e⟩ := hr
      obtain ⟨rfl, -⟩ := Prod.mk.inj e
      obtain ⟨l1, n1, t1, g1, -⟩ := reached_rel hld hid hreach1
      obtain ⟨l2, n2, t2, g2, -⟩ := reached_rel hld hid hreach
      rw [g2.wf.pages]
      rw [g1.wf.pages] at hk
      simp only [MapImpl.run, Option.bind_eq_bind, Option.bind_eq_some_iff] at hr
      obtain ⟨⟨p3, r⟩, hs, ⟨p4, hist4⟩, h4, h5⟩ := hr
      cases h4
      cases h5
      have hmd : (if b then Pager.openFile p1.disk else p1).md = p1.md := by
        cases b
        · rfl
        · exact g1.wf.hdr
      generalize (if b then Pager.openFile p1.disk else p1) = q at hs hmd
      have same : ∀ {x : Option (MapRes K V)}, x.map (fun r => (q, r)) = some (p3, r) → p3.md.pages ≤ mostPages ld N := by
        intro x hx
        simp only [Option.map_eq_some_iff, Prod.mk.injEq] at hx
        obtain ⟨_, -, rfl, -⟩ := hx
        rw [hmd]; exact hk
      cases op with
      | insert k v =>
        simp only [step, Option.map_eq_some_iff, Prod.mk.injEq] at hs
        obtain ⟨⟨p5, o⟩, h6, rfl, -⟩ := hs
        obtain ⟨_, _, _, -, ha⟩ := allocs_insert h6
        rcases ha.grown with e | e
        · rw [e, hmd]; exact hk
        · obtain ⟨fl, f1, f2⟩ := g2.wf.free
          rw [e] at f1
          have : fl = [] := by
            cases fl with
            | nil => rfl
            | cons f fl => exact absurd f1.1 (by simp)
          subst this
          have := f2.length_eq
          rw [List.append_nil, List.length_range] at this
          rw [← this]
          exact (tree_pages hld hid g2).trans (mostPages_mono hlen)
      | remove k =>
        simp only [step, Option.map_eq_some_iff, Prod.mk.injEq] at hs
        obtain ⟨⟨p5, o⟩, h6, rfl, -⟩ := hs
        obtain ⟨_, _, _, -, ha⟩ := frees_remove h6
        rw [ha.pages, hmd]; exact hk
      | clear =>
        simp only [step, Option.map_eq_some_iff, Prod.mk.injEq] at hs
        obtain ⟨p5, h6, rfl, -⟩ := hs
        rw [Pager.clear] at h6
        have := writeNode_some h6
        rw [this]
        exact Nat.le_max_left _ _
      | get k => exact same (x := (get q k).map _) (by rw [Option.map_map]; exact hs)
      | containsKey k => exact same (x := (get q k).map _) (by rw [Option.map_map]; exact hs)
      | min => exact same (x := (min q).map _) (by rw [Option.map_map]; exact hs)
      | max => exact same (x := (max q).map _) (by rw [Option.map_map]; exact hs)
      | len => exact same (x := some _) hs
      | isEmpty => exact same (x := some _) hs
      | iter => exact same (x := (toList q).map _) (by rw [Option.map_map]; exact hs)
      | getMut k v => cases hs
      | floor k => cases hs
      | ceil k => cases hs

/-- **C68, writes (partial).**  After every covered history a call of `insert` writes to the file at most `4 h + 9` times
and a call of `remove` at most `3 h + 4` times, where `h` is the height of the tree, which is logarithmic: a tree
of height `h` has at least `2 ⌈(id + 1) / 2⌉ ^ (h - 1) ⌈ld / 2⌉` entries. -/
theorem C68_writes_partial (hld : 1 ≤ ld) (hid : 3 ≤ id) {p : Pager K V} (hp : Reached ld id p) :
    ∃ h, (1 ≤ h → 2 * ((id + 1) / 2) ^ (h - 1) * ((ld + 1) / 2) ≤ p.md.len) ∧
      (∀ k v p' o, insert p k v = some (p', o) → (writes p p').length ≤ 4 * h + 9) ∧
      ∀ k p' o, remove p k = some (p', o) → (writes p p').length ≤ 3 * h + 4 := by
  obtain ⟨h, -, h1, h2, -⟩ := C29_balanced_partial hld hid hp
  refine ⟨h, h2, fun k v p' o e => ?_, fun k p' o e => ?_⟩
  · obtain ⟨page, n, st, hs, ha⟩ := allocs_insert e
    obtain ⟨page', n', st', hs', rfl⟩ := h1 k
    rw [hs] at hs'
    cases hs'
    have := ha.writes
    unfold Within at this
    simp only [writes, List.length_drop]
    omega
  · obtain ⟨page, n, st, hs, ha⟩ := frees_remove e
    obtain ⟨page', n', st', hs', rfl⟩ := h1 k
    rw [hs] at hs'
    cases hs'
    have := ha.writes
    unfold Within at this
    simp only [writes, List.length_drop]
    omega

/-! ### Cases -/

/-- The map with the keys below `n`, inserted in ascending order. -/
def ascending (n : Nat) : Pager Nat Nat := stateAfter 2 3 ((List.range n).map fun i => .insert i i)

/-- The bound on the writes of `insert` is reached: height 2, 17 writes. -/
example : (search (ascending 26) 26).map (fun x => x.2.2.length) = some 2 ∧
    (writes (ascending 26) (insertFrom (ascending 26) 26 26)).length = 17 := by decide +kernel

/-- The bound on the writes of `remove` is reached: height 2, 10 writes. -/
example : let p := (List.range 4).foldl removeFromState (ascending 9)
    (search p 4).map (fun x => x.2.2.length) = some 2 ∧ (writes p (removeFromState p 4)).length = 10 := by decide +kernel

/-- The bound on the pages in use is reached: two entries, three pages. -/
example : let p := removeFromState (ascending 3) 2
    p.md.len = 2 ∧ leafPages p.disk 9 p.md.root = some [0, 1] ∧ mostPages 2 p.md.len = 3 ∧ p.md.pages = 3 := by
  decide +kernel

/-- The history of `sampleState` is covered, and its bound on the pages is not trivial. -/
example : Admissible 2 3 sample ∧ sampleState.disk.pages.length = 11 ∧ mostPages 2 10 = 19 :=
  ⟨sample_admissible, by decide +kernel, by decide⟩

end Verif.Bp
