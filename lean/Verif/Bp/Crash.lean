/- Property C34: BpMap and crashes between two file writes. -/
import Verif.Bp.Reopen

namespace Verif.Bp

open Verif.Spec

/-! ### Specification -/

/-- The states that the file goes through during an operation that leads from `p` to `p'`: after each write to the
file (and each change of its length), in this order. -/
def writes {K V : Type} (p p' : Pager K V) : List (Disk K V) := p'.trace.drop p.trace.length

/-- What a user can look up and iterate over after opening a file. -/
structure SameContents {K V : Type} [LinearOrder K] (d : Disk K V) (p : Pager K V) : Prop where
  get : ∀ k, Bp.get (Pager.openFile d) k = Bp.get p k
  iter : toList (Pager.openFile d) = toList p
  min : Bp.min (Pager.openFile d) = Bp.min p
  max : Bp.max (Pager.openFile d) = Bp.max p

/-! ### Proofs -/

section
variable {K V : Type} [LinearOrder K]

theorem searchNode_congr {p q : Pager K V} (h : p.disk.pages = q.disk.pages) (k : K) (f page st) :
    searchNode p k f page st = searchNode q k f page st := by
  induction f generalizing page st with
  | zero => rfl
  | succ f ih => simp only [searchNode, Pager.getPage, h, ih]

omit [LinearOrder K] in
theorem leftmost_congr {p q : Pager K V} (h : p.disk.pages = q.disk.pages) (f page) :
    leftmost p f page = leftmost q f page := by
  induction f generalizing page with
  | zero => rfl
  | succ f ih => simp only [leftmost, Pager.getPage, h, ih]

omit [LinearOrder K] in
theorem rightmost_congr {p q : Pager K V} (h : p.disk.pages = q.disk.pages) (f page) :
    rightmost p f page = rightmost q f page := by
  induction f generalizing page with
  | zero => rfl
  | succ f ih => simp only [rightmost, Pager.getPage, h, ih]

omit [LinearOrder K] in
theorem drain_congr {p q : Pager K V} (h : p.disk.pages = q.disk.pages) (f it) :
    Iter.drain p f it = Iter.drain q f it := by
  induction f generalizing it with
  | zero => rfl
  | succ f ih => simp only [Iter.drain, Iter.next, Pager.getPage, h, ih]

/-- Contents depend on the pages and the root only. -/
theorem sameContents_of {d : Disk K V} {p : Pager K V} (h1 : d.pages = p.disk.pages) (h2 : d.hdr.root = p.md.root)
    (h3 : d.hdr.leafDeg = p.md.leafDeg) : SameContents d p where
  get k := by
    have h1' : (Pager.openFile d).disk.pages = p.disk.pages := h1
    rw [Bp.get, Bp.get, search, search, searchNode_congr h1', h1']
    simp only [Pager.openFile, h2]
  iter := by
    have h1' : (Pager.openFile d).disk.pages = p.disk.pages := h1
    simp only [toList, iterNew, leftmost_congr h1', drain_congr h1', h1']
    simp only [Pager.openFile, h2, h3]
  min := by
    have h1' : (Pager.openFile d).disk.pages = p.disk.pages := h1
    simp only [Bp.min, leftmost_congr h1', h1']
    simp only [Pager.openFile, h2]
  max := by
    have h1' : (Pager.openFile d).disk.pages = p.disk.pages := h1
    simp only [Bp.max, rightmost_congr h1', h1']
    simp only [Pager.openFile, h2]

omit [LinearOrder K] in
theorem writeNode_some {p p' : Pager K V} {i n} (h : p.writeNode i n = some p') : p' = p.put { p.disk with pages := p.disk.pages.set i (some n) } := by
  rw [Pager.writeNode] at h
  split at h
  · cases h; rfl
  · cases h

variable {ld id : Nat}

/-- **C34 (partial), insertion.**  An `insert` that does not split: the leaf responsible for the key has a free slot.
At every crash point the file has the contents before or after the operation.  Missing: insertions that split
(`C34_violated_insert`), and the length, which is stored separately (`C34_violated_len`). -/
theorem C34_insert_partial {p p' : Pager K V} {ops h} (hr : (bp K V ld id).run (new ld id) ops = some (p, h))
    {k : K} {v : V} {o page n stack} (hs : search p k = some (page, .leaf n, stack)) (hn : n.len < n.entries.length)
    (e : insert p k v = some (p', o)) : ∀ d ∈ writes p p', SameContents d p ∨ SameContents d p' := by
  have hsync : Synced p := synced_run synced_new hr
  rw [insert, hs] at e
  simp only at e
  cases hi : n.insert (k, v) with
  | none => simp only [insertLeaf, hi] at e; cases e
  | some x =>
    obtain ⟨n', c⟩ := x
    cases c with
    | split k s =>
      rw [LNode.insert] at hi
      simp only at hi
      rw [if_pos hn] at hi
      split at hi <;> cases hi
    | entry o' =>
      simp only [insertLeaf, hi] at e
      cases hw : p.writeNode page (.leaf n') with
      | none => rw [hw] at e; cases e
      | some q =>
        rw [hw] at e
        cases e
        have hq := writeNode_some hw
        intro d hd
        simp only [writes, hq, Pager.put, List.drop_left, List.mem_singleton] at hd
        subst hd
        right
        refine sameContents_of (by rw [hq]; rfl) ?_ ?_
        · rw [hq]; exact congrArg Meta.root hsync
        · rw [hq]; exact congrArg Meta.leafDeg hsync
    | done =>
      simp only [insertLeaf, hi] at e
      cases hw : p.writeNode page (.leaf n') with
      | none => rw [hw] at e; cases e
      | some q =>
        rw [hw] at e
        have hq := writeNode_some hw
        have e : some (q.setLen (q.md.len + 1), none) = some (p', o) := by
          simpa [insertUp_none] using e
        cases e
        intro d hd
        simp only [writes, Pager.setLen, Pager.writeHdr, hq, Pager.put, List.append_assoc, List.drop_left] at hd
        right
        simp only [List.cons_append, List.nil_append, List.mem_cons, List.not_mem_nil, or_false] at hd
        rcases hd with rfl | rfl
        · refine sameContents_of (by rw [hq]; rfl) ?_ ?_
          · rw [hq]; exact (congrArg Meta.root hsync : p.disk.hdr.root = p.md.root)
          · rw [hq]; exact (congrArg Meta.leafDeg hsync : p.disk.hdr.leafDeg = p.md.leafDeg)
        · refine sameContents_of (by rw [hq]; rfl) ?_ ?_ <;> rw [hq] <;> rfl

/-- **C34 (partial), removal.**  A `remove` for which the leaf responsible for the key is the root or has more entries
than half.  At every crash point the file has the contents before or after the operation.  Missing: removals that
borrow or merge (`C34_violated_remove`), and the length. -/
theorem C34_remove_partial {p p' : Pager K V} {ops h} (hr : (bp K V ld id).run (new ld id) ops = some (p, h))
    {k : K} {o page n stack} (hs : search p k = some (page, .leaf n, stack))
    (hn : stack = [] ∨ (p.md.leafDeg + 1) / 2 < n.len)
    (e : remove p k = some (p', o)) : ∀ d ∈ writes p p', SameContents d p ∨ SameContents d p' := by
  have hsync : Synced p := synced_run synced_new hr
  rw [remove, hs] at e
  simp only at e
  cases hi : n.remove k with
  | none => rw [hi] at e; cases e
  | some x =>
    obtain ⟨n', r⟩ := x
    rw [hi] at e
    simp only [Option.map_eq_some_iff] at e
    obtain ⟨q, e, e2⟩ := e
    cases e2
    have hlen : n.len ≤ n'.len + 1 := by
      rw [LNode.remove] at hi
      simp only at hi
      split at hi
      · split at hi
        · cases hi
        · cases hi; simp only; omega
      · cases hi; simp only; omega
    have key : (if o.isSome then (p.setLen (p.md.len - 1)).writeNode page (.leaf n') else some p) = some p' := by
      cases stack with
      | nil => simpa [removeLeaf] using e
      | cons s st =>
        obtain ⟨pp, pn, i⟩ := s
        rcases hn with hn | hn
        · cases hn
        · simp only [removeLeaf] at e
          rw [if_neg (by omega)] at e
          exact e
    split at key
    · have hq := writeNode_some key
      intro d hd
      simp only [writes, hq, Pager.put, Pager.setLen, Pager.writeHdr, List.append_assoc, List.drop_left] at hd
      simp only [List.cons_append, List.nil_append, List.mem_cons, List.not_mem_nil, or_false] at hd
      rcases hd with rfl | rfl
      · left
        exact sameContents_of rfl rfl rfl
      · right
        refine sameContents_of ?_ ?_ ?_ <;> rw [hq] <;> rfl
    · cases key
      intro d hd
      simp [writes] at hd

end

/-! ### Non-vacuity and violations -/

/-- The state after a list of calls. -/
def stateAfter (ld id : Nat) (ops : List (MapOp Nat Nat)) : Pager Nat Nat :=
  (((bp Nat Nat ld id).run (new ld id) (plain ops)).getD (new ld id, [])).1

/-- The file states during one `insert`, and the state after it. -/
def insertFrom (p : Pager Nat Nat) (k v : Nat) : Pager Nat Nat := ((insert p k v).getD (p, none)).1

/-- The state after one `remove`. -/
def removeFromState (p : Pager Nat Nat) (k : Nat) : Pager Nat Nat := ((remove p k).getD (p, none)).1

/-- The crash property in full: at every point between two writes of an insertion or a removal, the file answers as
before or as after the operation. -/
def CrashAtomic (ld id : Nat) : Prop :=
  ∀ (ops : List (MapOp Nat Nat × Bool)) (p p' : Pager Nat Nat) (h : List (MapOp Nat Nat × MapRes Nat Nat)) (k v : Nat),
    (bp Nat Nat ld id).run (new ld id) ops = some (p, h) →
    ((∃ o, insert p k v = some (p', o)) ∨ (∃ o, remove p k = some (p', o))) →
    ∀ d ∈ writes p p', SameContents d p ∨ SameContents d p'

/-- Witness for insertions that split: with leaf degree 2 and the entries 1 and 3, `insert(2, 2)` first writes the
truncated leaf; if the process stops before the next write, `get(3)` finds nothing, although 3 is a key both before and
after the insertion. -/
theorem crash_insert_witness :
    ∃ d ∈ writes (stateAfter 2 3 [.insert 1 1, .insert 3 3]) (insertFrom (stateAfter 2 3 [.insert 1 1, .insert 3 3]) 2 2),
      get (stateAfter 2 3 [.insert 1 1, .insert 3 3]) 3 = some (some 3) ∧
      get (insertFrom (stateAfter 2 3 [.insert 1 1, .insert 3 3]) 2 2) 3 = some (some 3) ∧
      get (Pager.openFile d) 3 = some none := by
  decide +kernel

/-- **C34 is violated by insertions that split.** -/
theorem C34_violated_insert : ¬ CrashAtomic 2 3 := by
  intro H
  obtain ⟨d, hd, h1, h2, h3⟩ := crash_insert_witness
  have hrun : ∃ (p : Pager Nat Nat) (h : _), (bp Nat Nat 2 3).run (new 2 3) (plain [.insert 1 1, .insert 3 3]) = some (p, h) := by
    have : ((bp Nat Nat 2 3).run (new 2 3) (plain [.insert 1 1, .insert 3 3])).isSome = true := by decide +kernel
    obtain ⟨⟨p, h⟩, e⟩ := Option.isSome_iff_exists.1 this
    exact ⟨p, h, e⟩
  obtain ⟨p, h, e⟩ := hrun
  have ep : stateAfter 2 3 [.insert 1 1, .insert 3 3] = p := by rw [stateAfter, e]; rfl
  have hi : (insert (stateAfter 2 3 [.insert 1 1, .insert 3 3]) 2 2).isSome = true := by decide +kernel
  obtain ⟨⟨p', o⟩, e'⟩ := Option.isSome_iff_exists.1 hi
  have ep' : insertFrom (stateAfter 2 3 [.insert 1 1, .insert 3 3]) 2 2 = p' := by rw [insertFrom, e']; rfl
  rw [ep'] at h2 hd
  rw [ep] at e' h1 hd
  rcases H _ p p' h 2 2 e (.inl ⟨o, e'⟩) d hd with hc | hc
  · rw [hc.get, h1] at h3; cases h3
  · rw [hc.get, h2] at h3; cases h3

/-- Witness for removals that borrow: with leaf degree 2 and the leaves `[1, 2]` and `[3]`, `remove(3)` moves 2 into
the right leaf before the separator is updated; `get(2)` finds nothing in between. -/
theorem crash_remove_witness :
    ∃ d ∈ writes (stateAfter 2 3 [.insert 1 1, .insert 2 2, .insert 3 3])
        (removeFromState (stateAfter 2 3 [.insert 1 1, .insert 2 2, .insert 3 3]) 3),
      get (stateAfter 2 3 [.insert 1 1, .insert 2 2, .insert 3 3]) 2 = some (some 2) ∧
      get (removeFromState (stateAfter 2 3 [.insert 1 1, .insert 2 2, .insert 3 3]) 3) 2 = some (some 2) ∧
      get (Pager.openFile d) 2 = some none := by
  decide +kernel

/-- **C34 is violated by removals that borrow or merge**: the same conclusion, with the removal as the only kind of
operation considered. -/
theorem C34_violated_remove :
    ¬ ∀ (ops : List (MapOp Nat Nat × Bool)) (p p' : Pager Nat Nat) (h : List (MapOp Nat Nat × MapRes Nat Nat)) (k : Nat) (o : Option (Nat × Nat)),
      (bp Nat Nat 2 3).run (new 2 3) ops = some (p, h) → remove p k = some (p', o) →
      ∀ d ∈ writes p p', SameContents d p ∨ SameContents d p' := by
  intro H
  obtain ⟨d, hd, h1, h2, h3⟩ := crash_remove_witness
  have hrun : ∃ (p : Pager Nat Nat) (h : _),
      (bp Nat Nat 2 3).run (new 2 3) (plain [.insert 1 1, .insert 2 2, .insert 3 3]) = some (p, h) := by
    have : ((bp Nat Nat 2 3).run (new 2 3) (plain [.insert 1 1, .insert 2 2, .insert 3 3])).isSome = true := by decide +kernel
    obtain ⟨⟨p, h⟩, e⟩ := Option.isSome_iff_exists.1 this
    exact ⟨p, h, e⟩
  obtain ⟨p, h, e⟩ := hrun
  have ep : stateAfter 2 3 [.insert 1 1, .insert 2 2, .insert 3 3] = p := by rw [stateAfter, e]; rfl
  have hi : (remove (stateAfter 2 3 [.insert 1 1, .insert 2 2, .insert 3 3]) 3).isSome = true := by decide +kernel
  obtain ⟨⟨p', o⟩, e'⟩ := Option.isSome_iff_exists.1 hi
  have ep' : removeFromState (stateAfter 2 3 [.insert 1 1, .insert 2 2, .insert 3 3]) 3 = p' := by
    rw [removeFromState, e']; rfl
  rw [ep'] at h2 hd
  rw [ep] at e' h1 hd
  rcases H _ p p' h 3 o e e' d hd with hc | hc
  · rw [hc.get, h1] at h3; cases h3
  · rw [hc.get, h2] at h3; cases h3

/-- **The stored length is not crash-safe even without a split**: inserting a second entry writes the leaf first and
the length after it; a file left in between lists two entries and says that its length is 1. -/
theorem C34_violated_len :
    ∃ d ∈ writes (stateAfter 2 3 [.insert 1 1]) (insertFrom (stateAfter 2 3 [.insert 1 1]) 2 2),
      toList (Pager.openFile d) = some [(1, 1), (2, 2)] ∧ (Pager.openFile d).md.len = 1 := by
  decide +kernel

/-- The hypotheses of `C34_insert_partial` are met below an internal root: the leaf of key 4 has one of two slots
taken, and the insertion writes twice. -/
example : (search (stateAfter 2 3 [.insert 1 1, .insert 2 2, .insert 3 3]) 4).map
      (fun r => match r with | (_, .leaf n, st) => (n.len, n.entries.length, st.length) | _ => (0, 0, 0)) = some (1, 2, 1) ∧
    (writes (stateAfter 2 3 [.insert 1 1, .insert 2 2, .insert 3 3])
      (insertFrom (stateAfter 2 3 [.insert 1 1, .insert 2 2, .insert 3 3]) 4 4)).length = 2 := by
  decide +kernel

/-- The hypotheses of `C34_remove_partial` are met below an internal root: the leaf of key 1 holds two entries. -/
example : (search (stateAfter 2 3 [.insert 1 1, .insert 2 2, .insert 3 3]) 1).map
      (fun r => match r with | (_, .leaf n, st) => (n.len, st.length) | _ => (0, 0)) = some (2, 1) ∧
    (stateAfter 2 3 [.insert 1 1, .insert 2 2, .insert 3 3]).md.leafDeg = 2 := by
  decide +kernel

end Verif.Bp
