/- Property C32: BpMap survives reopening. -/
import Verif.Bp.Violations

namespace Verif.Bp

open Verif.Spec

variable {K V : Type}

/-! ### The trace of file states is not read by any operation -/

/-- The same map with a longer past. -/
@[reducible] def addT (t : List (Disk K V)) (p : Pager K V) : Pager K V := { p with trace := t ++ p.trace }

section addT
variable (t : List (Disk K V)) (p : Pager K V)

@[simp] theorem addT_md : (addT t p).md = p.md := rfl
@[simp] theorem addT_disk : (addT t p).disk = p.disk := rfl

theorem put_addT (d) : (addT t p).put d = addT t (p.put d) := by simp [Pager.put, addT]
theorem setLen_addT (n) : (addT t p).setLen n = addT t (p.setLen n) := by
  simp [Pager.setLen, Pager.writeHdr, Pager.put, addT]
theorem setRoot_addT (n) : (addT t p).setRoot n = addT t (p.setRoot n) := by
  simp [Pager.setRoot, Pager.writeHdr, Pager.put, addT]
theorem getPage_addT (i) : (addT t p).getPage i = p.getPage i := rfl

theorem writeNode_addT (i n) : (addT t p).writeNode i n = (p.writeNode i n).map (addT t) := by
  rw [Pager.writeNode, Pager.writeNode, addT_disk, put_addT]
  split <;> rfl

theorem setFileLen_addT (m n) : Pager.setFileLen ⟨m, (addT t p).disk, (addT t p).trace⟩ n =
    addT t (Pager.setFileLen ⟨m, p.disk, p.trace⟩ n) := by
  simp [Pager.setFileLen, Pager.put, addT]

theorem allocate_addT (n) : (addT t p).allocate n = (p.allocate n).map fun x => (addT t x.1, x.2) := by
  rw [Pager.allocate, Pager.allocate]
  simp only [addT_md, getPage_addT]
  split
  · rw [setFileLen_addT t p, writeNode_addT t, addT_md t]
    generalize Pager.setFileLen _ _ = q0
    rcases q0.writeNode _ n with _ | q
    · rfl
    · simp [Pager.writeHdr, Pager.put, addT]
  · split
    · rw [writeNode_addT]
      cases p.writeNode _ n with
      | none => rfl
      | some q => simp [Pager.writeHdr, Pager.put, addT]
    · rfl

theorem deallocate_addT (i) : (addT t p).deallocate i = (p.deallocate i).map (addT t) := by
  rw [Pager.deallocate, Pager.deallocate, writeNode_addT, addT_md]
  cases p.writeNode i _ with
  | none => rfl
  | some q => simp [Pager.writeHdr, Pager.put, addT]

theorem clear_addT : (addT t p).clear = p.clear.map (addT t) := by
  rw [Pager.clear, Pager.clear, ← writeNode_addT]
  simp [Pager.writeHdr, Pager.put, Pager.setFileLen, addT]

end addT

section
variable [LinearOrder K] (t : List (Disk K V))

theorem searchNode_addT (p : Pager K V) (k : K) (f page st) : searchNode (addT t p) k f page st = searchNode p k f page st := by
  induction f generalizing page st with
  | zero => rfl
  | succ f ih => simp only [searchNode, getPage_addT, ih]

theorem search_addT (p : Pager K V) (k : K) : search (addT t p) k = search p k := searchNode_addT t p k _ _ _

theorem insertLeaf_addT (p : Pager K V) (page n) (e : K × V) :
    insertLeaf (addT t p) page n e = (insertLeaf p page n e).map fun x => (addT t x.1, x.2) := by
  rw [insertLeaf, insertLeaf]
  split
  · rfl
  · rw [allocate_addT]
    cases p.allocate _ with
    | none => rfl
    | some x =>
      simp only [Option.map_some, writeNode_addT, Option.map_map]
      rfl
  · simp only [writeNode_addT, Option.map_map]; rfl
  · simp only [writeNode_addT, Option.map_map]; rfl

theorem insertUp_addT (p : Pager K V) (page) (st : Stack K) (o) : insertUp (addT t p) page st o = (insertUp p page st o).map (addT t) := by
  induction st generalizing p page o with
  | nil =>
    cases o with
    | none => rfl
    | some kq =>
      obtain ⟨k, q⟩ := kq
      simp only [insertUp, addT_md]
      split
      · rw [allocate_addT]
        cases p.allocate _ with
        | none => rfl
        | some x => simp [setRoot_addT]
      · rfl
  | cons s st ih =>
    obtain ⟨pp, n, i⟩ := s
    cases o with
    | none => rfl
    | some kq =>
      obtain ⟨k, q⟩ := kq
      simp only [insertUp]
      split
      · rfl
      · rw [writeNode_addT]
      · rw [allocate_addT]
        cases p.allocate _ with
        | none => rfl
        | some x =>
          simp only [Option.map_some, writeNode_addT]
          cases Pager.writeNode x.1 _ _ with
          | none => rfl
          | some y => simp only [Option.map_some, ih]

theorem insert_addT (p : Pager K V) (k : K) (v : V) : insert (addT t p) k v = (insert p k v).map fun x => (addT t x.1, x.2) := by
  rw [insert, insert, search_addT]
  split
  · rw [insertLeaf_addT]
    rcases insertLeaf p _ _ _ with _ | ⟨p1, s, _ | o⟩
    · rfl
    · simp only [Option.map_some, insertUp_addT]
      rcases insertUp p1 _ _ _ with _ | p2
      · rfl
      · simp [setLen_addT]
    · rfl
  · rfl

theorem removeUp_addT (p : Pager K V) (page) (n : INode K) (st : Stack K) : removeUp (addT t p) page n st = (removeUp p page n st).map (addT t) := by
  induction st generalizing p page n with
  | nil =>
    simp only [removeUp, addT_md, setRoot_addT, writeNode_addT, deallocate_addT]
    by_cases hu : n.len + 1 < (p.md.intDeg + 1) / 2
    · simp only [if_pos hu]
      split
      · split <;> rfl
      · rfl
    · simp only [if_neg hu]
  | cons s st ih =>
    obtain ⟨pp, pn, i⟩ := s
    simp only [removeUp, addT_md, getPage_addT]
    by_cases hu : n.len + 1 < (p.md.intDeg + 1) / 2
    · simp only [if_pos hu]
      rcases pn.ptrs[siblingIndex i]? with _ | sp
      · rfl
      · simp only
        rcases p.getPage sp with _ | (sn | sn | sn)
        · rfl
        · simp only
          by_cases hm : sn.len + 1 = (p.md.intDeg + 1) / 2
          · simp only [if_pos hm]
            split
            · split
              · simp only [deallocate_addT]
                rcases n.merge _ sn with _ | n'
                · rfl
                · rcases p.deallocate sp with _ | p'
                  · rfl
                  · simp only [Option.map_some, writeNode_addT]
                    rcases p'.writeNode _ _ with _ | p''
                    · rfl
                    · rcases pn.removeAt i true with _ | ⟨a, b, c⟩
                      · rfl
                      · simp only [Option.map_some, ih]
              · rfl
            · split
              · simp only [deallocate_addT]
                rcases sn.merge _ n with _ | n'
                · rfl
                · rcases p.deallocate page with _ | p'
                  · rfl
                  · simp only [Option.map_some, writeNode_addT]
                    rcases p'.writeNode _ _ with _ | p''
                    · rfl
                    · rcases pn.removeAt _ true with _ | ⟨a, b, c⟩
                      · rfl
                      · simp only [Option.map_some, ih]
              · rfl
          · simp only [if_neg hm]
            split
            · split
              · split
                · rfl
                · simp only [writeNode_addT]
                  rcases p.writeNode _ _ with _ | p1
                  · rfl
                  · simp only [Option.map_some, writeNode_addT]
                    rcases p1.writeNode _ _ with _ | p2
                    · rfl
                    · simp only [Option.map_some, writeNode_addT]
              · rfl
            · split
              · split
                · rfl
                · simp only [writeNode_addT]
                  rcases p.writeNode _ _ with _ | p1
                  · rfl
                  · simp only [Option.map_some, writeNode_addT]
                    rcases p1.writeNode _ _ with _ | p2
                    · rfl
                    · simp only [Option.map_some, writeNode_addT]
              · rfl
        · rfl
        · rfl
    · simp only [if_neg hu]
      exact writeNode_addT t p _ _

theorem removeLeaf_addT (p : Pager K V) (page) (n : LNode K V) (b : Bool) (st : Stack K) :
    removeLeaf (addT t p) page n b st = (removeLeaf p page n b st).map (addT t) := by
  cases st with
  | nil =>
    simp only [removeLeaf, addT_md, setLen_addT, writeNode_addT]
    split <;> rfl
  | cons s st =>
    obtain ⟨pp, pn, i⟩ := s
    simp only [removeLeaf, addT_md, getPage_addT]
    by_cases hu : n.len < (p.md.leafDeg + 1) / 2
    · simp only [if_pos hu]
      rcases pn.ptrs[siblingIndex i]? with _ | sp
      · rfl
      · simp only
        rcases p.getPage sp with _ | (sn | sn | sn)
        · rfl
        · rfl
        · simp only
          by_cases hm : sn.len = (p.md.leafDeg + 1) / 2
          · simp only [if_pos hm]
            split
            · simp only [deallocate_addT]
              rcases n.merge sn with _ | n'
              · rfl
              · rcases p.deallocate sp with _ | p'
                · rfl
                · simp only [Option.map_some, writeNode_addT]
                  rcases p'.writeNode _ _ with _ | p''
                  · rfl
                  · rcases pn.removeAt i true with _ | ⟨a, b, c⟩
                    · rfl
                    · simp only [Option.map_some, setLen_addT, addT_md, removeUp_addT]
            · simp only [deallocate_addT]
              rcases sn.merge n with _ | n'
              · rfl
              · rcases p.deallocate page with _ | p'
                · rfl
                · simp only [Option.map_some, writeNode_addT]
                  rcases p'.writeNode _ _ with _ | p''
                  · rfl
                  · rcases pn.removeAt _ true with _ | ⟨a, b, c⟩
                    · rfl
                    · simp only [Option.map_some, setLen_addT, addT_md, removeUp_addT]
          · simp only [if_neg hm]
            split
            · split
              · rfl
              · split
                · split
                  · simp only [writeNode_addT]
                    rcases p.writeNode _ _ with _ | p1
                    · rfl
                    · simp only [Option.map_some, writeNode_addT]
                      rcases p1.writeNode _ _ with _ | p2
                      · rfl
                      · simp only [Option.map_some, writeNode_addT]
                        rcases p2.writeNode _ _ with _ | p3
                        · rfl
                        · simp only [Option.map_some, setLen_addT, addT_md]
                  · rfl
                · rfl
            · split
              · rfl
              · split
                · simp only [writeNode_addT]
                  rcases p.writeNode _ _ with _ | p1
                  · rfl
                  · simp only [Option.map_some, writeNode_addT]
                    rcases p1.writeNode _ _ with _ | p2
                    · rfl
                    · simp only [Option.map_some, writeNode_addT]
                      rcases p2.writeNode _ _ with _ | p3
                      · rfl
                      · simp only [Option.map_some, setLen_addT, addT_md]
                · rfl
        · rfl
    · simp only [if_neg hu, setLen_addT, writeNode_addT]
      split <;> rfl

theorem remove_addT (p : Pager K V) (k : K) : remove (addT t p) k = (remove p k).map fun x => (addT t x.1, x.2) := by
  rw [remove, remove, search_addT]
  split
  · split
    · rfl
    · rw [removeLeaf_addT, Option.map_map, Option.map_map]; rfl
  · rfl

theorem get_addT (p : Pager K V) (k : K) : get (addT t p) k = get p k := by rw [get, get, search_addT]

omit [LinearOrder K] in
theorem leftmost_addT (p : Pager K V) (f page) : leftmost (addT t p) f page = leftmost p f page := by
  induction f generalizing page with
  | zero => rfl
  | succ f ih => simp only [leftmost, getPage_addT, ih]

omit [LinearOrder K] in
theorem rightmost_addT (p : Pager K V) (f page) : rightmost (addT t p) f page = rightmost p f page := by
  induction f generalizing page with
  | zero => rfl
  | succ f ih => simp only [rightmost, getPage_addT, ih]

omit [LinearOrder K] in
theorem drain_addT (p : Pager K V) (f it) : Iter.drain (addT t p) f it = Iter.drain p f it := by
  induction f generalizing it with
  | zero => rfl
  | succ f ih => simp only [Iter.drain, Iter.next, getPage_addT, ih]

theorem step_addT (p : Pager K V) (op : MapOp K V) : step (addT t p) op = (step p op).map fun x => (addT t x.1, x.2) := by
  cases op with
  | insert k v => simp only [step, insert_addT, Option.map_map]; rfl
  | remove k => simp only [step, remove_addT, Option.map_map]; rfl
  | get k => simp only [step, get_addT, Option.map_map]; rfl
  | containsKey k => simp only [step, get_addT, Option.map_map]; rfl
  | min => simp only [step, min, leftmost_addT, Option.map_map, addT_disk, addT_md]; rfl
  | max => simp only [step, max, rightmost_addT, Option.map_map, addT_disk, addT_md]; rfl
  | len => rfl
  | isEmpty => rfl
  | iter => simp only [step, toList, iterNew, leftmost_addT, drain_addT, Option.map_map, addT_disk, addT_md]; rfl
  | clear => simp only [step, clear_addT, Option.map_map]; rfl
  | getMut k f => rfl
  | floor k => rfl
  | ceil k => rfl

/-! ### The header always holds the metadata -/

/-- The header of the file is the metadata in memory. -/
def Synced (p : Pager K V) : Prop := p.disk.hdr = p.md

omit [LinearOrder K] in
theorem synced_writeNode {p p' : Pager K V} {i n} (h : Synced p) (e : p.writeNode i n = some p') : Synced p' := by
  rw [Pager.writeNode] at e
  split at e
  · cases e; exact h
  · cases e

omit [LinearOrder K] in
theorem synced_hdr (p : Pager K V) : Synced p.writeHdr := rfl

omit [LinearOrder K] in
theorem synced_setLen (p : Pager K V) (n) : Synced (p.setLen n) := rfl

omit [LinearOrder K] in
theorem synced_setRoot (p : Pager K V) (n) : Synced (p.setRoot n) := rfl

omit [LinearOrder K] in
theorem synced_allocate {p p' : Pager K V} {n q} (e : p.allocate n = some (p', q)) : Synced p' := by
  rw [Pager.allocate] at e
  split at e
  · simp only at e
    split at e
    · cases e
    · cases e; rfl
  · split at e
    · split at e
      · cases e
      · cases e; rfl
    · cases e

omit [LinearOrder K] in
theorem synced_deallocate {p p' : Pager K V} {i} (e : p.deallocate i = some p') : Synced p' := by
  rw [Pager.deallocate] at e
  split at e
  · cases e
  · cases e; rfl

theorem synced_insertUp {p p' : Pager K V} {page} {st : Stack K} {o} (h : Synced p) (e : insertUp p page st o = some p') : Synced p' := by
  induction st generalizing p page o with
  | nil =>
    cases o with
    | none => simp only [insertUp] at e; cases e; exact h
    | some kq =>
      obtain ⟨k, q⟩ := kq
      simp only [insertUp] at e
      split at e
      · split at e
        · cases e
        · cases e; rfl
      · cases e
  | cons s st ih =>
    obtain ⟨pp, n, i⟩ := s
    cases o with
    | none => simp only [insertUp] at e; cases e; exact h
    | some kq =>
      obtain ⟨k, q⟩ := kq
      simp only [insertUp] at e
      split at e
      · cases e
      · exact synced_writeNode h e
      · split at e
        · cases e
        · rename_i ha
          split at e
          · cases e
          · rename_i hb
            exact ih (synced_writeNode (synced_allocate ha) hb) e

theorem synced_insert {p p' : Pager K V} {k : K} {v : V} {o} (h : Synced p) (e : insert p k v = some (p', o)) : Synced p' := by
  rw [insert] at e
  split at e
  · split at e
    · cases e
    · rename_i hl
      cases e
      rw [insertLeaf] at hl
      split at hl
      · cases hl
      · split at hl
        · cases hl
        · rename_i ha
          cases hw : Pager.writeNode _ _ _ with
          | none => rw [hw] at hl; cases hl
          | some y => rw [hw] at hl; cases hl
      · cases hw : Pager.writeNode _ _ _ with
        | none => rw [hw] at hl; cases hl
        | some y => rw [hw] at hl; cases hl; exact synced_writeNode h hw
      · cases hw : Pager.writeNode _ _ _ with
        | none => rw [hw] at hl; cases hl
        | some y => rw [hw] at hl; cases hl
    · split at e
      · cases e
      · cases e; rfl
  · cases e

theorem synced_removeUp {p p' : Pager K V} {page} {n : INode K} {st : Stack K} (h : Synced p) (e : removeUp p page n st = some p') : Synced p' := by
  induction st generalizing p page n with
  | nil =>
    simp only [removeUp] at e
    repeat' split at e
    all_goals first | cases e; done | exact synced_writeNode h e | exact synced_deallocate e
  | cons s st ih =>
    obtain ⟨pp, pn, i⟩ := s
    simp only [removeUp] at e
    repeat' split at e
    all_goals first
      | cases e; done
      | exact synced_writeNode h e
      | (refine ih (synced_writeNode (synced_deallocate (by assumption)) (by assumption)) e; done)
      | (refine synced_writeNode (synced_writeNode (synced_writeNode h (by assumption)) (by assumption)) e; done)

theorem synced_removeLeaf {p p' : Pager K V} {page} {n : LNode K V} {b} {st : Stack K} (h : Synced p)
    (e : removeLeaf p page n b st = some p') : Synced p' := by
  cases st with
  | nil =>
    simp only [removeLeaf] at e
    split at e
    · exact synced_writeNode (synced_setLen _ _) e
    · cases e; exact h
  | cons s st =>
    obtain ⟨pp, pn, i⟩ := s
    simp only [removeLeaf] at e
    repeat' split at e
    all_goals first
      | (cases e; done)
      | exact synced_writeNode (synced_setLen _ _) e
      | exact synced_removeUp (synced_setLen _ _) e
      | (cases e; first | exact synced_setLen _ _ | exact h)

theorem synced_step {p p' : Pager K V} {op : MapOp K V} {r} (h : Synced p) (e : step p op = some (p', r)) : Synced p' := by
  cases op with
  | insert k v =>
    simp only [step, Option.map_eq_some_iff] at e
    obtain ⟨⟨q, o⟩, e, e2⟩ := e
    cases e2
    exact synced_insert h e
  | remove k =>
    simp only [step, Option.map_eq_some_iff] at e
    obtain ⟨⟨q, o⟩, e, e2⟩ := e
    cases e2
    rw [remove] at e
    split at e
    · split at e
      · cases e
      · simp only [Option.map_eq_some_iff] at e
        obtain ⟨q, e, e2⟩ := e
        cases e2
        exact synced_removeLeaf h e
    · cases e
  | clear =>
    simp only [step, Option.map_eq_some_iff] at e
    obtain ⟨q, e, e2⟩ := e
    cases e2
    exact synced_writeNode (synced_hdr _) e
  | getMut k f => cases e
  | floor k => cases e
  | ceil k => cases e
  | len => cases e; exact h
  | isEmpty => cases e; exact h
  | get k => simp only [step, Option.map_eq_some_iff] at e; obtain ⟨q, e, e2⟩ := e; cases e2; exact h
  | containsKey k => simp only [step, Option.map_eq_some_iff] at e; obtain ⟨q, e, e2⟩ := e; cases e2; exact h
  | min => simp only [step, Option.map_eq_some_iff] at e; obtain ⟨q, e, e2⟩ := e; cases e2; exact h
  | max => simp only [step, Option.map_eq_some_iff] at e; obtain ⟨q, e, e2⟩ := e; cases e2; exact h
  | iter => simp only [step, Option.map_eq_some_iff] at e; obtain ⟨q, e, e2⟩ := e; cases e2; exact h

/-! ### C32 -/

variable {ld id : Nat}

theorem addT_eq {p q : Pager K V} (h1 : p.md = q.md) (h2 : p.disk = q.disk) (h3 : q.trace = []) : p = addT p.trace q := by
  obtain ⟨a, b, c⟩ := p
  obtain ⟨a', b', c'⟩ := q
  simp at h1 h2 h3
  subst h1 h2 h3
  simp [addT]

theorem run_none (I : MapImpl K V) {s : I.State} {op : MapOp K V} {d : I.Draw}
    (h : I.step s op d = none) (ops : List (MapOp K V × I.Draw)) : I.run s ((op, d) :: ops) = none := by
  simp only [MapImpl.run, h]; rfl

theorem synced_new : Synced (new ld id : Pager K V) := by rfl

theorem synced_run {p p' : Pager K V} {ops h} (hs : Synced p) (e : (bp K V ld id).run p ops = some (p', h)) : Synced p' := by
  induction ops generalizing p h with
  | nil => cases e; exact hs
  | cons o ops ih =>
    obtain ⟨op, b⟩ := o
    cases hst : (bp K V ld id).step p op b with
    | none => rw [run_none _ hst] at e; cases e
    | some x =>
      obtain ⟨p1, r⟩ := x
      obtain ⟨⟨p2, h2⟩, e', e2⟩ := Option.map_eq_some_iff.1 ((run_cons _ hst ops).symm.trans e)
      cases e2
      refine ih (synced_step ?_ hst) e'
      cases b
      · exact hs
      · rfl

theorem run_addT (t) (p : Pager K V) (ops : List (MapOp K V × Bool)) :
    ((bp K V ld id).run (addT t p) ops).map (·.2) = ((bp K V ld id).run p ops).map (·.2) := by
  induction ops generalizing p t with
  | nil => rfl
  | cons o ops ih =>
    obtain ⟨op, b⟩ := o
    have hst : (bp K V ld id).step (addT t p) op b =
        ((bp K V ld id).step p op b).map fun x => (addT (bif b then [] else t) x.1, x.2) := by
      cases b
      · exact step_addT t p op
      · have : ((bp K V ld id).step p op true).map (fun x => (addT [] x.1, x.2)) = (bp K V ld id).step p op true := by
          cases (bp K V ld id).step p op true <;> rfl
        exact this.symm
    cases hs : (bp K V ld id).step p op b with
    | none =>
      rw [hs] at hst
      rw [run_none (bp K V ld id) hs, run_none (bp K V ld id) (s := addT t p) hst]
    | some x =>
      obtain ⟨p1, r⟩ := x
      rw [hs] at hst
      have e1 := run_cons (bp K V ld id) hs ops
      have e2 := run_cons (bp K V ld id) (s₁ := addT (bif b then [] else t) p1) (r := r) hst ops
      rw [e1, e2]
      have := ih (bif b then [] else t) p1
      revert this
      rcases (bp K V ld id).run (addT (bif b then [] else t) p1) ops with _ | ⟨a, b⟩ <;>
      rcases (bp K V ld id).run p1 ops with _ | ⟨c, d⟩ <;> simp

/-- **C32.**  In every state that any history reaches (any degrees, also histories outside of C28, as long as no call
has panicked), closing the file and opening it again gives a map with the same metadata and the same file, and every
further history gives the same results as without reopening. -/
theorem C32_reopen {p : Pager K V} {ops h} (e : (bp K V ld id).run (new ld id) ops = some (p, h)) :
    (Pager.openFile p.disk).md = p.md ∧ (Pager.openFile p.disk).disk = p.disk ∧
    ∀ ops', ((bp K V ld id).run (Pager.openFile p.disk) ops').map (·.2) = ((bp K V ld id).run p ops').map (·.2) := by
  have hs : Synced p := synced_run synced_new e
  refine ⟨hs, rfl, fun ops' => ?_⟩
  have := run_addT (ld := ld) (id := id) p.trace (Pager.openFile p.disk) ops'
  rw [← addT_eq (p := p) (q := Pager.openFile p.disk) hs.symm rfl rfl] at this
  exact this.symm

/-- **C32 (contents).**  After a covered history and reopening, the results of every further covered history are
those of an ordered map with the contents that the first history left. -/
theorem C32_reopen_contents (hld : 1 ≤ ld) (hid : 3 ≤ id) {p : Pager K V} (ops ops' : List (MapOp K V × Bool)) {h}
    (ha : Admissible ld id (ops ++ ops')) (e : (bp K V ld id).run (new ld id) ops = some (p, h)) :
    ∃ p' h' m, (bp K V ld id).run (Pager.openFile p.disk) ops' = some (p', h') ∧ h'.map (·.1) = ops'.map (·.1) ∧
      History (contents (ops.map (·.1))) h' m := by
  obtain ⟨p1, h1, e1, g1, g2⟩ := C28_bp_map_partial hld hid _ ha
  rw [run_append, e] at e1
  simp only [Option.bind_some] at e1
  cases e2 : (bp K V ld id).run p ops' with
  | none => rw [e2] at e1; cases e1
  | some x =>
    obtain ⟨p2, h2⟩ := x
    rw [e2] at e1
    simp only [Option.map_some, Option.some.injEq, Prod.mk.injEq] at e1
    obtain ⟨rfl, rfl⟩ := e1
    have hops := run_ops e
    rw [List.map_append, List.map_append, hops] at g1
    have g1' := List.append_cancel_left g1
    have h3 := (C32_reopen e).2.2 ops'
    rw [e2] at h3
    cases e3 : (bp K V ld id).run (Pager.openFile p.disk) ops' with
    | none => rw [e3] at h3; cases h3
    | some y =>
      obtain ⟨p3, h4⟩ := y
      rw [e3] at h3
      simp only [Option.map_some, Option.some.injEq] at h3
      subst h3
      obtain ⟨m, a1, a2⟩ := history_append g2
      have := history_after (fun op hop => ha.1 op (by rw [hops] at hop; simp at hop ⊢; exact .inl hop)) a1
      rw [hops] at this
      subst this
      exact ⟨p3, h4, _, rfl, g1', a2⟩

end

/-- Non-vacuity: the sample history of `Verif/Bp/Violations.lean` satisfies the hypothesis of `C32_reopen`. -/
example : ∃ h, (bp Nat Nat 2 3).run (new 2 3) sample = some (sampleState, h) := by
  obtain ⟨p, h, e, _⟩ := C28_bp_map_partial (K := Nat) (V := Nat) (ld := 2) (id := 3) (by decide) (by decide) sample sample_admissible
  exact ⟨h, by simp only [sampleState, e]; rfl⟩

/-- And reopening it gives the same answers. -/
example : toList (Pager.openFile sampleState.disk) = some [(0, 9), (2, 4), (3, 77), (6, 8), (7, 6), (8, 7), (9, 5)] ∧
    (Pager.openFile sampleState.disk).md.len = 7 := by decide +kernel

end Verif.Bp
