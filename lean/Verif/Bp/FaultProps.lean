/- Property C73: BpMap when operations on the file fail and the process goes on. -/
import Verif.Bp.Faults
import Verif.Bp.CrashExact

namespace Verif.Bp

open Verif.Spec

variable {K V : Type} [LinearOrder K]

/-! ### Specification -/

/-- An event of a history: a call that returned a result, or a call that returned an error. -/
inductive Event (K V : Type) where
  | done (op : MapOp K V) (r : MapRes K V)
  | failed (op : MapOp K V) (f : Fault)

/-- The call of an event. -/
def Event.call : Event K V → MapOp K V
  | .done op _ => op
  | .failed op _ => op

/-- The events lead from `p` to `p'`. -/
inductive Runs : Pager K V → List (Event K V) → Pager K V → Prop where
  | nil (p) : Runs p [] p
  | done {p p₁ p₂ op r es} : step p op = some (p₁, r) → Runs p₁ es p₂ → Runs p (.done op r :: es) p₂
  | failed {p p₁ p₂ op f es} : (f, p₁) ∈ stepErr p op → Runs p₁ es p₂ → Runs p (.failed op f :: es) p₂

/-- The result of a call on a map with the contents `m` whose length is reported too small by `δ`. -/
def Answer (m : AMap K V) (δ : Nat) : MapOp K V → MapRes K V → Prop
  | .len, r => ∃ l n, Lists m l ∧ n + δ = l.length ∧ r = .num n
  | .isEmpty, r => ∃ l n, Lists m l ∧ n + δ = l.length ∧ r = .bool (n == 0)
  | op, r => op.Spec m r (after op m)

/-- What the length is short of after a call that returns. -/
def shortAfter (δ : Nat) : MapOp K V → Nat
  | .clear => 0
  | _ => δ

/-- The events as those of a map with the contents `m` whose length is short by `δ`.  A call that fails has had no
effect, or (the length, written last) all of its effect, or (the length, written early) it has only made the reported
length smaller by one. -/
inductive Explains : AMap K V → Nat → List (Event K V) → AMap K V → Nat → Prop where
  | nil (m δ) : Explains m δ [] m δ
  | done {m δ m' δ' op r es} : Answer m δ op r → Explains (after op m) (shortAfter δ op) es m' δ' →
      Explains m δ (.done op r :: es) m' δ'
  | none {m δ m' δ' op f es} : f = .read ∨ f = .alloc ∨ f = .write → Explains m δ es m' δ' →
      Explains m δ (.failed op f :: es) m' δ'
  | all {m δ m' δ' op es} : Explains (after op m) δ es m' δ' → Explains m δ (.failed op .len :: es) m' δ'
  | short {m δ m' δ' op es} : Explains m (δ + 1) es m' δ' → Explains m δ (.failed op .early :: es) m' δ'

/-- A call that the theorem covers: no harmful overwriting (see C28), and no `remove` of a key that is present while
the reported length is 0 (`len - 1` would overflow). -/
def Fine (ld : Nat) (p : Pager K V) (op : MapOp K V) : Prop :=
  Supported op ∧ (∀ k v, op = .insert k v → ¬ Harmful ld p.disk k) ∧
    ∀ k, op = .remove k → get p k ≠ some none → 0 < p.md.len

/-- All calls of the history are covered, and no failure leaves some but not all pages of the tree written. -/
def Covered (ld : Nat) (p : Pager K V) (es : List (Event K V)) : Prop :=
  ∀ pre e post, es = pre ++ e :: post → (∀ op, e ≠ .failed op .torn) ∧ ∀ q, Runs p pre q → Fine ld q e.call

/-- The calls that only look at the map. -/
def Looks : MapOp K V → Prop
  | .get _ | .containsKey _ | .min | .max | .len | .isEmpty | .iter => True
  | _ => False

/-- The two maps cannot be told apart by looking at them. -/
def SameAnswers (q p : Pager K V) : Prop := ∀ op, Looks op → (step q op).map (·.2) = (step p op).map (·.2)

/-- Calls during which no failure does harm: those that only look, an `insert` of a key that is present or whose leaf
has room, a `remove` of a key that is not present, and a `clear` of an empty map whose tree is the first page. -/
def Unharmed (p : Pager K V) : MapOp K V → Prop
  | .insert k _ => get p k ≠ some none ∨
      ∃ page n stack, search p k = some (page, .leaf n, stack) ∧ n.len < n.entries.length
  | .remove k => get p k = some none
  | .clear => p.md.len = 0 ∧ p.md.root = 0
  | _ => True

/-! ### Proofs -/

variable {ld id : Nat} {g : Bool} {δ : Nat}

/-- The file holds a tree with these entries; the length is short by `δ`. -/
def RelG (g : Bool) (δ ld id : Nat) (p : Pager K V) (l : List (K × V)) : Prop :=
  ∃ n, ∃ t : BT K V n, HoldsG g δ ld id p t ∧ t.toL = l

theorem relG_sorted {p : Pager K V} {l} (h : RelG g δ ld id p l) : SL.Sorted l := by
  obtain ⟨n, t, h, rfl⟩ := h; exact ok_sorted h.ok

theorem relG_weaken {p : Pager K V} {l} (h : RelG g δ ld id p l) : RelG false δ ld id p l := by
  obtain ⟨n, t, h, rfl⟩ := h
  exact ⟨n, t, ⟨h.wf.weaken, h.root, h.rep, h.ok, h.rootOk, h.drift⟩, rfl⟩

omit [LinearOrder K] in
/-- A page in use gets lost. -/
theorem WfG.lose {p : Pager K V} {l : List Nat} {i : Nat} (h : WfG g ld id p (i :: l)) : WfG false ld id p l := by
  obtain ⟨fl, lost, h1, h2, -⟩ := h.chain
  refine ⟨by simp, h.ldeg, h.ideg, h.le, fun j hj => h.lt' j (by simp [hj]), fl, i :: lost, h1, ?_, by simp⟩
  exact List.perm_middle.trans h2

omit [LinearOrder K] in
/-- Only the header and the length differ. -/
theorem WfG.header {p q : Pager K V} {l : List Nat} (h : WfG g ld id p l) (hp : q.disk.pages = p.disk.pages)
    (hm : q.md = { p.md with len := q.md.len }) : WfG false ld id q l := by
  obtain ⟨fl, lost, h1, h2, -⟩ := h.chain
  have e1 : q.md.leafDeg = p.md.leafDeg := by rw [hm]
  have e2 : q.md.intDeg = p.md.intDeg := by rw [hm]
  have e3 : q.md.pages = p.md.pages := by rw [hm]
  have e4 : q.md.free = p.md.free := by rw [hm]
  refine ⟨by simp, e1.trans h.ldeg, e2.trans h.ideg, by rw [hp, e3]; exact h.le, by rw [hp]; exact h.lt', fl, lost, ?_, ?_, by simp⟩
  · rw [e4]
    exact freeChain_frame (d := p.disk) (fun i _ => by rw [hp]) h1
  · rw [e3]; exact h2

theorem relG_header {p q : Pager K V} {l} {δ' : Nat} (h : RelG g δ ld id p l) (hp : q.disk.pages = p.disk.pages)
    (hm : q.md = { p.md with len := q.md.len }) (hd : q.md.len + δ' = p.md.len + δ) : RelG false δ' ld id q l := by
  obtain ⟨n, t, h, rfl⟩ := h
  refine ⟨n, t, ⟨h.wf.header hp hm, ?_, repT_frame (d := p.disk) (fun i _ => by rw [hp]) h.rep, h.ok, h.rootOk, hd.trans h.drift⟩, rfl⟩
  rw [hm]; exact h.root

omit [LinearOrder K] in
/-- The states in which an allocation fails. -/
theorem WfG.allocErr {p q : Pager K V} {l : List Nat} (h : WfG g ld id p l) {n : Node K V} (hq : q ∈ p.allocErr n) :
    WfG false ld id q l ∧ q.md.len = p.md.len ∧ q.md.root = p.md.root ∧ ∀ j ∈ l, q.disk.pages[j]? = p.disk.pages[j]? := by
  obtain ⟨fl, lost, h1, h2, -⟩ := h.chain
  rw [Pager.allocErr] at hq
  cases hf : p.md.free with
  | none =>
    have hfl : fl = [] := by
      cases fl with
      | nil => rfl
      | cons f fl => rw [hf] at h1; exact absurd h1.1 (by simp)
    subst hfl
    rw [hf] at hq
    simp only [List.mem_cons, Option.mem_toList] at hq
    have hperm : (l ++ [] ++ (p.md.pages :: lost)).Perm (List.range (p.md.pages + 1)) := by
      rw [List.range_succ]
      refine List.perm_middle.trans ?_
      exact (List.Perm.cons _ h2).trans (List.perm_append_comm (l₁ := [p.md.pages]))
    have hle := h.le
    have hset : ∀ j ∈ l, (p.disk.pages.take (p.md.pages + 1) ++ List.replicate (p.md.pages + 1 - p.disk.pages.length) none)[j]? =
        p.disk.pages[j]? := by
      intro j hj
      rw [List.take_of_length_le (by omega), List.getElem?_append_left (h.lt hj)]
    have hlen : (p.disk.pages.take (p.md.pages + 1) ++ List.replicate (p.md.pages + 1 - p.disk.pages.length) none).length =
        p.md.pages + 1 := by
      simp; omega
    rcases hq with rfl | rfl | hq
    · exact ⟨⟨by simp, h.ldeg, h.ideg, Nat.le_succ_of_le h.le, h.lt', [], p.md.pages :: lost, hf, hperm, by simp⟩, rfl, rfl, fun _ _ => rfl⟩
    · refine ⟨⟨by simp, h.ldeg, h.ideg, hlen.le, fun i hi => ?_, [], p.md.pages :: lost, hf, hperm, by simp⟩, rfl, rfl, hset⟩
      show i < (p.disk.pages.take (p.md.pages + 1) ++ List.replicate (p.md.pages + 1 - p.disk.pages.length) none).length
      rw [hlen]
      have := h.lt hi
      omega
    · have hw := writeNode_some hq
      have hpg : q.disk.pages = (p.disk.pages.take (p.md.pages + 1) ++
          List.replicate (p.md.pages + 1 - p.disk.pages.length) none).set (p.md.pages + 1 - 1) (some n) := by rw [hw]; rfl
      have hmd : q.md = { p.md with pages := p.md.pages + 1 } := by rw [hw]; rfl
      refine ⟨⟨by simp, by rw [hmd]; exact h.ldeg, by rw [hmd]; exact h.ideg, ?_, fun i hi => ?_, [], p.md.pages :: lost, ?_, ?_, by simp⟩,
        by rw [hmd], by rw [hmd], fun j hj => ?_⟩
      · rw [hpg, hmd, List.length_set, hlen]
      · rw [hpg, List.length_set, hlen]
        have := h.lt hi
        omega
      · rw [hmd]; exact hf
      · rw [hmd]; exact hperm
      · have := h.lt hj
        rw [hpg, List.getElem?_set_ne (by omega), hset j hj]
  | some f =>
    cases fl with
    | nil => rw [hf] at h1; exact absurd h1 (by simp [FreeChain])
    | cons f' fl =>
      rw [hf] at h1 hq
      obtain ⟨h4, nx, h5, h6⟩ := h1
      simp at h4
      subst h4
      simp only [List.mem_cons, getPage_eq h5, Option.mem_toList, Option.map_eq_some_iff] at hq
      rcases hq with rfl | ⟨q, hq, rfl⟩
      · exact ⟨h.weaken, rfl, rfl, fun _ _ => rfl⟩
      · have hw := writeNode_some hq
        have hpg : q.disk.pages = p.disk.pages.set f (some n) := by rw [hw]; rfl
        have hmd : q.md = p.md := by rw [hw]; rfl
        have hnd := (List.nodup_append.1 (List.nodup_append.1 (h2.nodup_iff.2 List.nodup_range)).1).2.1
        refine ⟨⟨by simp, by rw [hmd]; exact h.ldeg, by rw [hmd]; exact h.ideg, ?_, fun i hi => ?_, fl, f :: lost, ?_, ?_, by simp⟩,
          by rw [hmd], by rw [hmd], fun j hj => ?_⟩
        · simp only [hpg, hmd, List.length_set]; exact h.le
        · simp only [hpg, List.length_set]; exact h.lt hi
        · refine freeChain_frame (d := p.disk) (fun j hj => ?_) h6
          simp only [hpg]
          rw [List.getElem?_set_ne]
          rintro rfl
          exact (List.nodup_cons.1 hnd).1 hj
        · simp only [hmd]
          refine List.Perm.trans ?_ h2
          refine List.perm_middle.trans ?_
          exact List.perm_middle.symm.append_right lost
        · simp only [hpg]
          rw [List.getElem?_set_ne fun e => WfG.apart h2 hj List.mem_cons_self e.symm]

theorem relG_alloc {p q : Pager K V} {l} {n : Node K V} (h : RelG g δ ld id p l) (hq : q ∈ p.allocErr n) : RelG false δ ld id q l := by
  obtain ⟨m, t, h, rfl⟩ := h
  obtain ⟨w, e1, e2, f⟩ := h.wf.allocErr hq
  exact ⟨m, t, ⟨w, e2.trans h.root, repT_frame (d := p.disk) f h.rep, h.ok, h.rootOk, by rw [e1]; exact h.drift⟩, rfl⟩

theorem relG_allocated {p q : Pager K V} {l} {n : Node K V} {i} (h : RelG g δ ld id p l) (hq : p.allocate n = some (q, i)) :
    RelG false δ ld id q l := by
  obtain ⟨m, t, h, rfl⟩ := h
  obtain ⟨p1, q1, c1, w1, b1, n1, r1, f1⟩ := h.wf.alloc n
  rw [hq] at c1
  cases c1
  exact ⟨m, t, ⟨w1.lose, r1.trans h.root, repT_frame (d := p.disk) f1 h.rep, h.ok, h.rootOk, by rw [n1]; exact h.drift⟩, rfl⟩

/-- The calls that return. -/
theorem step_relG (hld : 1 ≤ ld) (hid : 3 ≤ id) {p : Pager K V} {l} (h : RelG g δ ld id p l) {op : MapOp K V} (hf : Fine ld p op) :
    ∃ p' r, step p op = some (p', r) ∧ Answer (SL.abs l) δ op r ∧ RelG g (shortAfter δ op) ld id p' (SL.next l op) := by
  have hrel := h
  have hsort := relG_sorted h
  obtain ⟨n, t, h, rfl⟩ := h
  obtain ⟨hs, hov, hpos⟩ := hf
  have hspec := SL.step_spec hsort op
  have hnext := spec_after hs hspec
  rw [hnext] at hspec
  have hl := SL.step_spec hsort (.iter : MapOp K V)
  obtain ⟨⟨l', hl', hl''⟩, -⟩ := hl
  cases hl''
  cases op with
  | insert k v =>
    obtain ⟨p', m, t', e, h', e'⟩ := insert_holds (v := v) hld hid h (.inr (safe_of_not_harmful (hov k v rfl)))
    exact ⟨p', SL.res t.toL (.insert k v), by simp [step, e, SL.res], hspec, m, t', h', e'⟩
  | remove k =>
    cases hf : SL.find k t.toL with
    | none =>
      refine ⟨p, SL.res t.toL (.remove k), by simp [step, remove_absent (by omega) h hf, SL.res, hf], hspec, n, t, h, ?_⟩
      rw [SL.next, SL.del_of_not_mem]
      exact SL.find_eq_none.1 hf
    | some o =>
      obtain ⟨p', m, t', e, h', e'⟩ := remove_present hld hid h hf (.inr (hpos k rfl (by
        rw [get_holds hld (by omega) h, SL.abs, hf]; simp)))
      exact ⟨p', SL.res t.toL (.remove k), by simp [step, e, SL.res, hf], hspec, m, t', h', e'⟩
  | get k => exact ⟨p, _, by simp [step, get_holds hld (by omega) h, SL.res, SL.abs], hspec, hrel⟩
  | containsKey k => exact ⟨p, _, by simp [step, get_holds hld (by omega) h, SL.res, SL.abs], hspec, hrel⟩
  | getMut k f => exact hs.elim
  | floor k => exact hs.elim
  | ceil k => exact hs.elim
  | min => exact ⟨p, _, by simp [step, min_holds hld h, SL.res], hspec, hrel⟩
  | max => exact ⟨p, _, by simp [step, max_holds hld h, SL.res], hspec, hrel⟩
  | len => exact ⟨p, _, rfl, ⟨t.toL, p.md.len, hl', h.drift, rfl⟩, hrel⟩
  | isEmpty => exact ⟨p, _, rfl, ⟨t.toL, p.md.len, hl', h.drift, rfl⟩, hrel⟩
  | iter => exact ⟨p, _, by simp [step, toList_holds hld h, SL.res], hspec, hrel⟩
  | clear =>
    obtain ⟨p', e, h'⟩ := clear_holds h
    refine ⟨p', SL.res t.toL .clear, by simp [step, e, SL.res], hspec, 0, BT.leaf 0 [], ?_, rfl⟩
    cases g
    · exact ⟨h'.wf.weaken, h'.root, h'.rep, h'.ok, h'.rootOk, h'.drift⟩
    · exact h'

/-- What is known of the state left behind by a failing call: the contents are those from before or those from after
the call. -/
def Left (ld id δ : Nat) (l l' : List (K × V)) (x : Fault × Pager K V) : Prop :=
  (x.1 = .read ∨ x.1 = .alloc ∨ x.1 = .write → RelG false δ ld id x.2 l) ∧
  (x.1 = .len → RelG false δ ld id x.2 l') ∧ (x.1 = .early → RelG false (δ + 1) ld id x.2 l)

theorem left_same {p : Pager K V} {l l'} {f : Fault} (h : RelG g δ ld id p l) (hf : f = .read ∨ f = .alloc ∨ f = .write) :
    Left ld id δ l l' (f, p) := by
  refine ⟨fun _ => relG_weaken h, ?_, ?_⟩ <;> rintro rfl <;> simp at hf

theorem left_torn {p : Pager K V} {l l'} : Left ld id δ l l' (.torn, p) := by
  refine ⟨?_, ?_, ?_⟩ <;> intro h <;> simp at h

/-- The length could not be written, but everything else is as after the call. -/
theorem left_len {p q : Pager K V} {l l'} {n : Nat} (h : RelG g δ ld id (p.setLen n) l') (hq : q = { p with md := { p.md with len := n } }) :
    Left ld id δ l l' (.len, q) := by
  refine ⟨by simp, fun _ => ?_, by simp⟩
  subst hq
  exact relG_header h rfl rfl rfl

theorem insertErr_left (hld : 1 ≤ ld) (hid : 3 ≤ id) {p : Pager K V} {l} (h : RelG g δ ld id p l) {k : K} {v : V}
    (hh : ¬ Harmful ld p.disk k) : ∀ x ∈ insertErr p k v, Left ld id δ l (SL.ins k v l) x := by
  have hafter : ∃ p' o, insert p k v = some (p', o) ∧ RelG g δ ld id p' (SL.ins k v l) := by
    obtain ⟨n, t, h, rfl⟩ := h
    obtain ⟨p', m, t', e, h', e'⟩ := insert_holds (v := v) hld hid h (.inr (safe_of_not_harmful hh))
    exact ⟨p', _, e, m, t', h', e'⟩
  obtain ⟨p', o, e, h'⟩ := hafter
  intro x hx
  rw [insertErr, List.mem_cons] at hx
  rcases hx with rfl | hx
  · exact left_same h (.inl rfl)
  rw [insert] at e
  split at hx
  · rename_i page n st hs
    rw [hs] at e
    simp only at e
    split at hx
    · cases hx
    · rename_i n' sk s hn
      rw [insertLeaf, hn] at e
      simp only at e
      rw [List.mem_append] at hx
      rcases hx with hx | hx
      · obtain ⟨q, hq, rfl⟩ := List.mem_map.1 hx
        exact left_same (relG_alloc h hq) (.inr (.inl rfl))
      · split at hx
        · cases hx
        · rename_i p1 q ha
          rw [List.mem_cons] at hx
          rcases hx with rfl | hx
          · exact left_same (relG_allocated h ha) (.inr (.inr rfl))
          · split at hx
            · cases hx
            · rename_i p2 hw
              rw [List.mem_append] at hx
              rcases hx with hx | hx
              · obtain ⟨q, -, rfl⟩ := List.mem_map.1 hx
                exact left_torn
              · split at hx
                · cases hx
                · rename_i p3 hu
                  simp only [List.mem_singleton] at hx
                  simp only [ha, hw, Option.map_some, hu, Option.some.injEq, Prod.mk.injEq] at e
                  rw [← e.1] at h'
                  rw [hx]
                  exact left_len h' rfl
    · simp only [List.mem_singleton] at hx
      rw [hx]
      exact left_same h (.inr (.inr rfl))
    · rename_i n' hn
      rw [List.mem_cons] at hx
      rcases hx with rfl | hx
      · exact left_same h (.inr (.inr rfl))
      · split at hx
        · cases hx
        · rename_i p1 hw
          simp only [List.mem_singleton] at hx
          simp only [insertLeaf, hn, hw, Option.map_some, insertUp_none, Option.some.injEq, Prod.mk.injEq] at e
          rw [← e.1] at h'
          rw [hx]
          exact left_len h' rfl
  · cases hx

theorem borrowErr_left {p p' : Pager K V} {l l'} (h : RelG g δ ld id p l) {i a j b k c}
    (h' : ∀ q, (write3 p i a j b k c).2 = some q → q.setLen (q.md.len - 1) = p') (hp' : RelG g δ ld id p' l') :
    ∀ x ∈ borrowErr p i a j b k c, Left ld id δ l l' x := by
  intro x hx
  simp only [borrowErr, List.cons_append, List.mem_cons, List.mem_append, List.mem_map, Option.mem_toList, Option.map_eq_some_iff] at hx
  rcases hx with rfl | ⟨q, -, rfl⟩ | ⟨q, hq, rfl⟩
  · exact left_same h (.inr (.inr rfl))
  · exact left_torn
  · exact left_len (n := q.md.len - 1) (by rw [h' q hq]; exact hp') rfl

theorem mergeErr_left {p : Pager K V} {l l'} (h : RelG g δ ld id p l) {gone kept : Nat} {n pp pn i} {st : Stack K} :
    ∀ x ∈ mergeErr p gone kept n pp pn i st, Left ld id δ l l' x := by
  intro x hx
  rw [mergeErr, List.cons_append, List.mem_cons, List.mem_append, List.mem_map] at hx
  rcases hx with rfl | ⟨q, -, rfl⟩ | hx
  · exact left_same h (.inr (.inr rfl))
  · exact left_torn
  · split at hx
    · cases hx
    · rw [List.mem_cons] at hx
      rcases hx with rfl | hx
      · exact left_torn
      · split at hx
        · rw [List.mem_cons, List.mem_map] at hx
          rcases hx with rfl | ⟨q, -, rfl⟩ <;> exact left_torn
        · cases hx

theorem simpleErr_left {p : Pager K V} {l l'} (h : RelG g δ ld id p l) (hpos : 0 < p.md.len) : ∀ x ∈ simpleErr p, Left ld id δ l l' x := by
  intro x hx
  have : x.1 = .early ∧ RelG false (δ + 1) ld id x.2 l := by
    simp only [simpleErr, List.mem_cons, List.not_mem_nil, or_false] at hx
    rcases hx with rfl | rfl
    · refine ⟨rfl, relG_header h rfl rfl ?_⟩
      show p.md.len - 1 + (δ + 1) = _
      omega
    · refine ⟨rfl, relG_header h rfl rfl ?_⟩
      show p.md.len - 1 + (δ + 1) = _
      omega
  refine ⟨?_, ?_, fun _ => this.2⟩ <;> rw [this.1] <;> simp

theorem removeLeafErr_left {p p' : Pager K V} {l l'} (h : RelG g δ ld id p l) {page n st} {found : Bool}
    (hpos : found = true → 0 < p.md.len) (e : removeLeaf p page n found st = some p') (hp' : RelG g δ ld id p' l') :
    ∀ x ∈ removeLeafErr p page n found st, Left ld id δ l l' x := by
  intro x hx
  cases st with
  | nil =>
    rw [removeLeafErr] at hx
    split at hx
    · exact simpleErr_left h (hpos ‹_›) x hx
    · cases hx
  | cons a st =>
    obtain ⟨pp, pn, i⟩ := a
    rw [removeLeafErr] at hx
    rw [removeLeaf] at e
    split at hx
    · rename_i hun
      rw [if_pos hun] at e
      simp only at hx e
      split at hx
      · cases hx
      · rename_i sp hsp
        rw [hsp] at e
        simp only at e
        rw [List.mem_cons] at hx
        rcases hx with rfl | hx
        · exact left_same h (.inl rfl)
        split at hx
        · rename_i sn hsn
          rw [hsn] at e
          simp only at e
          split at hx
          · split at hx
            · split at hx
              · cases hx
              · exact mergeErr_left h x hx
            · split at hx
              · cases hx
              · exact mergeErr_left h x hx
          · rename_i hm
            rw [if_neg hm] at e
            split at hx
            · rename_i hsi
              rw [if_pos hsi] at e
              split at hx
              · cases hx
              · rename_i sn' re hre
                rw [hre] at e
                simp only at e
                split at hx
                · rename_i ne hne
                  rw [hne] at e
                  simp only at e
                  split at hx
                  · rename_i ks n' c hks hn'
                    rw [hks, hn'] at e
                    simp only at e
                    refine borrowErr_left h (fun q hq => ?_) hp' x hx
                    rw [write3] at hq
                    split at hq
                    · cases hq
                    · rename_i p1 h1
                      split at hq
                      · cases hq
                      · rename_i p2 h2
                        simp only at hq
                        rw [h1] at e
                        simp only at e
                        rw [h2] at e
                        simp only at e
                        rw [hq] at e
                        simpa using e
                  · cases hx
                · cases hx
            · rename_i hsi
              rw [if_neg hsi] at e
              split at hx
              · cases hx
              · rename_i sn' re hre
                rw [hre] at e
                simp only at e
                split at hx
                · rename_i ks n' c hks hn'
                  rw [hks, hn'] at e
                  simp only at e
                  refine borrowErr_left h (fun q hq => ?_) hp' x hx
                  rw [write3] at hq
                  split at hq
                  · cases hq
                  · rename_i p1 h1
                    split at hq
                    · cases hq
                    · rename_i p2 h2
                      simp only at hq
                      rw [h1] at e
                      simp only at e
                      rw [h2] at e
                      simp only at e
                      rw [hq] at e
                      simpa using e
                · cases hx
        · cases hx
    · split at hx
      · exact simpleErr_left h (hpos ‹_›) x hx
      · cases hx

theorem removeErr_left (hld : 1 ≤ ld) (hid : 3 ≤ id) {p : Pager K V} {l} (h : RelG g δ ld id p l) {k : K}
    (hpos : get p k ≠ some none → 0 < p.md.len) : ∀ x ∈ removeErr p k, Left ld id δ l (SL.del k l) x := by
  have hafter : ∃ p' o, remove p k = some (p', o) ∧ RelG g δ ld id p' (SL.del k l) ∧ (o.isSome = true → 0 < p.md.len) := by
    obtain ⟨n, t, h, rfl⟩ := h
    cases hf : SL.find k t.toL with
    | none =>
      refine ⟨p, none, remove_absent (by omega) h hf, ⟨n, t, h, ?_⟩, by simp⟩
      rw [SL.del_of_not_mem]
      exact SL.find_eq_none.1 hf
    | some o =>
      have hp := hpos (by rw [get_holds hld (by omega) h, SL.abs, hf]; simp)
      obtain ⟨p', m, t', e, h', e'⟩ := remove_present hld hid h hf (.inr hp)
      exact ⟨p', _, e, ⟨m, t', h', e'⟩, fun _ => hp⟩
  obtain ⟨p', o, e, h', hpos⟩ := hafter
  intro x hx
  rw [removeErr, List.mem_cons] at hx
  rcases hx with rfl | hx
  · exact left_same h (.inl rfl)
  rw [remove] at e
  split at hx
  · rename_i page n st hs
    rw [hs] at e
    simp only at e
    split at hx
    · cases hx
    · rename_i n' r hr
      rw [hr] at e
      simp only [Option.map_eq_some_iff, Prod.mk.injEq] at e
      obtain ⟨q, e, rfl, rfl⟩ := e
      exact removeLeafErr_left h hpos e h' x hx
  · cases hx

theorem stepErr_left (hld : 1 ≤ ld) (hid : 3 ≤ id) {p : Pager K V} {l} (h : RelG g δ ld id p l) {op : MapOp K V} (hf : Fine ld p op) :
    ∀ x ∈ stepErr p op, Left ld id δ l (SL.next l op) x := by
  obtain ⟨hs, hov, hpos⟩ := hf
  cases op with
  | insert k v => exact insertErr_left hld hid h (hov k v rfl)
  | remove k => exact removeErr_left hld hid h (hpos k rfl)
  | clear =>
    intro x hx
    obtain ⟨q, -, rfl⟩ := List.mem_map.1 hx
    exact left_torn
  | get k | containsKey k | min | max | iter =>
    intro x hx
    simp only [stepErr, List.mem_singleton] at hx
    subst hx
    exact left_same h (.inl rfl)
  | len | isEmpty | getMut k f | floor k | ceil k => intro x hx; cases hx

theorem covered_tail {p p₁ : Pager K V} {e : Event K V} {es} (h : Covered ld p (e :: es))
    (hr : ∀ {pre q}, Runs p₁ pre q → Runs p (e :: pre) q) : Covered ld p₁ es := by
  rintro pre e' post rfl
  obtain ⟨h1, h2⟩ := h (e :: pre) e' post rfl
  exact ⟨h1, fun q hq => h2 q (hr hq)⟩

theorem runs_explained (hld : 1 ≤ ld) (hid : 3 ≤ id) {p p' : Pager K V} {es : List (Event K V)} (hr : Runs p es p') {l}
    (h : RelG false δ ld id p l) (hc : Covered ld p es) :
    ∃ l' δ', Explains (SL.abs l) δ es (SL.abs l') δ' ∧ RelG false δ' ld id p' l' := by
  induction hr generalizing l δ with
  | nil p => exact ⟨l, δ, .nil _ _, h⟩
  | @done p p₁ p₂ op r es hs hr ih =>
    have hf : Fine ld p op := (hc [] _ _ rfl).2 p (.nil p)
    obtain ⟨q, r', e, ha, h1⟩ := step_relG hld hid h hf
    rw [hs] at e
    cases e
    have hnext := spec_after hf.1 (SL.step_spec (relG_sorted h) op)
    obtain ⟨l', δ', hx, hy⟩ := ih h1 (covered_tail hc fun hq => .done hs hq)
    exact ⟨l', δ', .done ha (hnext ▸ hx), hy⟩
  | @failed p p₁ p₂ op f es hs hr ih =>
    obtain ⟨hnt, hf⟩ := hc [] _ _ rfl
    have hf : Fine ld p op := hf p (.nil p)
    obtain ⟨a, b, c⟩ := stepErr_left hld hid h hf _ hs
    have hnext := spec_after hf.1 (SL.step_spec (relG_sorted h) op)
    have hc' : Covered ld p₁ es := covered_tail hc fun hq => .failed hs hq
    cases f with
    | read | alloc | write =>
      obtain ⟨l', δ', hx, hy⟩ := ih (a (by simp)) hc'
      exact ⟨l', δ', .none (by simp) hx, hy⟩
    | len =>
      obtain ⟨l', δ', hx, hy⟩ := ih (b rfl) hc'
      exact ⟨l', δ', .all (hnext ▸ hx), hy⟩
    | early =>
      obtain ⟨l', δ', hx, hy⟩ := ih (c rfl) hc'
      exact ⟨l', δ', .short hx, hy⟩
    | torn => exact absurd rfl (hnt op)

/-- **C73 (partial).**  Whatever operations on the file fail, if no failing call had written some but not all pages of
the tree, then the map goes on to behave as an ordered map: a failed call has had no effect, or all of its effect, or
(a `remove`, when the length could not be written or the leaf after it) the map only reports a length that is too small
by one.  No later call panics.
Missing: failures with some but not all of the pages written (`C73_exact`: they cannot be left out, and which calls
have them), and pages written in part.  Reopening the file is in Verif/Bp/FaultReopen.lean. -/
theorem C73_partial (hld : 1 ≤ ld) (hid : 3 ≤ id) {p : Pager K V} {es : List (Event K V)} (hr : Runs (new ld id) es p)
    (hc : Covered ld (new ld id) es) :
    ∃ m δ, Explains AMap.empty 0 es m δ ∧
      ∀ op, Fine ld p op → ∃ p' r, step p op = some (p', r) ∧ Answer m δ op r := by
  obtain ⟨l, δ, h1, h2⟩ := runs_explained (δ := 0) hld hid hr (relG_weaken ⟨0, _, holds_new ld id, rfl⟩) hc
  refine ⟨SL.abs l, δ, h1, fun op hf => ?_⟩
  obtain ⟨p', r, e, ha, -⟩ := step_relG hld hid h2 hf
  exact ⟨p', r, e, ha⟩

/-- Unless the length of a `remove` could not be written, all results are those of an ordered map. -/
theorem C73_answers {m : AMap K V} {op : MapOp K V} {r : MapRes K V} (h : Answer m 0 op r) : op.Spec m r (after op m) := by
  cases op with
  | len =>
    obtain ⟨l, n, h1, rfl, rfl⟩ := h
    exact ⟨⟨l, h1, rfl⟩, rfl⟩
  | isEmpty =>
    obtain ⟨l, n, h1, h2, rfl⟩ := h
    refine ⟨⟨_, rfl, ?_⟩, rfl⟩
    rw [Nat.add_zero] at h2
    subst h2
    cases l with
    | nil =>
      simp only [List.length_nil, beq_self_eq_true, true_iff]
      intro k
      cases hk : m k with
      | none => rfl
      | some v => exact absurd ((h1.2 k v).2 hk) (by simp)
    | cons e l =>
      refine ⟨fun h => by simp at h, fun h => ?_⟩
      have := h e.1
      rw [(h1.2 e.1 e.2).1 (by simp)] at this
      cases this
  | _ => exact h

/-! ### Which failures do harm -/

theorem same_of {q p : Pager K V} (h1 : ∀ k, get q k = get p k) (h2 : Bp.min q = Bp.min p) (h3 : Bp.max q = Bp.max p)
    (h4 : toList q = toList p) (h5 : q.md.len = p.md.len) : SameAnswers q p := by
  intro op hop
  cases op with
  | get k => simp only [step, h1, Option.map_map]; rfl
  | containsKey k => simp only [step, h1, Option.map_map]; rfl
  | min => simp only [step, h2, Option.map_map]; rfl
  | max => simp only [step, h3, Option.map_map]; rfl
  | len => simp [step, h5]
  | isEmpty => simp [step, h5]
  | iter => simp only [step, h4, Option.map_map]; rfl
  | insert | remove | clear | getMut | floor | ceil => exact hop.elim

theorem same_rel (hld : 1 ≤ ld) (hid : 3 ≤ id) {g' : Bool} {q p : Pager K V} {l} (h : RelG g δ ld id q l) (h' : RelG g' δ ld id p l) :
    SameAnswers q p := by
  obtain ⟨n, t, h, rfl⟩ := h
  obtain ⟨m, u, h', e⟩ := h'
  refine same_of (fun k => ?_) ?_ ?_ ?_ ?_
  · rw [get_holds hld (by omega) h, get_holds hld (by omega) h', e]
  · rw [min_holds hld h, min_holds hld h', e]
  · rw [max_holds hld h, max_holds hld h', e]
  · rw [toList_holds hld h, toList_holds hld h', e]
  · have h1 := h.drift
    have h2 := h'.drift
    rw [e] at h2
    omega

theorem SameAnswers.get {q p : Pager K V} (h : SameAnswers q p) (k : K) : get q k = get p k := by
  have := h (.get k) trivial
  simp only [step, Option.map_map] at this
  cases h1 : Bp.get q k <;> cases h2 : Bp.get p k <;> simp [h1, h2] at this ⊢
  exact this

theorem SameAnswers.min {q p : Pager K V} (h : SameAnswers q p) : Bp.min q = Bp.min p := by
  have := h .min trivial
  simp only [step, Option.map_map] at this
  cases h1 : Bp.min q <;> cases h2 : Bp.min p <;> simp [h1, h2] at this ⊢
  exact this

theorem SameAnswers.iter {q p : Pager K V} (h : SameAnswers q p) : toList q = toList p := by
  have := h .iter trivial
  simp only [step, Option.map_map] at this
  cases h1 : toList q <;> cases h2 : toList p <;> simp [h1, h2] at this ⊢
  exact this

theorem SameAnswers.len {q p : Pager K V} (h : SameAnswers q p) : q.md.len = p.md.len := by
  simpa [step] using h .len trivial

/-- Two maps whose tree is the same leaf in page 0. -/
theorem same_root {q p : Pager K V} {es : List (K × V)} (hr : q.md.root = 0) (hr' : p.md.root = 0)
    (hd : q.md.leafDeg = ld) (hd' : p.md.leafDeg = ld) (hle : es.length ≤ ld) (hl : q.md.len = p.md.len)
    (hat : AtPage q.disk 0 (.leaf (encLeaf ld es none))) (hat' : AtPage p.disk 0 (.leaf (encLeaf ld es none))) : SameAnswers q p := by
  have h1 : SameContents ⟨q.md, q.disk.pages⟩ p := sameContents_root hr hr' hd hd' hle hat hat'
  have h2 : SameContents ⟨q.md, q.disk.pages⟩ q := sameContents_of rfl rfl rfl
  exact same_of (fun k => by rw [← h2.get, h1.get]) (by rw [← h2.min, h1.min]) (by rw [← h2.max, h1.max])
    (by rw [← h2.iter, h1.iter]) hl

/-- A failing `insert` does not leave the length too small. -/
theorem insertErr_kind {p : Pager K V} {k : K} {v : V} : ∀ x ∈ insertErr p k v, x.1 ≠ .early ∧
    (x.1 = .torn → ∃ page n st n' k2 s, search p k = some (page, .leaf n, st) ∧ n.insert (k, v) = some (n', .split k2 s)) := by
  intro x hx
  rw [insertErr, List.mem_cons] at hx
  rcases hx with rfl | hx
  · simp
  split at hx
  · rename_i page n st hs
    split at hx
    · cases hx
    · rename_i n' sk s hn
      refine ⟨?_, fun _ => ⟨page, n, st, n', sk, s, hs, hn⟩⟩
      rw [List.mem_append] at hx
      rcases hx with hx | hx
      · obtain ⟨q, hq, rfl⟩ := List.mem_map.1 hx; simp
      · split at hx
        · cases hx
        · rw [List.mem_cons] at hx
          rcases hx with rfl | hx
          · simp
          · split at hx
            · cases hx
            · rw [List.mem_append] at hx
              rcases hx with hx | hx
              · obtain ⟨q, hq, rfl⟩ := List.mem_map.1 hx; simp
              · split at hx
                · cases hx
                · simp only [List.mem_singleton] at hx; rw [hx]; simp
    · simp only [List.mem_singleton] at hx; rw [hx]; simp
    · rw [List.mem_cons] at hx
      rcases hx with rfl | hx
      · simp
      · split at hx
        · cases hx
        · simp only [List.mem_singleton] at hx; rw [hx]; simp
  · cases hx

/-- A failing `remove` of a key that is not in the map has not changed anything. -/
theorem removeErr_absent (hid : 1 ≤ id) {key : K} {p : Pager K V} {n : Nat} {t : BT K V n}
    (h : HoldsG g δ ld id p t) (hf : SL.find key t.toL = none) : removeErr p key = [(.read, p)] := by
  obtain ⟨lp, es, x, path, h1, h2, h3, h4, h5⟩ := search_sub hid h.rep h.ok (entIn_none key)
  have hs := h1 (p.disk.pages.length + 1) [] h.fuel
  rw [← h.root, List.append_nil] at hs
  have hsr : search p key = some (lp, .leaf (encLeaf ld es x), path) := hs
  have hne : ∀ a ∈ es, a.1 ≠ key := by
    rintro ⟨a, v⟩ ha rfl
    rw [h2, SL.find_of_mem h3 ha] at hf
    cases hf
  rw [removeErr, hsr]
  simp only [remove_encLeaf_absent hne]
  cases path with
  | nil => simp [removeLeafErr]
  | cons e path =>
    have := h5 (Or.inl (by simp))
    obtain ⟨pp, pn, i⟩ := e
    rw [removeLeafErr]
    simp only [len_encLeaf, h.wf.ldeg]
    rw [if_neg (by omega)]
    rfl

omit [LinearOrder K] in
theorem allocErr_first (p : Pager K V) (n : Node K V) :
    ∃ y ∈ p.allocErr n, y.disk = p.disk ∧ y.md.root = p.md.root ∧ y.md.leafDeg = p.md.leafDeg := by
  rw [Pager.allocErr]
  split
  · exact ⟨_, List.mem_cons_self, rfl, rfl, rfl⟩
  · exact ⟨_, List.mem_cons_self, rfl, rfl, rfl⟩

theorem insertUpErr_first {p p' : Pager K V} {page} {st : Stack K} {x : K × Nat} (e : insertUp p page st (some x) = some p') :
    ∃ y ∈ insertUpErr p page st (some x), y.disk = p.disk ∧ y.md.root = p.md.root ∧ y.md.leafDeg = p.md.leafDeg := by
  obtain ⟨k, q⟩ := x
  cases st with
  | nil =>
    rw [insertUp] at e
    rw [insertUpErr]
    simp only at e ⊢
    split at e
    · rename_i a b c d f hk hp
      rw [hk, hp]
      simp only
      obtain ⟨y, hy, h⟩ := allocErr_first p (.internal ⟨1, some k :: b, page :: q :: f⟩)
      exact ⟨y, List.mem_append_left _ hy, h⟩
    · cases e
  | cons s st =>
    obtain ⟨pp, n, i⟩ := s
    rw [insertUp] at e
    rw [insertUpErr]
    cases hn : n.insert k q with
    | none => rw [hn] at e; cases e
    | some r =>
      obtain ⟨n', c⟩ := r
      cases c with
      | none => exact ⟨p, List.mem_cons_self, rfl, rfl, rfl⟩
      | some c =>
        obtain ⟨k2, s⟩ := c
        obtain ⟨y, hy, h⟩ := allocErr_first p (.internal s)
        exact ⟨y, List.mem_append_left _ hy, h⟩

theorem get_of_disk {q p : Pager K V} (h1 : q.disk.pages = p.disk.pages) (h2 : q.md.root = p.md.root) (k : K) : get q k = get p k := by
  rw [Bp.get, Bp.get, search, search, searchNode_congr h1, h1, h2]

/-- The first page that `remove` writes when a leaf gets too small, and the failure right after it. -/
theorem removeLeafErr_first {p p' : Pager K V} {page} {n : LNode K V} {found pp pn i} {st : Stack K}
    (hun : n.len < (p.md.leafDeg + 1) / 2) (e : removeLeaf p page n found ((pp, pn, i) :: st) = some p') :
    ∃ y, (Fault.torn, y) ∈ removeLeafErr p page n found ((pp, pn, i) :: st) ∧ (writes p p').head? = some y.disk ∧
      y.md.root = p.md.root ∧ y.disk.hdr = p.disk.hdr := by
  have hmerge : ∀ {gone kept : Nat} {n : LNode K V} {j} {p1 : Pager K V}, p.deallocate gone = some p1 → Ext p1 p' →
      ∃ y, (Fault.torn, y) ∈ mergeErr p gone kept n pp pn j st ∧ (writes p p').head? = some y.disk ∧ y.md.root = p.md.root ∧
        y.disk.hdr = p.disk.hdr := by
    intro gone kept n j p1 hd he
    obtain ⟨pw, hw, hext⟩ := deallocate_some hd
    have hq := writeNode_some hw
    have hh := head_writes hw (hext.trans he)
    refine ⟨{ pw with md := { pw.md with free := some gone } }, ?_, hh, by rw [hq]; rfl, by rw [hq]; rfl⟩
    rw [mergeErr, List.cons_append]
    refine List.mem_cons_of_mem _ (List.mem_append_left _ ?_)
    exact List.mem_map.2 ⟨_, by rw [Pager.deallocErr, hw]; exact List.mem_cons_self, rfl⟩
  have hborrow : ∀ {i1 i2 i3 : Nat} {a1 a2 a3 : Node K V} {pw : Pager K V}, p.writeNode i1 a1 = some pw → Ext pw p' →
      ∃ y, (Fault.torn, y) ∈ borrowErr p i1 a1 i2 a2 i3 a3 ∧ (writes p p').head? = some y.disk ∧ y.md.root = p.md.root ∧
        y.disk.hdr = p.disk.hdr := by
    intro i1 i2 i3 a1 a2 a3 pw hw he
    have hq := writeNode_some hw
    refine ⟨pw, ?_, head_writes hw he, by rw [hq]; rfl, by rw [hq]; rfl⟩
    rw [borrowErr, List.cons_append]
    refine List.mem_cons_of_mem _ (List.mem_append_left _ (List.mem_map.2 ⟨pw, ?_, rfl⟩))
    rw [write3, hw]
    simp only
    split <;> simp
  rw [removeLeaf, if_pos hun] at e
  rw [removeLeafErr, if_pos hun]
  simp only at e ⊢
  cases hsp : pn.ptrs[siblingIndex i]? with
  | none => rw [hsp] at e; cases e
  | some sp =>
  rw [hsp] at e
  simp only at e ⊢
  split at e
  · rename_i sn hsn
    rw [hsn]
    simp only
    by_cases hm : sn.len = (p.md.leafDeg + 1) / 2
    · rw [if_pos hm] at e
      rw [if_pos hm]
      by_cases hsi : siblingIndex i = i + 1
      · rw [if_pos hsi] at e
        rw [if_pos hsi]
        split at e
        · rename_i n1 p1 hn1 hd1
          rw [hn1]
          simp only
          split at e
          · rename_i p2 _ _ _ hw2 _
            obtain ⟨y, hy, h⟩ := hmerge (kept := page) (n := n1) (j := i) hd1 ((ext_writeNode hw2).trans ((ext_setLen _ _).trans (ext_removeUp e)))
            exact ⟨y, List.mem_cons_of_mem _ hy, h⟩
          · cases e
        · cases e
      · rw [if_neg hsi] at e
        rw [if_neg hsi]
        split at e
        · rename_i n1 p1 hn1 hd1
          rw [hn1]
          simp only
          split at e
          · rename_i p2 _ _ _ hw2 _
            obtain ⟨y, hy, h⟩ := hmerge (kept := sp) (n := n1) (j := siblingIndex i) hd1
              ((ext_writeNode hw2).trans ((ext_setLen _ _).trans (ext_removeUp e)))
            exact ⟨y, List.mem_cons_of_mem _ hy, h⟩
          · cases e
        · cases e
    · rw [if_neg hm] at e
      rw [if_neg hm]
      by_cases hsi : siblingIndex i = i + 1
      · rw [if_pos hsi] at e
        rw [if_pos hsi]
        split at e
        · cases e
        · rename_i sn1 re hre
          rw [hre]
          simp only
          split at e
          · rename_i ne hne
            rw [hne]
            simp only
            split at e
            · rename_i ks n1 _ hks hn1
              rw [hks, hn1]
              simp only
              split at e
              · cases e
              · rename_i pw hw
                split at e
                · cases e
                · rename_i p2 hw2
                  split at e
                  · cases e
                  · rename_i p3 hw3
                    cases e
                    obtain ⟨y, hy, h⟩ := hborrow (i2 := sp) (a2 := .leaf sn1) (i3 := page) (a3 := .leaf n1) hw
                      (((ext_writeNode hw2).trans (ext_writeNode hw3)).trans (ext_setLen _ _))
                    exact ⟨y, List.mem_cons_of_mem _ hy, h⟩
            · cases e
          · cases e
      · rw [if_neg hsi] at e
        rw [if_neg hsi]
        split at e
        · cases e
        · rename_i sn1 re hre
          rw [hre]
          simp only
          split at e
          · rename_i ks n1 _ hks hn1
            rw [hks, hn1]
            simp only
            split at e
            · cases e
            · rename_i pw hw
              split at e
              · cases e
              · rename_i p2 hw2
                split at e
                · cases e
                · rename_i p3 hw3
                  cases e
                  obtain ⟨y, hy, h⟩ := hborrow (i2 := sp) (a2 := .leaf sn1) (i3 := page) (a3 := .leaf n1) hw
                    (((ext_writeNode hw2).trans (ext_writeNode hw3)).trans (ext_setLen _ _))
                  exact ⟨y, List.mem_cons_of_mem _ hy, h⟩
          · cases e
  · cases e

/-- Every page of a tree is the root of a part of it. -/
theorem page_sub {d : Disk K V} {i : Nat} : ∀ {n : Nat} {t : BT K V n} {lo hi nxt}, RepT ld id d t nxt → Ok ld id t lo hi → i ∈ t.pages →
    ∃ m, ∃ u : BT K V m, ∃ lo' hi' nxt', m ≤ n ∧ RepT ld id d u nxt' ∧ Ok ld id u lo' hi' ∧ u.pg = i ∧ ∀ x ∈ u.leaves, x ∈ t.leaves := by
  intro n
  induction n with
  | zero =>
    intro t lo hi nxt hr hok hi
    obtain ⟨pg, es, rfl⟩ := t.leaf_cases
    simp only [BT.pages_leaf, List.mem_singleton] at hi
    exact ⟨0, _, _, _, _, le_refl _, hr, hok, hi ▸ rfl, fun _ h => h⟩
  | succ n ih =>
    intro t lo hi nxt hr hok hi
    obtain ⟨pg, ks, cs, rfl⟩ := t.node_cases
    rw [BT.pages_node, List.mem_cons] at hi
    rcases hi with rfl | hi
    · exact ⟨n + 1, _, _, _, _, le_refl _, hr, hok, rfl, fun _ h => h⟩
    · obtain ⟨c, hc, hic⟩ := List.mem_flatMap.1 hi
      obtain ⟨cl, cr, rfl⟩ := List.append_of_mem hc
      obtain ⟨-, ho⟩ := ok_node.1 hok
      obtain ⟨lo1, hi1, hc1⟩ := ordL_all ho c (by simp)
      have hlk := linked_ctx.1 (below_node.1 hr.2)
      obtain ⟨m, u, lo', hi', nxt', h1, h2, h3, h4, h5⟩ := ih hlk.2.1 hc1.2 hic
      exact ⟨m, u, lo', hi', nxt', by omega, h2, h3, h4, fun x hx => by
        have := h5 x hx
        simp only [BT.leaves_node, List.mem_flatMap]
        exact ⟨c, by simp, this⟩⟩

/-- A tree without entries is one leaf. -/
theorem empty_leaf (hld : 1 ≤ ld) {n : Nat} {t : BT K V n} {lo hi} (hok : Ok ld id t lo hi) (h : t.toL = []) : ∃ pg, n = 0 ∧ t.pages = [pg] ∧
    t.leaves = [(pg, [])] ∧ t.pg = pg := by
  cases n with
  | zero =>
    obtain ⟨pg, es, rfl⟩ := t.leaf_cases
    rw [BT.toL_leaf] at h
    subst h
    exact ⟨pg, rfl, rfl, rfl, rfl⟩
  | succ n =>
    exfalso
    have h0 := leaves_first hok none
    cases hl : t.leaves with
    | nil => rw [hl] at h0; cases h0
    | cons x l =>
      have h1 := leaves_half hok (Or.inr (by omega)) x (by rw [hl]; simp)
      rw [← BT.leaves_toL, hl, List.flatMap_cons, List.append_eq_nil_iff] at h
      rw [h.1] at h1
      simp at h1
      omega

/-- **C73 (exact).**  On a map reached by a covered history of calls without failures, a call is safe from every failure
(the map left behind cannot be told, by looking at it, from the map before the call or from the map after it) exactly
if the call only looks, or is an `insert` of a key that is in the map or whose leaf has room, or a `remove` of a key
that is not in the map, or a `clear` of an empty map whose tree is the first page of the file. -/
theorem C73_exact (hld : 1 ≤ ld) (hid : 3 ≤ id) {p p' : Pager K V} (hp : Reached ld id p) {op : MapOp K V} {r : MapRes K V}
    (hov : ∀ k v, op = .insert k v → ¬ Harmful ld p.disk k) (e : step p op = some (p', r)) :
    (∀ x ∈ stepErr p op, SameAnswers x.2 p ∨ SameAnswers x.2 p') ↔ Unharmed p op := by
  obtain ⟨l, m, t, h, rfl⟩ := reached_rel hld hid hp
  have hrel : RelG true 0 ld id p t.toL := ⟨m, t, h, rfl⟩
  have hget : ∀ k, get p k = some (SL.abs t.toL k) := fun k => get_holds hld (by omega) h
  have hsort := ok_sorted h.ok
  have hlook : ∀ x ∈ [(Fault.read, p)], SameAnswers x.2 p ∨ SameAnswers x.2 p' := by
    intro x hx
    simp only [List.mem_singleton] at hx
    subst hx
    exact .inl fun _ _ => rfl
  cases op with
  | get k | containsKey k | min | max | iter => exact ⟨fun _ => trivial, fun _ => hlook⟩
  | len | isEmpty => exact ⟨fun _ => trivial, fun _ x hx => by cases hx⟩
  | getMut k f => simp [step] at e
  | floor k => simp [step] at e
  | ceil k => simp [step] at e
  | insert k v =>
    have hh := hov k v rfl
    obtain ⟨q, m', t', e', h', ht⟩ := insert_holds (v := v) hld hid h (.inr (safe_of_not_harmful hh))
    simp only [step, e', Option.map_some, Option.some.injEq, Prod.mk.injEq] at e
    obtain ⟨rfl, -⟩ := e
    have hrel' : RelG true 0 ld id q (SL.ins k v t.toL) := ⟨m', t', h', ht⟩
    constructor
    · intro hall
      by_contra hc
      simp only [Unharmed, not_or, not_not, hget, Option.some.injEq] at hc
      obtain ⟨hnone, hroom⟩ := hc
      have hf : SL.find k t.toL = none := by
        rw [SL.abs, Option.map_eq_none_iff] at hnone
        exact hnone
      rw [hf] at e'
      obtain ⟨lp, es, x, path, h1, h2, h3, h4, h5⟩ := search_sub (by omega) h.rep h.ok (entIn_none k)
      have hs := h1 (p.disk.pages.length + 1) [] h.fuel
      rw [← h.root, List.append_nil] at hs
      have hs : search p k = some (lp, .leaf (encLeaf ld es x), path) := hs
      have hfull : ¬ (encLeaf ld es x).len < (encLeaf ld es x).entries.length := fun hlt => hroom ⟨_, _, _, hs, hlt⟩
      obtain ⟨d, hd, ⟨⟨l, hl, hkl⟩, y, hy, hg⟩, p2, s, qq, hleaf, rfl, hsync⟩ := insert_split_crash hld hid h hf hs hfull e'
      have hmem : ∃ y, (Fault.torn, y) ∈ insertErr p k v ∧ y.disk = p2.disk ∧ y.md.root = p2.md.root ∧ y.md.leafDeg = p2.md.leafDeg := by
        rw [insertErr, hs]
        rw [insert, hs] at e'
        simp only [hleaf] at e'
        simp only
        rw [insertLeaf] at hleaf
        split at hleaf
        · cases hleaf
        · rename_i n' k2 s2 hn'
          simp only [hn']
          split at hleaf
          · cases hleaf
          · rename_i p1 q1 ha
            simp only [Option.map_eq_some_iff, Prod.mk.injEq, Option.some.injEq] at hleaf
            obtain ⟨p2', hw, rfl, ⟨rfl, rfl⟩, -⟩ := hleaf
            simp only [ha, hw]
            split at e'
            · cases e'
            · rename_i p3 hu
              obtain ⟨y, hy, h⟩ := insertUpErr_first hu
              exact ⟨y, List.mem_cons_of_mem _ (List.mem_append_right _ (List.mem_cons_of_mem _ (List.mem_append_left _
                (List.mem_map.2 ⟨y, hy, rfl⟩)))), h⟩
        · simp only [Option.map_eq_some_iff, Prod.mk.injEq] at hleaf
          obtain ⟨_, _, _, h0, _⟩ := hleaf
          cases h0
        · simp only [Option.map_eq_some_iff, Prod.mk.injEq] at hleaf
          obtain ⟨_, _, _, h0, _⟩ := hleaf
          cases h0
      obtain ⟨z, hz, hz1, hz2, hz3⟩ := hmem
      have hsame : SameContents p2.disk z := sameContents_of (by rw [hz1]) (by rw [hz2, hsync]) (by rw [hz3, hsync])
      rcases hall _ hz with hc | hc
      · have := hc.iter
        rw [← hsame.iter, hl, toList_holds hld h] at this
        cases this
        exact SL.find_eq_none.1 hf _ hkl rfl
      · have := hc.get y
        rw [← hsame.get, hg, get_holds hld (by omega) h', ht, SL.abs] at this
        cases hfx : SL.find y (SL.ins k v t.toL) with
        | none => exact hy hfx
        | some w => rw [hfx] at this; simp at this
    · intro hun x hx
      obtain ⟨a, b, -⟩ := insertErr_left hld hid hrel hh x hx
      obtain ⟨k1, k2⟩ := insertErr_kind x hx
      cases hx1 : x.1 with
      | read | alloc | write => exact .inl (same_rel hld hid (a (by simp [hx1])) hrel)
      | len => exact .inr (same_rel hld hid (b hx1) hrel')
      | early => exact absurd hx1 k1
      | torn =>
        exfalso
        obtain ⟨page, n, st, n', k2, s, hs, hn⟩ := k2 hx1
        rcases hun with hne | ⟨page', n2, st', hs', hlt⟩
        · have ho : SL.find k t.toL ≠ none := by
            intro h0
            rw [hget, SL.abs, h0] at hne
            exact hne rfl
          rw [insert, hs] at e'
          simp only [insertLeaf, hn] at e'
          cases ha : p.allocate (.leaf s) with
          | none => simp only [ha] at e'; cases e'
          | some y =>
            simp only [ha] at e'
            cases hw : y.1.writeNode page (.leaf { n' with next := some y.2 }) with
            | none => simp only [hw, Option.map_none] at e'; cases e'
            | some z =>
              simp only [hw, Option.map_some] at e'
              split at e'
              · cases e'
              · simp only [Option.some.injEq, Prod.mk.injEq] at e'
                exact ho e'.2.symm
        · rw [hs] at hs'
          cases hs'
          rw [LNode.insert] at hn
          simp only at hn
          rw [if_pos hlt] at hn
          split at hn <;> cases hn
  | remove k =>
    cases hf : SL.find k t.toL with
    | none =>
      refine ⟨fun _ => ?_, fun _ => ?_⟩
      · rw [Unharmed, hget, SL.abs, hf]; rfl
      · rw [stepErr, removeErr_absent (by omega) h hf]; exact hlook
    | some o =>
      obtain ⟨q, m', t', e', h', ht⟩ := remove_present hld hid h hf (.inl rfl)
      simp only [step, e', Option.map_some, Option.some.injEq, Prod.mk.injEq] at e
      obtain ⟨rfl, -⟩ := e
      refine ⟨fun hall => ?_, fun h0 => ?_⟩
      swap
      · rw [Unharmed, hget, SL.abs, hf] at h0; simp at h0
      exfalso
      have hpos : 0 < p.md.len := by
        rw [h.len]
        exact List.length_pos_of_mem (SL.find_some_mem hf)
      have hgk : get q k = some none := by
        rw [get_holds hld (by omega) h', ht, SL.abs, SL.find_del, if_pos rfl]; rfl
      have hsimple : (Fault.early, p.setLen (p.md.len - 1)) ∈ removeErr p k → False := by
        intro hm
        rcases hall _ hm with hc | hc
        · have := hc.len
          have : p.md.len - 1 = p.md.len := this
          omega
        · have h1 := hc.get k
          have h2 : get (p.setLen (p.md.len - 1)) k = get p k :=
            get_of_disk (q := p.setLen (p.md.len - 1)) (p := p) rfl rfl k
          rw [hgk, h2, hget, SL.abs, hf] at h1
          simp at h1
      obtain ⟨lp, es, x, path, h1, h2, h3, h4, h5⟩ := search_sub (by omega) h.rep h.ok (entIn_none k)
      have hs := h1 (p.disk.pages.length + 1) [] h.fuel
      rw [← h.root, List.append_nil] at hs
      have hs : search p k = some (lp, .leaf (encLeaf ld es x), path) := hs
      have hmem : ∀ y, y ∈ removeErr p k → SameAnswers y.2 p ∨ SameAnswers y.2 q := hall
      have e0 := e'
      rw [remove, hs] at e'
      rw [removeErr, hs] at hsimple hmem
      simp only at e' hsimple hmem
      cases hr : (encLeaf ld es x).remove k with
      | none => rw [hr] at e'; cases e'
      | some y =>
        obtain ⟨n', o'⟩ := y
        rw [hr] at e' hsimple hmem
        simp only [Option.map_eq_some_iff, Prod.mk.injEq] at e' hsimple hmem
        obtain ⟨q', e', rfl, rfl⟩ := e'
        simp only [Option.isSome_some] at e' hsimple hmem
        cases path with
        | nil => exact hsimple (List.mem_cons_of_mem _ (by simp [removeLeafErr, simpleErr]))
        | cons s st =>
          obtain ⟨pp, pn, i⟩ := s
          by_cases hun : n'.len < (p.md.leafDeg + 1) / 2
          · obtain ⟨y, hy, hy1, hy2, hy3⟩ := removeLeafErr_first hun e'
            have hlen : (encLeaf ld es x).len ≤ (ld + 1) / 2 := by
              rw [h.wf.ldeg] at hun
              have : (encLeaf ld es x).len ≤ n'.len + 1 := by
                rw [LNode.remove] at hr
                simp only at hr
                split at hr
                · split at hr
                  · cases hr
                  · cases hr; simp only; omega
                · cases hr
              omega
            obtain ⟨d, hd, z, hz1, hz2⟩ := remove_under_crash hld hid h h' ht hs (by simp) hlen e0
            rw [hy1] at hd
            cases hd
            have hg : get (Pager.openFile y.disk) z = get y z := by
              refine get_of_disk (q := Pager.openFile y.disk) (p := y) rfl ?_ z
              show y.disk.hdr.root = _
              rw [hy3, hy2, h.wf.hdr]
            rw [hg] at hz1 hz2
            rcases hmem _ (List.mem_cons_of_mem _ hy) with hc | hc
            · exact hz1 (hc.get z)
            · exact hz2 (hc.get z)
          · refine hsimple (List.mem_cons_of_mem _ ?_)
            rw [removeLeafErr, if_neg hun]
            simp [simpleErr]
  | clear =>
    obtain ⟨q, e', h'⟩ := clear_holds h
    simp only [step, e', Option.map_some, Option.some.injEq, Prod.mk.injEq] at e
    obtain ⟨rfl, -⟩ := e
    have hpos : 0 < p.disk.pages.length := by
      have := h.wf.lt t.pg_mem
      omega
    let q1 : Pager K V := { p with md := { p.md with pages := 1, len := 0, root := 0, free := none } }
    constructor
    · intro hall
      have hq1 : SameAnswers q1 p ∨ SameAnswers q1 q := hall (.torn, q1) (List.mem_map.2 ⟨q1, List.mem_cons_self, rfl⟩)
      have h0 : (q1.md.len = p.md.len ∧ Bp.min q1 = Bp.min p) ∨ Bp.min q1 = some none := by
        rcases hq1 with hc | hc
        · exact .inl ⟨hc.len, hc.min⟩
        · right; rw [hc.min, min_holds hld h']; rfl
      have hmin : Bp.min q1 = some none := by
        rcases h0 with ⟨h1, h2⟩ | h1
        · rw [h2, min_holds hld h]
          have : t.toL.length = 0 := by rw [← h.len]; exact h1.symm
          rw [List.eq_nil_of_length_eq_zero this]; rfl
        · exact h1
      -- page 0 is free or part of the tree
      obtain ⟨fl, hfree, hperm⟩ := h.wf.free
      have hm0' : 0 ∈ t.pages ++ fl := by
        have : 0 ∈ List.range p.md.pages := by
          rw [List.mem_range, ← h.wf.pages]; exact hpos
        exact hperm.mem_iff.2 this
      rcases List.mem_append.1 hm0' with hm0 | hm0
      · obtain ⟨j, u, lo', hi', nxt', hj, hu1, hu2, hu3, hu4⟩ := page_sub h.rep h.ok hm0
        obtain ⟨pg, es, l, hu5, hu6⟩ := leftmost_sub (p := p) hu1 hu2
        have hfu := hu6 (p.disk.pages.length + 1) (by have := h.fuel; omega)
        rw [hu3] at hfu
        have hfu : leftmost q1 (q1.disk.pages.length + 1) q1.md.root = some (encLeaf ld es (nextLeaf l nxt')) := by
          rw [leftmost_congr (p := q1) (q := p) rfl]; exact hfu
        rw [Bp.min, hfu] at hmin
        have hes : es = [] := by
          cases es with
          | nil => rfl
          | cons a es => simp [encLeaf, pad] at hmin
        subst hes
        have hm : m = 0 := by
          by_contra hm
          have := leaves_half h.ok (Or.inr hm) (pg, []) (hu4 _ (by rw [hu5]; simp))
          simp at this; omega
        subst hm
        obtain ⟨pg', es', rfl⟩ := t.leaf_cases
        have := hu4 (pg, []) (by rw [hu5]; simp)
        simp only [BT.leaves_leaf, List.mem_singleton, Prod.mk.injEq] at this
        obtain ⟨rfl, rfl⟩ := this
        refine ⟨h.len, ?_⟩
        rw [h.root]
        simp only [BT.pages_leaf, List.mem_singleton] at hm0
        exact hm0.symm
      · exfalso
        have hfp : ∃ nx, AtPage p.disk 0 (.free nx) := by
          clear hperm hm0'
          generalize p.md.free = o at hfree
          induction fl generalizing o with
          | nil => cases hm0
          | cons f fl ih =>
            obtain ⟨-, nx, h5, h6⟩ := hfree
            rcases List.mem_cons.1 hm0 with rfl | hm
            · exact ⟨nx, h5⟩
            · exact ih hm _ h6
        obtain ⟨nx, hnx⟩ := hfp
        have hnx : AtPage q1.disk 0 (.free nx) := hnx
        have : leftmost q1 (q1.disk.pages.length + 1) q1.md.root = none := by
          show leftmost q1 _ 0 = none
          rw [leftmost, getPage_eq hnx]
        rw [Bp.min, this] at hmin
        cases hmin
    · rintro ⟨hlen, hroot⟩ x hx
      left
      have hnil : t.toL = [] := List.eq_nil_of_length_eq_zero (by rw [← h.len]; exact hlen)
      obtain ⟨pg, rfl, -, -, -⟩ := empty_leaf hld h.ok hnil
      obtain ⟨pg', es, rfl⟩ := t.leaf_cases
      rw [BT.toL_leaf] at hnil
      subst hnil
      have hat : AtPage p.disk 0 (.leaf (encLeaf ld [] none)) := by
        have h1 := h.rep.1
        have h2 := h.root
        rw [BT.pg_leaf] at h1 h2
        rw [← h2, hroot] at h1
        exact h1
      have hat' : (p.disk.pages.take 1 ++ List.replicate (1 - p.disk.pages.length) none)[0]? =
          some (some (Node.leaf (encLeaf ld [] none))) := by
        rw [List.getElem?_append_left (by simp; omega), List.getElem?_take]
        exact hat
      obtain ⟨y, hy, rfl⟩ := List.mem_map.1 hx
      simp only [Pager.clearErr, List.mem_cons, List.not_mem_nil, or_false] at hy
      rcases hy with rfl | rfl | rfl
      · exact same_root (es := []) rfl hroot h.wf.ldeg h.wf.ldeg (by simp) hlen.symm hat hat
      · exact same_root (es := []) rfl hroot h.wf.ldeg h.wf.ldeg (by simp) hlen.symm hat' hat
      · exact same_root (es := []) rfl hroot h.wf.ldeg h.wf.ldeg (by simp) hlen.symm hat' hat

/-! ### Failures that do harm, and non-vacuity -/

/-- **C73 does not hold without exceptions.**  Degrees 2 and 3, entries 1, 2 and 3.  An `insert` of 0 splits the leaf
`[1, 2]`; if the parent cannot be written, the key 2 is not found any more, although iterating still lists it.  A
`remove` of 3 that borrows an entry from the sibling makes the key 2 disappear if the second write fails.  A `remove`
of 1 that fails leaves all three entries but a length of 2.  After a `clear` that could not cut the file, the map says
that it is empty but iterating lists all entries, while `get` of 3 returns nothing. -/
theorem C73_violated :
    (∃ q, (Fault.torn, q) ∈ stepErr three (.insert 0 0) ∧ get q 2 = some none ∧ toList q = some [(0, 0), (1, 1), (2, 2), (3, 3)]) ∧
    (∃ q, (Fault.torn, q) ∈ stepErr three (.remove 3) ∧ get q 2 = some none ∧ toList q = some [(1, 1), (3, 3)]) ∧
    (∃ q, (Fault.early, q) ∈ stepErr three (.remove 1) ∧ toList q = some [(1, 1), (2, 2), (3, 3)] ∧ q.md.len = 2) ∧
    ∃ q, (Fault.torn, q) ∈ stepErr three .clear ∧ toList q = some [(1, 1), (2, 2), (3, 3)] ∧ get q 3 = some none ∧ q.md.len = 0 := by
  have key : ∀ {op : MapOp Nat Nat} {f : Fault} {P : Pager Nat Nat → Prop} [DecidablePred P],
      (stepErr three op).any (fun x => decide (x.1 = f) && decide (P x.2)) = true → ∃ q, (f, q) ∈ stepErr three op ∧ P q := by
    intro op f P _ h
    obtain ⟨⟨f', q⟩, hm, hx⟩ := List.any_eq_true.1 h
    simp only [Bool.and_eq_true, decide_eq_true_eq] at hx
    obtain ⟨rfl, hx⟩ := hx
    exact ⟨q, hm, hx⟩
  exact ⟨key (P := fun q => get q 2 = some none ∧ toList q = some [(0, 0), (1, 1), (2, 2), (3, 3)]) (by decide +kernel),
    key (P := fun q => get q 2 = some none ∧ toList q = some [(1, 1), (3, 3)]) (by decide +kernel),
    key (P := fun q => toList q = some [(1, 1), (2, 2), (3, 3)] ∧ q.md.len = 2) (by decide +kernel),
    key (P := fun q => toList q = some [(1, 1), (2, 2), (3, 3)] ∧ get q 3 = some none ∧ q.md.len = 0) (by decide +kernel)⟩

/-- The states after an event. -/
def nextStates (p : Pager K V) : Event K V → List (Pager K V)
  | .done op _ => ((step p op).map Prod.fst).toList
  | .failed op f => ((stepErr p op).filter fun x => x.1 = f).map Prod.snd

/-- A check of `Fine`. -/
def fineB (ld : Nat) (p : Pager Nat Nat) : MapOp Nat Nat → Bool
  | .insert k _ => !harmfulB ld p.disk k
  | .remove k => decide (get p k = some none) || decide (0 < p.md.len)
  | .getMut _ _ | .floor _ | .ceil _ => false
  | _ => true

/-- A check of `Covered`. -/
def coveredB (ld : Nat) (p : Pager Nat Nat) : List (Event Nat Nat) → Bool
  | [] => true
  | e :: es => fineB ld p e.call && (nextStates p e).all fun q => coveredB ld q es

/-- No failure leaves the tree in between. -/
def noTorn : Event K V → Bool
  | .failed _ .torn => false
  | _ => true

theorem covered_of_check {p : Pager Nat Nat} {es} (h0 : es.all noTorn = true) (h : coveredB ld p es = true) : Covered ld p es := by
  refine fun pre e post he => ⟨?_, ?_⟩
  · rintro op rfl
    have := List.all_eq_true.1 h0 (.failed op .torn) (by rw [he]; simp)
    cases this
  · clear h0
    induction es generalizing p pre with
    | nil => simp at he
    | cons a es ih =>
      rw [coveredB, Bool.and_eq_true] at h
      obtain ⟨h2, h3⟩ := h
      intro q hq
      cases pre with
      | nil =>
        simp only [List.nil_append, List.cons.injEq] at he
        obtain ⟨rfl, rfl⟩ := he
        cases hq
        cases hc : a.call with
        | insert k v =>
          rw [hc] at h2
          refine ⟨trivial, ?_, by simp⟩
          rintro k' v' h hk
          cases h
          simp [fineB, harmfulB_of hk] at h2
        | remove k =>
          rw [hc] at h2
          refine ⟨trivial, by simp, ?_⟩
          rintro k' h hk
          cases h
          simpa [fineB, hk] using h2
        | getMut | floor | ceil => rw [hc] at h2; cases h2
        | get | containsKey | min | max | len | isEmpty | iter | clear => exact ⟨trivial, by simp, by simp⟩
      | cons x pre =>
        simp only [List.cons_append, List.cons.injEq] at he
        obtain ⟨rfl, he⟩ := he
        have hall := List.all_eq_true.1 h3
        cases hq with
        | done hs hr => exact ih (hall _ (show _ ∈ ((step p _).map Prod.fst).toList by rw [hs]; exact List.mem_cons_self)) pre he q hr
        | failed hs hr =>
          exact ih (hall _ (List.mem_map.2 ⟨_, List.mem_filter.2 ⟨hs, by simp⟩, rfl⟩)) pre he q hr

/-- Make the calls; those with a fault fail in the first state with this fault. -/
def trouble (p : Pager Nat Nat) : List (MapOp Nat Nat × Option Fault) → Option (Pager Nat Nat × List (Event Nat Nat))
  | [] => some (p, [])
  | (op, none) :: ops =>
    match step p op with
    | none => none
    | some (q, r) => (trouble q ops).map fun x => (x.1, .done op r :: x.2)
  | (op, some f) :: ops =>
    match (stepErr p op).find? fun x => x.1 = f with
    | none => none
    | some (_, q) => (trouble q ops).map fun x => (x.1, .failed op f :: x.2)

theorem runs_of_trouble {p p' : Pager Nat Nat} {ops es} (h : trouble p ops = some (p', es)) : Runs p es p' := by
  induction ops generalizing p es with
  | nil => cases h; exact .nil _
  | cons o ops ih =>
    obtain ⟨op, f⟩ := o
    cases f with
    | none =>
      rw [trouble] at h
      split at h
      · cases h
      · rename_i q r hs
        obtain ⟨⟨a, b⟩, h1, h2⟩ := Option.map_eq_some_iff.1 h
        cases h2
        exact .done hs (ih h1)
    | some f =>
      rw [trouble] at h
      split at h
      · cases h
      · rename_i f' q hs
        obtain ⟨⟨a, b⟩, h1, h2⟩ := Option.map_eq_some_iff.1 h
        cases h2
        have hf : f' = f := by simpa using List.find?_some hs
        subst hf
        exact .failed (List.mem_of_find?_eq_some hs) (ih h1)

/-- A history with every kind of failure that `C73_partial` covers. -/
def troubled : List (MapOp Nat Nat × Option Fault) :=
  [(.insert 1 1, none), (.insert 2 2, none), (.insert 3 3, some .alloc), (.insert 3 3, some .write), (.insert 3 3, none),
    (.get 1, some .read), (.insert 4 4, some .len), (.remove 1, some .early), (.remove 2, none), (.insert 9 9, none)]

/-- **C73, trying again.**  A `remove` of the only entry of a map that fails leaves the entry in the map and a reported
length of 0.  Trying the same `remove` again is the call that `Fine` excludes: it subtracts 1 from the length 0
(map.rs:363-367), a panic in a debug build and a length of 2^64 - 1 in a release build. -/
theorem C73_retry_violated : ∃ (q : Pager Nat Nat) (r : MapRes Nat Nat),
    Runs (new 2 3) [.done (.insert 1 1) r, .failed (.remove 1) .early] q ∧
      get q 1 = some (some 1) ∧ toList q = some [(1, 1)] ∧ q.md.len = 0 ∧ ¬ Fine 2 q (.remove 1) := by
  have h : (trouble (new 2 3) [(.insert 1 1, none), (.remove 1, some .early)]).any (fun x =>
      decide (get x.1 1 = some (some 1)) && decide (toList x.1 = some [(1, 1)]) && decide (x.1.md.len = 0)) = true := by
    decide +kernel
  rw [trouble] at h
  split at h
  · cases h
  · rename_i q r hs
    rw [trouble] at h
    split at h
    · cases h
    · rename_i f q' hs'
      have hf : f = .early := by simpa using List.find?_some hs'
      subst hf
      simp only [trouble, Option.map_some, Option.any_some, Bool.and_eq_true, decide_eq_true_eq] at h
      obtain ⟨⟨h1, h2⟩, h3⟩ := h
      refine ⟨q', r, .done hs (.failed (List.mem_of_find?_eq_some hs') (.nil _)), h1, h2, h3, fun hn => ?_⟩
      have := hn.2.2 1 rfl (by rw [h1]; simp)
      omega

/-- The hypotheses of `C73_partial` are met by this history.  It ends with the entries 1, 3, 4 and 9 and the length 3. -/
example : ∃ p es, Runs (new 2 3) es p ∧ Covered 2 (new 2 3) es ∧ es.length = 10 ∧
    toList p = some [(1, 1), (3, 3), (4, 4), (9, 9)] ∧ p.md.len = 3 := by
  have h : (trouble (new 2 3) troubled).any (fun x => x.2.all noTorn && coveredB 2 (new 2 3) x.2 && decide (x.2.length = 10) &&
      decide (toList x.1 = some [(1, 1), (3, 3), (4, 4), (9, 9)]) && decide (x.1.md.len = 3)) = true := by decide +kernel
  cases hf : trouble (new 2 3) troubled with
  | none => rw [hf] at h; cases h
  | some x =>
    rw [hf] at h
    simp only [Option.any_some, Bool.and_eq_true, decide_eq_true_eq] at h
    obtain ⟨⟨⟨⟨h1, h2⟩, h3⟩, h4⟩, h5⟩ := h
    exact ⟨x.1, x.2, runs_of_trouble hf, covered_of_check h1 h2, h3, h4, h5⟩

theorem room_iff {p : Pager Nat Nat} {k a b c : Nat} (h : leafOf p k = some (a, b, c)) :
    (∃ page n stack, search p k = some (page, .leaf n, stack) ∧ n.len < n.entries.length) ↔ a < b := by
  rw [leafOf] at h
  obtain ⟨⟨page, nd, st⟩, h1, h2⟩ := Option.bind_eq_some_iff.1 h
  cases nd with
  | leaf n =>
    simp only [Option.some.injEq, Prod.mk.injEq] at h2
    obtain ⟨rfl, rfl, rfl⟩ := h2
    constructor
    · rintro ⟨_, n', _, h3, h4⟩
      rw [h1] at h3
      cases h3
      exact h4
    · intro h4
      exact ⟨_, _, _, h1, h4⟩
  | internal n => cases h2
  | free n => cases h2

/-- Both sides of `C73_exact` occur on a reached state, for inserts, removals and clearing. -/
example : Reached 2 3 three ∧ Reached 2 3 (new 2 3 : Pager Nat Nat) ∧
    Unharmed three (.insert 2 5) ∧ Unharmed three (.insert 4 4) ∧ ¬ Unharmed three (.insert 0 0) ∧
    Unharmed three (.remove 7) ∧ ¬ Unharmed three (.remove 1) ∧ ¬ Unharmed three .clear ∧ Unharmed (new 2 3 : Pager Nat Nat) .clear := by
  refine ⟨three_reached, ⟨[], [], ⟨by simp, fun _ _ _ _ hp => by have := hp.length_le; simp at this⟩, rfl⟩, ?_, ?_, ?_, ?_, ?_, ?_, ?_⟩
  · exact .inl (by decide +kernel)
  · exact .inr ((room_iff (a := 1) (b := 2) (c := 1) (by decide +kernel)).2 (by decide))
  · rintro (h | h)
    · exact h (by decide +kernel)
    · exact absurd ((room_iff (a := 2) (b := 2) (c := 1) (by decide +kernel)).1 h) (by decide)
  · show get three 7 = some none
    decide +kernel
  · show ¬ get three 1 = some none
    decide +kernel
  · rintro ⟨h, -⟩
    exact absurd h (by decide +kernel)
  · exact ⟨rfl, rfl⟩

end Verif.Bp
