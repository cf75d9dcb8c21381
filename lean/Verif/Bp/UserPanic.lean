/-
Panics of the user's `Ord` and `Clone` in calls on a `BpMap`: for every call, the states of the map at the moments at
which keys are compared or cloned.  If the panic is caught the process goes on with the map in that state.

Nodes are read into memory and written back (map.rs), so a panic leaves no node half changed; what it can leave is a
file to which some of the pages of a call have been written.
-/
import Verif.Bp.FaultProps

namespace Verif.Bp

open Verif.Spec

variable {K V : Type} [LinearOrder K]

/-! ### Model -/

/-- map.rs:230-260, the loop of `insert` that goes up the tree: `InternalNode::insert` compares (node.rs:71-72, 88-89) if
the node has a key. -/
def insertUpCmp (p : Pager K V) : Stack K → Option (K × Nat) → List (Pager K V)
  | _, none => []
  | [], _ => []
  | (pp, n, _) :: st, some (k, q) =>
    (if n.len = 0 then [] else [p]) ++
    match n.insert k q with
    | some (n, some (k2, s)) =>
      match p.allocate (.internal s) with
      | none => []
      | some (p, q2) =>
        match p.writeNode pp (.internal n) with
        | none => []
        | some p => insertUpCmp p st (some (k2, q2))
    | _ => []

/-- map.rs:375-461, the loop of `remove` that goes up the tree, after `remove_at` (line 377): the key of the parent is
cloned for a merge (405-407 and 415-417), and `InternalNode::insert` compares (430 and 444) if the node has a key. -/
def removeUpCmp (p : Pager K V) (page : Nat) (n : INode K) : Stack K → List (Pager K V)
  | [] => []
  | (pp, pn, i) :: st =>
    if n.len + 1 < (p.md.intDeg + 1) / 2 then
      let si := siblingIndex i
      match pn.ptrs[si]? with
      | none => []
      | some sp =>
        match p.getPage sp with
        | some (.internal sn) =>
          if sn.len + 1 = (p.md.intDeg + 1) / 2 then
            if si = i + 1 then
              match pn.keys[i]? with
              | some (some pk) =>
                p ::
                match n.merge pk sn, p.deallocate sp with
                | some n, some p =>
                  match p.writeNode page (.internal n), pn.removeAt i true with
                  | some p, some (pn, _, _) => removeUpCmp p pp pn st
                  | _, _ => []
                | _, _ => []
              | _ => []
            else
              match pn.keys[si]? with
              | some (some pk) =>
                p ::
                match sn.merge pk n, p.deallocate page with
                | some sn, some p =>
                  match p.writeNode sp (.internal sn), pn.removeAt si true with
                  | some p, some (pn, _, _) => removeUpCmp p pp pn st
                  | _, _ => []
                | _, _ => []
              | _ => []
          else if n.len = 0 then [] else [p]
        | _ => []
    else []

/-- map.rs:299-371 and then 375-461: the rest of `remove` after the entry has been taken out of the leaf in memory.  When
the leaf takes an entry from its sibling, keys are cloned and compared (345-353) before anything is written. -/
def removeLeafLater (p : Pager K V) (page : Nat) (n : LNode K V) : Stack K → List (Pager K V)
  | [] => []
  | (pp, pn, i) :: st =>
    if n.len < (p.md.leafDeg + 1) / 2 then
      let si := siblingIndex i
      match pn.ptrs[si]? with
      | none => []
      | some sp =>
        match p.getPage sp with
        | some (.leaf sn) =>
          if sn.len = (p.md.leafDeg + 1) / 2 then
            if si = i + 1 then
              match n.merge sn, p.deallocate sp with
              | some n, some p =>
                match p.writeNode page (.leaf n), pn.removeAt i true with
                | some p, some (pn, _, _) => removeUpCmp (p.setLen (p.md.len - 1)) pp pn st
                | _, _ => []
              | _, _ => []
            else
              match sn.merge n, p.deallocate page with
              | some sn, some p =>
                match p.writeNode sp (.leaf sn), pn.removeAt si true with
                | some p, some (pn, _, _) => removeUpCmp (p.setLen (p.md.len - 1)) pp pn st
                | _, _ => []
              | _, _ => []
          else []
        | _ => []
    else []

/-- The states in which a call compares or clones keys after it has written to the file (map.rs:196-264 `insert` and
286-463 `remove`; the other calls write nothing, or compare nothing). -/
def later (p : Pager K V) : MapOp K V → List (Pager K V)
  | .insert k v =>
    match search p k with
    | some (page, .leaf n, st) =>
      match insertLeaf p page n (k, v) with
      | some (p, s, none) => insertUpCmp p st s
      | _ => []
    | _ => []
  | .remove k =>
    match search p k with
    | some (page, .leaf n, st) =>
      match n.remove k with
      | none => []
      | some (n, _) => removeLeafLater p page n st
    | _ => []
  | _ => []

/-- The states in which a call compares or clones keys: those before anything is written, which are `p`, and the
others. -/
def stepCmp (p : Pager K V) : MapOp K V → List (Pager K V)
  | .insert k v => p :: later p (.insert k v)
  | .remove k => p :: later p (.remove k)
  | .get _ | .containsKey _ => [p]
  | _ => []

/-! ### Specification -/

/-- An event of a history: a call that returned a result, or one that was left by a panic of the user's `Ord` or `Clone`
which the caller has caught. -/
inductive PEvent (K V : Type) where
  | done (op : MapOp K V) (r : MapRes K V)
  | unwound (op : MapOp K V)

/-- The events lead from `p` to `p'`. -/
inductive PRuns : Pager K V → List (PEvent K V) → Pager K V → Prop where
  | nil (p) : PRuns p [] p
  | done {p p₁ p₂ op r es} : step p op = some (p₁, r) → PRuns p₁ es p₂ → PRuns p (.done op r :: es) p₂
  | unwound {p p₁ p₂ op es} : p₁ ∈ stepCmp p op → PRuns p₁ es p₂ → PRuns p (.unwound op :: es) p₂

/-- The calls that returned, with their results. -/
def PEvent.returned : List (PEvent K V) → List (MapOp K V × MapRes K V)
  | [] => []
  | .done op r :: es => (op, r) :: PEvent.returned es
  | .unwound _ :: es => PEvent.returned es

/-- No panic came after the call had written to the file. -/
def Early (p : Pager K V) (es : List (PEvent K V)) : Prop :=
  ∀ pre op post, es = pre ++ .unwound op :: post → ∀ q, PRuns p pre q → later q op = []

/-! ### Proofs -/

variable {ld id : Nat}

theorem stepCmp_mem {p q : Pager K V} {op : MapOp K V} (h : q ∈ stepCmp p op) : q = p ∨ q ∈ later p op := by
  cases op <;> simp only [stepCmp, List.mem_cons, List.not_mem_nil, or_false] at h <;> simp [h]

theorem later_mem {p q : Pager K V} {op : MapOp K V} (h : q ∈ later p op) : q ∈ stepCmp p op := by
  cases op <;> first | exact List.mem_cons_of_mem _ h | (exfalso; simp [later] at h)

theorem early_tail {p p₁ : Pager K V} {e : PEvent K V} {es} (h : Early p (e :: es)) (h1 : PRuns p [e] p₁) : Early p₁ es := by
  intro pre op post he q hq
  refine h (e :: pre) op post (by rw [he]; rfl) q ?_
  cases h1 with
  | done h h' => cases h'; exact .done h hq
  | unwound h h' => cases h'; exact .unwound h hq

/-- Calls left before anything was written might as well not have been made. -/
theorem runs_early {p p' : Pager K V} {es : List (PEvent K V)} (hr : PRuns p es p') (he : Early p es) :
    (bp K V ld id).run p ((PEvent.returned es).map fun x => (x.1, false)) = some (p', PEvent.returned es) := by
  induction hr with
  | nil p => rfl
  | @done p p₁ p₂ op r es h _ ih =>
    have h1 := ih (early_tail he (.done h (.nil _)))
    simp only [PEvent.returned, List.map_cons, MapImpl.run, Bool.false_eq_true, if_false]
    rw [h]
    simp only [Option.bind_eq_bind, Option.bind_some]
    rw [h1]
    rfl
  | @unwound p p₁ p₂ op es h _ ih =>
    have h0 : p₁ = p := by
      rcases stepCmp_mem h with h0 | h0
      · exact h0
      · rw [he [] op es rfl p (.nil _)] at h0
        cases h0
    have h1 := ih (early_tail he (.unwound h (.nil _)))
    rw [h0] at h1
    exact h1

/-- A search in a file with the same inner nodes. -/
theorem searchNode_via {p q : Pager K V} {x : K} (hi : ∀ i n, p.getPage i = some (.internal n) → q.getPage i = some (.internal n)) :
    ∀ (f pg : Nat) (st : Stack K) {z nd st' nd'}, searchNode p x f pg st = some (z, nd, st') → q.getPage z = some nd' →
      (∀ n, nd' ≠ .internal n) → searchNode q x f pg st = some (z, nd', st')
  | 0, pg, st, z, nd, st', nd', h, hz, hn => by simp [searchNode] at h
  | f + 1, pg, st, z, nd, st', nd', h, hz, hn => by
    rw [searchNode] at h
    cases hp : p.getPage pg with
    | none => rw [hp] at h; cases h
    | some n =>
      rw [hp] at h
      cases n with
      | internal n =>
        simp only at h
        rw [searchNode, hi pg n hp]
        simp only
        cases hs : n.search x with
        | none => rw [hs] at h; cases h
        | some i =>
          rw [hs] at h
          simp only at h ⊢
          cases ht : n.ptrs[i]? with
          | none => rw [ht] at h; cases h
          | some c =>
            rw [ht] at h
            simp only at h ⊢
            exact searchNode_via hi f c _ h hz hn
      | leaf n =>
        simp only [Option.some.injEq, Prod.mk.injEq] at h
        obtain ⟨rfl, rfl, rfl⟩ := h
        rw [searchNode, hz]
        cases nd' with
        | internal n => exact absurd rfl (hn n)
        | leaf n => rfl
        | free n => rfl
      | free n =>
        simp only [Option.some.injEq, Prod.mk.injEq] at h
        obtain ⟨rfl, rfl, rfl⟩ := h
        rw [searchNode, hz]
        cases nd' with
        | internal n => exact absurd rfl (hn n)
        | leaf n => rfl
        | free n => rfl

/-- A search ends in the page that it returns. -/
theorem searchNode_end {p : Pager K V} {x : K} : ∀ (f pg : Nat) (st : Stack K) {z nd st'},
    searchNode p x f pg st = some (z, nd, st') → p.getPage z = some nd ∧ ∀ n, nd ≠ .internal n
  | 0, pg, st, z, nd, st', h => by simp [searchNode] at h
  | f + 1, pg, st, z, nd, st', h => by
    rw [searchNode] at h
    cases hp : p.getPage pg with
    | none => rw [hp] at h; cases h
    | some n =>
      rw [hp] at h
      cases n with
      | internal n =>
        simp only at h
        cases hs : n.search x with
        | none => rw [hs] at h; cases h
        | some i =>
          rw [hs] at h
          simp only at h
          cases ht : n.ptrs[i]? with
          | none => rw [ht] at h; cases h
          | some c =>
            rw [ht] at h
            simp only at h
            exact searchNode_end f c _ h
      | leaf n =>
        simp only [Option.some.injEq, Prod.mk.injEq] at h
        obtain ⟨rfl, rfl, rfl⟩ := h
        exact ⟨hp, fun n h => by cases h⟩
      | free n =>
        simp only [Option.some.injEq, Prod.mk.injEq] at h
        obtain ⟨rfl, rfl, rfl⟩ := h
        exact ⟨hp, fun n h => by cases h⟩

/-- The parent of the leaf in which a key belongs has a key, and the sibling of the leaf is another page. -/
theorem parent_of (hid : 3 ≤ id) {key : K} {p : Pager K V} {n : Nat} {t : BT K V n} (h : Holds ld id p t) {page nd pp pn i}
    {st : Stack K} (hs : search p key = some (page, .leaf nd, (pp, pn, i) :: st)) :
    pn.len ≠ 0 ∧ ∀ sp, pn.ptrs[siblingIndex i]? = some sp → sp ≠ page := by
  have hfuel := h.fuel
  cases hn0 : n with
  | zero =>
    subst hn0
    obtain ⟨pg, es, rfl⟩ := BT.leaf_cases t
    rw [search, h.root, BT.pg_leaf, searchNode_leaf h.rep (by omega)] at hs
    simp at hs
  | succ j =>
  obtain ⟨j, rfl⟩ : ∃ j, n = 1 + j := ⟨j, by omega⟩
  clear hn0
  obtain ⟨u, lo', hi', nxt', path, h1, h2, h3, h3', h4, ⟨L, R, h5⟩, h6, h7, h9, h8⟩ :=
    bottom (by omega) h.rep h.ok (entIn_none key) h.wf.nodup
  have hroot := h3' hid h.rootOk
  obtain ⟨pp', ks, cs, rfl⟩ := u.node_cases
  obtain ⟨hlen, hord⟩ := ok_node.1 h2
  obtain ⟨kl, kr, cl, c, cr, rfl, rfl, l1, l2, k1, k2, he'⟩ := descend hord h4
  have hlk := linked_ctx.1 (below_node.1 h1.2)
  obtain ⟨lp, es, rfl⟩ := c.leaf_cases
  have hsp := search_bottom h.root (by omega) (h8 p (fun _ _ _ => rfl) key h4)
  obtain ⟨f, hf⟩ : ∃ f, p.disk.pages.length + 1 - j = f + 2 := ⟨p.disk.pages.length - 1 - j, by omega⟩
  rw [hf, BT.pg_node, searchNode_node (by omega) h1 hlen l1 k1 k2, BT.pg_leaf, searchNode_leaf hlk.2.1 (by omega), hs] at hsp
  simp only [Option.some.injEq, Prod.mk.injEq, Node.leaf.injEq, List.cons.injEq] at hsp
  obtain ⟨rfl, rfl, ⟨rfl, rfl, rfl⟩, rfl⟩ := hsp
  have hks := rootOk_node.1 hroot
  refine ⟨fun h0 => hks (List.eq_nil_of_length_eq_zero h0), fun sp hsp he => ?_⟩
  subst he
  have hnd : (cl.flatMap BT.pages ++ (sp :: cr.flatMap BT.pages)).Nodup := by
    have := (List.nodup_cons.1 (show (pp :: (cl.flatMap BT.pages ++ (sp :: cr.flatMap BT.pages))).Nodup by simpa using h7)).2
    exact this
  have hpgs : ∀ l : List (BT K V 0), l.flatMap BT.pages = l.map BT.pg := by
    intro l
    induction l with
    | nil => rfl
    | cons a l ih =>
      obtain ⟨pg, es, rfl⟩ := a.leaf_cases
      rw [List.flatMap_cons, ih]
      simp
  rw [hpgs, hpgs] at hnd
  have hmap : (cl ++ BT.leaf sp es :: cr).map BT.pg = cl.map BT.pg ++ sp :: cr.map BT.pg := by simp
  rw [hmap] at hsp
  have hidx : (cl.map BT.pg ++ sp :: cr.map BT.pg)[siblingIndex kl.length]? = some sp := by
    have hlt : siblingIndex kl.length < (cl.map BT.pg ++ sp :: cr.map BT.pg).length := by
      have : 0 < (kl ++ kr).length := List.length_pos_of_ne_nil hks
      simp only [List.length_append, List.length_map, List.length_cons] at this ⊢
      rw [siblingIndex]
      split <;> omega
    rw [← hsp, encInt]
    simp only
    rw [pad_get_lt hlt]
  have hidx2 : (cl.map BT.pg ++ sp :: cr.map BT.pg)[kl.length]? = some sp := by
    rw [List.getElem?_append_right (by simp [l1])]
    simp [l1]
  obtain ⟨a1, a2⟩ := List.getElem?_eq_some_iff.1 hidx
  obtain ⟨b1, b2⟩ := List.getElem?_eq_some_iff.1 hidx2
  have := (List.Nodup.getElem_inj_iff hnd).1 (a2.trans b2.symm)
  rw [siblingIndex] at this
  split at this <;> omega

omit [LinearOrder K] in
theorem removeUpCmp_head {p : Pager K V} {page n} {st : Stack K} (h : removeUpCmp p page n st ≠ []) : p ∈ removeUpCmp p page n st := by
  cases st with
  | nil => exact absurd rfl h
  | cons s st =>
    obtain ⟨pp, pn, i⟩ := s
    rw [removeUpCmp] at h ⊢
    simp only at h ⊢
    repeat' split
    all_goals simp_all

/-- After two leaves have been merged, with their parent not yet written, some key is looked for in the freed page. -/
theorem merged_harm {p p1 p2 p' : Pager K V} {n m : Nat} {t : BT K V n} {gone kept : Nat} {ng nk nw : LNode K V}
    (hld : 1 ≤ ld) (hid : 3 ≤ id) (h : Holds ld id p t)
    (hg : p.getPage gone = some (.leaf ng)) (hk : p.getPage kept = some (.leaf nk)) (hne : gone ≠ kept)
    (hd1 : p.deallocate gone = some p1) (hw2 : p1.writeNode kept (.leaf nw) = some p2) (he : Ext p2 p')
    (hx : ∃ d, (writes p p').head? = some d ∧ ∃ x, get (Pager.openFile d) x ≠ get p x) :
    ∃ x, get (p2.setLen m) x = none := by
  obtain ⟨pw, hw, hext⟩ := deallocate_some hd1
  obtain ⟨d, hd, x, hx⟩ := hx
  rw [head_writes hw (hext.trans ((ext_writeNode hw2).trans he))] at hd
  cases hd
  have hpw := writeNode_some hw
  have hlt : gone < p.disk.pages.length := by
    rw [Pager.writeNode] at hw
    split at hw
    · assumption
    · cases hw
  have hgw : ∀ i, i ≠ gone → (Pager.openFile pw.disk).getPage i = p.getPage i := by
    intro i hi
    rw [hpw]
    show (match (p.disk.pages.set gone _)[i]? with | some (some n) => some n | _ => none) = _
    rw [List.getElem?_set_ne (Ne.symm hi)]
    rfl
  have hp2 : p2.disk.pages = (p.disk.pages.set gone (some (.free p.md.free))).set kept (some (.leaf nw)) := by
    rw [writeNode_some hw2]
    rw [Pager.deallocate, hw] at hd1
    cases hd1
    rw [hpw]
    rfl
  have hp2r : p2.md.root = p.md.root := by
    rw [writeNode_some hw2]
    rw [Pager.deallocate, hw] at hd1
    cases hd1
    rw [hpw]
    rfl
  obtain ⟨v, hv⟩ : ∃ v, get p x = some v := ⟨_, get_holds hld (by omega) h⟩
  cases hs : search p x with
  | none => rw [get, hs] at hv; cases hv
  | some r =>
    obtain ⟨z, nd, st⟩ := r
    obtain ⟨e1, e2⟩ := searchNode_end _ _ _ hs
    have hz : z = gone := by
      by_contra hz
      apply hx
      have h1 : search (Pager.openFile pw.disk) x = some (z, nd, st) := by
        have hr : (Pager.openFile pw.disk).md.root = p.md.root := by
          show pw.disk.hdr.root = _
          rw [hpw]
          show p.disk.hdr.root = _
          rw [h.wf.hdr]
        have hl : (Pager.openFile pw.disk).disk.pages.length = p.disk.pages.length := by
          show pw.disk.pages.length = _
          rw [hpw]
          show (p.disk.pages.set gone _).length = _
          simp
        rw [search, hr, hl]
        refine searchNode_via ?_ _ _ _ hs ((hgw z hz).trans e1) e2
        intro i n hi
        rw [hgw i (fun e => by rw [e, hg] at hi; cases hi)]
        exact hi
      rw [get, get, h1, hs]
    subst hz
    refine ⟨x, ?_⟩
    have hgp : ∀ i, (p2.setLen m).getPage i =
        (match ((p.disk.pages.set z (some (.free p.md.free))).set kept (some (.leaf nw)))[i]? with | some (some n) => some n | _ => none) := by
      intro i
      rw [← hp2]
      rfl
    have h1 : search (p2.setLen m) x = some (z, .free p.md.free, st) := by
      have hr : (p2.setLen m).md.root = p.md.root := hp2r
      have hl : (p2.setLen m).disk.pages.length = p.disk.pages.length := by
        show p2.disk.pages.length = _
        rw [hp2]
        simp
      rw [search, hr, hl]
      refine searchNode_via ?_ _ _ _ hs ?_ (fun n hn => by cases hn)
      · intro i n hi
        have hi1 : i ≠ z := fun e => by rw [e, hg] at hi; cases hi
        have hi2 : i ≠ kept := fun e => by rw [e, hk] at hi; cases hi
        rw [hgp, List.getElem?_set_ne (Ne.symm hi2), List.getElem?_set_ne (Ne.symm hi1)]
        exact hi
      · rw [hgp, List.getElem?_set_ne (Ne.symm hne)]
        simp [hlt]
    rw [get, h1]

/-- A removal that runs code of the user after it has written to the file is in a state in which some `get` panics. -/
theorem remove_later_harm (hld : 1 ≤ ld) (hid : 3 ≤ id) {key : K} {p p' : Pager K V} {n m : Nat} {t : BT K V n} {t' : BT K V m}
    (h : Holds ld id p t) (h' : Holds ld id p' t') (ht : t'.toL = SL.del key t.toL) {o}
    (e : remove p key = some (p', some o)) (hl : later p (.remove key) ≠ []) :
    ∃ q ∈ later p (.remove key), ∃ x, get q x = none := by
  have e0 := e
  rw [remove] at e
  simp only [later] at hl ⊢
  split at e
  · rename_i page nd stack hs
    rw [hs] at hl
    simp only [hs] at hl ⊢
    obtain ⟨hpage, -⟩ := searchNode_end _ _ _ hs
    cases hr : nd.remove key with
    | none => rw [hr] at hl; exact absurd rfl hl
    | some y =>
      obtain ⟨n', o'⟩ := y
      rw [hr] at hl e
      simp only [Option.map_eq_some_iff, Prod.mk.injEq] at e hl ⊢
      obtain ⟨q', e, rfl, rfl⟩ := e
      cases stack with
      | nil => exact absurd rfl hl
      | cons s st =>
        obtain ⟨pp, pn, i⟩ := s
        obtain ⟨-, hsib⟩ := parent_of hid h hs
        rw [removeLeafLater] at hl ⊢
        rw [removeLeaf] at e
        by_cases hun : n'.len < (p.md.leafDeg + 1) / 2
        · rw [if_pos hun] at hl e ⊢
          simp only at hl e ⊢
          have hcr : ∃ d, (writes p q').head? = some d ∧ ∃ x, get (Pager.openFile d) x ≠ get p x := by
            have hlen : nd.len ≤ (ld + 1) / 2 := by
              rw [h.wf.ldeg] at hun
              have : nd.len ≤ n'.len + 1 := by
                rw [LNode.remove] at hr
                simp only at hr
                split at hr
                · split at hr
                  · cases hr
                  · cases hr; simp only; omega
                · cases hr
              omega
            obtain ⟨d, hd, z, hz1, -⟩ := remove_under_crash hld hid h h' ht hs (by simp) hlen e0
            exact ⟨d, hd, z, hz1⟩
          cases hsp : pn.ptrs[siblingIndex i]? with
          | none => rw [hsp] at hl; exact absurd rfl hl
          | some sp =>
            have hne := hsib sp hsp
            rw [hsp] at hl e
            simp only at hl e ⊢
            cases hgs : p.getPage sp with
            | none => rw [hgs] at hl; exact absurd rfl hl
            | some nn =>
              cases nn with
              | internal nn => rw [hgs] at hl; exact absurd rfl hl
              | free nn => rw [hgs] at hl; exact absurd rfl hl
              | leaf sn =>
                rw [hgs] at hl e
                simp only at hl e ⊢
                by_cases hm : sn.len = (p.md.leafDeg + 1) / 2
                · rw [if_pos hm] at hl e ⊢
                  by_cases hsi : siblingIndex i = i + 1
                  · rw [if_pos hsi] at hl e ⊢
                    split at e
                    · rename_i n1 p1 hn1 hd1
                      rw [hn1, hd1] at hl
                      simp only [hn1, hd1] at hl ⊢
                      split at e
                      · rename_i p2 pn2 _ _ hw2 hra
                        rw [hw2, hra] at hl
                        simp only [hw2, hra] at hl ⊢
                        exact ⟨_, removeUpCmp_head hl, merged_harm hld hid h hgs hpage hne hd1 hw2
                          ((ext_setLen _ _).trans (ext_removeUp e)) hcr⟩
                      · cases e
                    · cases e
                  · rw [if_neg hsi] at hl e ⊢
                    split at e
                    · rename_i n1 p1 hn1 hd1
                      rw [hn1, hd1] at hl
                      simp only [hn1, hd1] at hl ⊢
                      split at e
                      · rename_i p2 pn2 _ _ hw2 hra
                        rw [hw2, hra] at hl
                        simp only [hw2, hra] at hl ⊢
                        exact ⟨_, removeUpCmp_head hl, merged_harm hld hid h hpage hgs (Ne.symm hne) hd1 hw2
                          ((ext_setLen _ _).trans (ext_removeUp e)) hcr⟩
                      · cases e
                    · cases e
                · rw [if_neg hm] at hl
                  exact absurd rfl hl
        · rw [if_neg hun] at hl
          exact absurd rfl hl
  · cases e

/-- An insertion that runs code of the user after it has written to the file: the leaf is full and is not the root. -/
theorem insert_later {k : K} {v : V} {p : Pager K V} (hl : later p (.insert k v) ≠ []) :
    ∃ page nd pp pn i st p2 s, search p k = some (page, .leaf nd, (pp, pn, i) :: st) ∧ ¬ nd.len < nd.entries.length ∧
      insertLeaf p page nd (k, v) = some (p2, some s, none) ∧ later p (.insert k v) = insertUpCmp p2 ((pp, pn, i) :: st) (some s) := by
  simp only [later] at hl ⊢
  split at hl
  · rename_i page nd stack hs
    split at hl
    · rename_i p2 s hleaf
      cases s with
      | none => cases stack <;> exact absurd rfl hl
      | some s =>
        cases stack with
        | nil => exact absurd rfl hl
        | cons x st =>
          obtain ⟨pp, pn, i⟩ := x
          refine ⟨page, nd, pp, pn, i, st, p2, s, hs, fun hlt => ?_, hleaf, rfl⟩
          rw [insertLeaf] at hleaf
          split at hleaf
          · cases hleaf
          · rename_i n' k2 s2 hn'
            rw [LNode.insert] at hn'
            simp only at hn'
            rw [if_pos hlt] at hn'
            split at hn' <;> cases hn'
          · simp only [Option.map_eq_some_iff, Prod.mk.injEq] at hleaf
            obtain ⟨_, _, _, h0, _⟩ := hleaf
            cases h0
          · simp only [Option.map_eq_some_iff, Prod.mk.injEq] at hleaf
            obtain ⟨_, _, _, h0, _⟩ := hleaf
            cases h0
    · exact absurd rfl hl
  · exact absurd rfl hl

theorem insertUpCmp_head {p : Pager K V} {pp pn i} {st : Stack K} {s : K × Nat} (h : pn.len ≠ 0) :
    p ∈ insertUpCmp p ((pp, pn, i) :: st) (some s) := by
  obtain ⟨a, b⟩ := s
  rw [insertUpCmp, if_neg h]
  exact List.mem_append_left _ List.mem_cons_self

/-- A removal of a key that is not in the map writes nothing. -/
theorem absent_later (hid : 1 ≤ id) {k : K} {p : Pager K V} {n : Nat} {t : BT K V n} (h : Holds ld id p t)
    (hf : SL.find k t.toL = none) : later p (.remove k) = [] := by
  obtain ⟨lp, es, x, path, h1, h2, h3, h4, h5⟩ := search_sub hid h.rep h.ok (entIn_none k)
  have hs := h1 (p.disk.pages.length + 1) [] h.fuel
  rw [← h.root, List.append_nil] at hs
  have hsr : search p k = some (lp, .leaf (encLeaf ld es x), path) := hs
  have hne : ∀ a ∈ es, a.1 ≠ k := by
    rintro ⟨a, v⟩ ha rfl
    rw [h2, SL.find_of_mem h3 ha] at hf
    cases hf
  simp only [later, hsr, remove_encLeaf_absent hne]
  cases path with
  | nil => rfl
  | cons x path =>
    obtain ⟨pp, pn, i⟩ := x
    have := h5 (Or.inl (by simp))
    rw [removeLeafLater]
    simp only [len_encLeaf, h.wf.ldeg]
    rw [if_neg (by omega)]

/-- **C89 (partial).**  Calls on a new `BpMap` of which any number were left by a panic of the user's `Ord` or `Clone`, each
before it had written anything: the calls that returned have the results of an ordered map, as if the other calls had
not been made.
Missing because false: panics after a write (`C89_exact`, `C89_violated`), and the histories excluded in C28. -/
theorem C89_partial (hld : 1 ≤ ld) (hid : 3 ≤ id) {es : List (PEvent K V)} {p : Pager K V} (hr : PRuns (new ld id) es p)
    (he : Early (new ld id) es) (ha : Admissible ld id ((PEvent.returned es).map fun x => (x.1, false))) :
    History AMap.empty (PEvent.returned es) (contents ((PEvent.returned es).map (·.1))) ∧ Reached ld id p := by
  have h1 := runs_early (ld := ld) (id := id) hr he
  obtain ⟨q, hist, h2, h3, h4⟩ := C28_bp_map_partial hld hid _ ha
  rw [h1] at h2
  cases h2
  refine ⟨?_, _, _, ha, h1⟩
  simpa [List.map_map, Function.comp_def] using h4

/-- **C89 (exact).**  On a map reached by a covered history, a call is safe from every panic of the user's `Ord` and `Clone`
(the map left behind cannot be told, by looking at it, from the map before the call or from the map after it) exactly
if it runs no such code after it has written to the file. -/
theorem C89_exact (hld : 1 ≤ ld) (hid : 3 ≤ id) {p p' : Pager K V} (hp : Reached ld id p) {op : MapOp K V} {r : MapRes K V}
    (hov : ∀ k v, op = .insert k v → ¬ Harmful ld p.disk k) (e : step p op = some (p', r)) :
    (∀ q ∈ stepCmp p op, SameAnswers q p ∨ SameAnswers q p') ↔ later p op = [] := by
  obtain ⟨l, m, t, h, rfl⟩ := reached_rel hld hid hp
  constructor
  · intro hall
    by_contra hl
    cases op with
    | insert k v =>
      have hh := hov k v rfl
      obtain ⟨q, m', t', e', h', ht⟩ := insert_holds (v := v) hld hid h (.inr (safe_of_not_harmful hh))
      simp only [step, e', Option.map_some, Option.some.injEq, Prod.mk.injEq] at e
      obtain ⟨rfl, -⟩ := e
      obtain ⟨page, nd, pp, pn, i, st, p2, s, hs, hfull, hleaf, hlat⟩ := insert_later hl
      have hf : SL.find k t.toL = none := by
        have e2 := e'
        rw [insert, hs] at e2
        simp only [hleaf] at e2
        split at e2
        · cases e2
        · simp only [Option.some.injEq, Prod.mk.injEq] at e2
          exact e2.2.symm
      rw [hf] at e'
      obtain ⟨d, hd, ⟨⟨l, hl1, hkl⟩, y, hy, hg⟩, p2', s', qq, hleaf', rfl, hsync⟩ := insert_split_crash hld hid h hf hs hfull e'
      rw [hleaf] at hleaf'
      cases hleaf'
      have hz : p2 ∈ later p (.insert k v) := by
        rw [hlat]
        exact insertUpCmp_head (parent_of hid h hs).1
      have hsame : SameContents p2.disk p2 := sameContents_of rfl (by rw [hsync]) (by rw [hsync])
      rcases hall _ (later_mem hz) with hc | hc
      · have := hc.iter
        rw [← hsame.iter, hl1, toList_holds hld h] at this
        cases this
        exact SL.find_eq_none.1 hf _ hkl rfl
      · have := hc.get y
        rw [← hsame.get, hg, get_holds hld (by omega) h', ht, SL.abs] at this
        cases hfx : SL.find y (SL.ins k v t.toL) with
        | none => exact hy hfx
        | some w => rw [hfx] at this; simp at this
    | remove k =>
      cases hf : SL.find k t.toL with
      | none =>
        exact hl (absent_later (by omega) h hf)
      | some o =>
        obtain ⟨q, m', t', e', h', ht⟩ := remove_present hld hid h hf (.inl rfl)
        simp only [step, e', Option.map_some, Option.some.injEq, Prod.mk.injEq] at e
        obtain ⟨rfl, -⟩ := e
        obtain ⟨z, hz, x, hx⟩ := remove_later_harm hld hid h h' ht e' hl
        rcases hall _ (later_mem hz) with hc | hc
        · have := hc.get x
          rw [hx, get_holds hld (by omega) h] at this
          cases this
        · have := hc.get x
          rw [hx, get_holds hld (by omega) h'] at this
          cases this
    | get | containsKey | min | max | iter | len | isEmpty | getMut | floor | ceil | clear => exact hl rfl
  · intro hl q hq
    rcases stepCmp_mem hq with rfl | hq
    · exact .inl fun _ _ => rfl
    · rw [hl] at hq
      cases hq

/-- **C89 (which calls).**  On such a map the calls that run code of the user after a write are among the calls of `insert`
and `remove`: exactly the `insert`s of a key that is not in the map into a full leaf that is not the root, and only
`remove`s of a key that is in the map when the tree has at least two levels of inner nodes. -/
theorem C89_calls (hld : 1 ≤ ld) (hid : 3 ≤ id) {p : Pager K V} (hp : Reached ld id p) :
    (∀ op, later p op ≠ [] → (∃ k v, op = .insert k v) ∨ ∃ k, op = .remove k) ∧
    (∀ k v, ¬ Harmful ld p.disk k → (later p (.insert k v) ≠ [] ↔
      get p k = some none ∧ ∃ page n st, search p k = some (page, .leaf n, st) ∧ n.len = n.entries.length ∧ st ≠ [])) ∧
    ∀ k, later p (.remove k) ≠ [] → (∃ v, get p k = some (some v)) ∧ ∃ page n st, search p k = some (page, n, st) ∧ 2 ≤ st.length := by
  obtain ⟨l, m, t, h, rfl⟩ := reached_rel hld hid hp
  refine ⟨fun op hl => ?_, fun k v hh => ?_, fun k hl => ?_⟩
  · cases op with
    | insert k v => exact .inl ⟨k, v, rfl⟩
    | remove k => exact .inr ⟨k, rfl⟩
    | get | containsKey | min | max | iter | len | isEmpty | getMut | floor | ceil | clear => exact absurd rfl hl
  · obtain ⟨q, m', t', e', h', ht⟩ := insert_holds (v := v) hld hid h (.inr (safe_of_not_harmful hh))
    obtain ⟨lp, es, x, path, h1, h2, h3, h4, h5⟩ := search_sub (by omega) h.rep h.ok (entIn_none k)
    have hs := h1 (p.disk.pages.length + 1) [] h.fuel
    rw [← h.root, List.append_nil] at hs
    have hs0 : search p k = some (lp, .leaf (encLeaf ld es x), path) := hs
    constructor
    · intro hl
      obtain ⟨page, nd, pp, pn, i, st, p2, s, hs, hfull, hleaf, hlat⟩ := insert_later hl
      have hf : SL.find k t.toL = none := by
        rw [insert, hs] at e'
        simp only [hleaf] at e'
        split at e'
        · cases e'
        · simp only [Option.some.injEq, Prod.mk.injEq] at e'
          exact e'.2.symm
      refine ⟨?_, page, nd, _, hs, ?_, by simp⟩
      · rw [get_holds hld (by omega) h, SL.abs, hf]
        rfl
      · rw [hs0] at hs
        cases hs
        rw [len_encLeaf] at hfull ⊢
        simp only [encLeaf] at hfull ⊢
        rw [pad_length (by simpa using h4)] at hfull ⊢
        omega
    · rintro ⟨hg, page, n, st, hs, hfull, hst⟩
      have hf : SL.find k t.toL = none := by
        rw [get_holds hld (by omega) h] at hg
        rw [SL.abs, Option.some.injEq, Option.map_eq_none_iff] at hg
        exact hg
      rw [hf] at e'
      obtain ⟨d, hd, -, p2, s, qq, hleaf, -, -⟩ := insert_split_crash hld hid h hf hs (by omega) e'
      cases st with
      | nil => exact absurd rfl hst
      | cons a st =>
        obtain ⟨pp, pn, i⟩ := a
        have hm := insertUpCmp_head (p := p2) (pp := pp) (i := i) (st := st) (s := (s, qq)) (parent_of hid h hs).1
        simp only [later, hs, hleaf]
        exact List.ne_nil_of_mem hm
  · constructor
    · by_contra hno
      have hg : get p k = some none := by
        rw [get_holds hld (by omega) h] at hno ⊢
        cases hx : SL.abs t.toL k with
        | none => rfl
        | some v => exact absurd ⟨v, by rw [hx]⟩ hno
      have hf : SL.find k t.toL = none := by
        rw [get_holds hld (by omega) h] at hg
        rw [SL.abs, Option.some.injEq, Option.map_eq_none_iff] at hg
        exact hg
      exact hl (absent_later (by omega) h hf)
    · simp only [later] at hl
      split at hl
      · rename_i page nd stack hs
        refine ⟨page, _, stack, hs, ?_⟩
        split at hl
        · exact absurd rfl hl
        · cases stack with
          | nil => exact absurd rfl hl
          | cons a st =>
            obtain ⟨pp, pn, i⟩ := a
            cases st with
            | cons b st => simp
            | nil =>
              exfalso
              apply hl
              rw [removeLeafLater]
              simp only [removeUpCmp]
              repeat' split
              all_goals rfl
      · exact absurd rfl hl

/-! ### Panics that do harm, and non-vacuity -/

/-- Degrees 1 and 3, entries 1 to 4: a tree with two levels of inner nodes. -/
def tall : Pager Nat Nat := stateAfter 1 3 (((List.range 5).map fun i => .insert i i) ++ [.remove 0])

/-- **C89 does not hold without exceptions.**  Degrees 2 and 3, entries 1, 2 and 3.  An `insert` of 0 splits the leaf `[1, 2]`;
if the comparison with the key of the parent panics, the key 2 is not found any more, although iterating still lists it.
Degrees 1 and 3, entries 1 to 4: a `remove` of 1 merges two leaves and then two inner nodes; if the key between them
panics when it is cloned, a later `get` panics, for a key that was in the map. -/
theorem C89_violated :
    (∃ q ∈ stepCmp three (.insert 0 0), get q 2 = some none ∧ toList q = some [(0, 0), (1, 1), (2, 2), (3, 3)]) ∧
    ∃ q ∈ stepCmp tall (.remove 1), get q 2 = none ∧ get tall 2 = some (some 2) := by
  have key : ∀ {p : Pager Nat Nat} {op : MapOp Nat Nat} {P : Pager Nat Nat → Prop} [DecidablePred P],
      (stepCmp p op).any (fun x => decide (P x)) = true → ∃ q ∈ stepCmp p op, P q := by
    intro p op P _ h
    obtain ⟨q, hm, hx⟩ := List.any_eq_true.1 h
    exact ⟨q, hm, of_decide_eq_true hx⟩
  exact ⟨key (P := fun q => get q 2 = some none ∧ toList q = some [(0, 0), (1, 1), (2, 2), (3, 3)]) (by decide +kernel),
    key (P := fun q => get q 2 = none ∧ get tall 2 = some (some 2)) (by decide +kernel)⟩

/-- A history with calls (`true`) that are left before they have written anything. -/
def startle (p : Pager Nat Nat) : List (MapOp Nat Nat × Bool) → Option (Pager Nat Nat × List (PEvent Nat Nat))
  | [] => some (p, [])
  | (op, true) :: ops =>
    if (stepCmp p op).head? = some p ∧ later p op = [] then (startle p ops).map fun x => (x.1, .unwound op :: x.2) else none
  | (op, false) :: ops =>
    match step p op with
    | none => none
    | some (p', r) => (startle p' ops).map fun x => (x.1, .done op r :: x.2)

theorem startle_runs : ∀ (ops : List (MapOp Nat Nat × Bool)) {p p' : Pager Nat Nat} {es}, startle p ops = some (p', es) →
    PRuns p es p' ∧ Early p es
  | [], p, p', es, h => by
    cases h
    exact ⟨.nil _, fun pre op post he => by cases pre <;> cases he⟩
  | (op, true) :: ops, p, p', es, h => by
    rw [startle] at h
    split at h
    · rename_i h0
      obtain ⟨h0, h1⟩ := h0
      simp only [Option.map_eq_some_iff, Prod.mk.injEq] at h
      obtain ⟨⟨p2, es2⟩, h, rfl, rfl⟩ := h
      obtain ⟨a, b⟩ := startle_runs ops h
      refine ⟨.unwound (List.mem_of_mem_head? h0) a, ?_⟩
      intro pre op' post he q hq
      cases pre with
      | nil => cases he; cases hq; exact h1
      | cons e pre =>
        cases he
        cases hq with
        | unwound h2 h3 =>
          rcases stepCmp_mem h2 with rfl | h2
          · exact b pre op' post rfl q h3
          · rw [h1] at h2; cases h2
    · cases h
  | (op, false) :: ops, p, p', es, h => by
    rw [startle] at h
    split at h
    · cases h
    · rename_i p1 r h0
      simp only [Option.map_eq_some_iff, Prod.mk.injEq] at h
      obtain ⟨⟨p2, es2⟩, h, rfl, rfl⟩ := h
      obtain ⟨a, b⟩ := startle_runs ops h
      refine ⟨.done h0 a, ?_⟩
      intro pre op' post he q hq
      cases pre with
      | nil => cases he
      | cons e pre =>
        cases he
        cases hq with
        | done h2 h3 =>
          rw [h0] at h2
          cases h2
          exact b pre op' post rfl q h3

/-- Calls on a `BpMap` with degrees 2 and 3; those with `true` are left by a panic. -/
def startled : List (MapOp Nat Nat × Bool) :=
  [(.insert 1 1, false), (.insert 5 5, true), (.insert 2 2, false), (.insert 3 3, false), (.get 1, true), (.insert 4 4, true),
    (.remove 3, true), (.get 5, false), (.insert 4 4, false), (.remove 1, false), (.iter, false)]

/-- The hypotheses of `C89_partial` are met by this history, with four calls left by a panic. -/
example : ∃ p es, PRuns (new 2 3) es p ∧ Early (new 2 3) es ∧
    Admissible 2 3 ((PEvent.returned es).map fun x => (x.1, false)) ∧
    (PEvent.returned es).map (·.2) = [.pair none, .pair none, .pair none, .val none, .pair none, .pair (some (1, 1)),
      .list [(2, 2), (3, 3), (4, 4)]] := by
  have h : (startle (new 2 3) startled).isSome = true := by decide +kernel
  obtain ⟨⟨p, es⟩, h⟩ := Option.isSome_iff_exists.1 h
  obtain ⟨h1, h2⟩ := startle_runs _ h
  have h3 : (startle (new 2 3) startled).map (fun x => PEvent.returned x.2) = some [(.insert 1 1, .pair none),
      (.insert 2 2, .pair none), (.insert 3 3, .pair none), (.get 5, .val none), (.insert 4 4, .pair none),
      (.remove 1, .pair (some (1, 1))), (.iter, .list [(2, 2), (3, 3), (4, 4)])] := by rfl
  rw [h] at h3
  simp only [Option.map_some, Option.some.injEq] at h3
  refine ⟨p, es, h1, h2, ?_, by rw [h3]; rfl⟩
  rw [h3]
  refine ⟨?_, harmless_of_checked (by decide +kernel)⟩
  intro op hop
  simp at hop
  rcases hop with rfl | rfl | rfl | rfl | rfl | rfl | rfl <;> trivial

/-- A leaf is merged, and its parent, which is left without keys, takes a child from a sibling: nothing is compared. -/
example : later (stateAfter 1 3 ((List.range 5).map fun i => .insert i i)) (.remove 4) = [] ∧
    leafOf (stateAfter 1 3 ((List.range 5).map fun i => .insert i i)) 4 = some (1, 1, 2) := by
  decide +kernel

/-- Both sides of `C89_exact` and `C89_calls` occur. -/
example : (later three (.insert 0 0)).length = 1 ∧ later three (.insert 4 4) = [] ∧ later three (.remove 3) = [] ∧
    (later tall (.remove 1)).length = 1 ∧ leafOf three 0 = some (2, 2, 1) ∧ get three 0 = some none := by
  decide +kernel

end Verif.Bp
