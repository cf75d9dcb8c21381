/- Removal from a subtree.  Proof machinery. -/
import Verif.Bp.Insert

namespace Verif.Bp

variable {K V : Type} [LinearOrder K] {ld id : Nat} {g : Bool} {δ : Nat}

/-! ### Slots of a node -/

theorem keys_encInt {kl kr : List K} {k : K} {ps} : (encInt id (kl ++ k :: kr) ps).keys[kl.length]? = some (some k) := by
  simp only [encInt]
  rw [pad_get_lt (by simp)]
  simp

theorem ptrs_encInt {ks : List K} {pl pr : List Nat} {q : Nat} :
    (encInt id ks (pl ++ q :: pr)).ptrs[pl.length]? = some q := by
  simp only [encInt]
  rw [pad_get_lt (by simp)]
  simp

theorem setKey_encInt {kl kr : List K} {k k' : K} {ps} :
    ({ encInt id (kl ++ k :: kr) ps with keys := (encInt id (kl ++ k :: kr) ps).keys.set kl.length (some k') } : INode K) =
      encInt id (kl ++ k' :: kr) ps := by
  simp only [encInt, pad, INode.mk.injEq, and_true]
  refine ⟨by simp, ?_⟩
  rw [List.set_append_left _ _ (by simp)]
  simp

theorem store_encInt {kl kr : List K} {k k' : K} {ps} :
    store (encInt id (kl ++ k :: kr) ps).keys kl.length (some k') =
      some ((encInt id (kl ++ k :: kr) ps).keys.set kl.length (some k')) := by
  rw [store, if_pos]
  simp [encInt, pad]

theorem len_encInt {ks : List K} {ps} : (encInt id ks ps).len = ks.length := rfl
theorem len_encLeaf {es : List (K × V)} {nxt} : (encLeaf ld es nxt).len = es.length := rfl

/-! ### Sequences of writes -/

theorem WfG.write3 {p : Pager K V} {l : List Nat} (h : WfG g ld id p l) {a b c} (ha : a ∈ l) (hb : b ∈ l) (hc : c ∈ l)
    (hab : a ≠ b) (hac : a ≠ c) (hbc : b ≠ c) (x y z : Node K V) :
    ∃ p1 p2 p3, p.writeNode a x = some p1 ∧ p1.writeNode b y = some p2 ∧ p2.writeNode c z = some p3 ∧
      WfG g ld id p3 l ∧ AtPage p3.disk a x ∧ AtPage p3.disk b y ∧ AtPage p3.disk c z ∧ p3.md = p.md ∧
      ∀ j, j ≠ a → j ≠ b → j ≠ c → p3.disk.pages[j]? = p.disk.pages[j]? := by
  obtain ⟨p1, c1, w1, b1, m1, f1⟩ := h.write ha x
  obtain ⟨p2, c2, w2, b2, m2, f2⟩ := w1.write hb y
  obtain ⟨p3, c3, w3, b3, m3, f3⟩ := w2.write hc z
  refine ⟨p1, p2, p3, c1, c2, c3, w3, ?_, ?_, b3, by rw [m3, m2, m1], ?_⟩
  · rw [AtPage, f3 a hac, f2 a hab]; exact b1
  · rw [AtPage, f3 b hbc]; exact b2
  · intro j h1 h2 h3
    rw [f3 j h3, f2 j h2, f1 j h1]

theorem WfG.drop_write {p : Pager K V} {l : List Nat} {r : Nat} (h : WfG g ld id p (r :: l)) {a} (ha : a ∈ l) (x : Node K V) :
    ∃ p1 p2, p.deallocate r = some p1 ∧ p1.writeNode a x = some p2 ∧
      WfG g ld id p2 l ∧ AtPage p2.disk a x ∧ p2.md.len = p.md.len ∧ p2.md.root = p.md.root ∧
      ∀ j, j ≠ r → j ≠ a → p2.disk.pages[j]? = p.disk.pages[j]? := by
  obtain ⟨p1, c1, w1, m1, f1⟩ := h.dealloc
  obtain ⟨p2, c2, w2, b2, m2, f2⟩ := w1.write ha x
  refine ⟨p1, p2, c1, c2, w2, b2, by rw [m2, m1], by rw [m2, m1], ?_⟩
  intro j h1 h2
  rw [f2 j h2, f1 j h1]

/-! ### Outcomes -/

/-- At most one entry below half full. -/
def MinOcc1 (ld id : Nat) : {n : Nat} → BT K V n → Prop
  | 0, (t : BLeaf K V) => (ld + 1) / 2 ≤ t.es.length + 1
  | n + 1, (t : BNode K (BT K V n)) => (id + 1) / 2 ≤ t.ks.length + 2

/-- The subtree and the rest of the file; the page of the root of the subtree may be out of date. -/
structure After (g : Bool) (ld id : Nat) {n : Nat} (p p' : Pager K V) (t t' : BT K V n) (R : List Nat) (lo hi : Option K)
    (nxt : Option Nat) (l : List (K × V)) (m : Nat) : Prop where
  wf : WfG g ld id p' (t'.pages ++ R)
  below : Below ld id p'.disk t' nxt
  ok : Ok ld id t' lo hi
  pg : t'.pg = t.pg
  first : t'.first = t.first
  toL : t'.toL = l
  len : p'.md.len = m
  root : p'.md.root = p.md.root
  frame : ∀ i ∈ R, p'.disk.pages[i]? = p.disk.pages[i]?

/-- The removal is complete. -/
structure RDone (g : Bool) (ld id : Nat) {n : Nat} (p p' : Pager K V) (t t' : BT K V n) (R : List Nat) (lo hi : Option K)
    (nxt : Option Nat) (l : List (K × V)) (m : Nat) : Prop extends After g ld id p p' t t' R lo hi nxt l m where
  at_ : AtPage p'.disk t'.pg (t'.rootNode ld id nxt)
  occ : MinOcc ld id t → MinOcc ld id t'
  rootOk : RootOk t → RootOk t'

/-- The new root node of the subtree is in memory only, and may be too small. -/
structure Pend (g : Bool) (ld id : Nat) {n : Nat} (p p' : Pager K V) (t t' : BT K V n) (R : List Nat) (lo hi : Option K)
    (nxt : Option Nat) (l : List (K × V)) (m : Nat) : Prop extends After g ld id p p' t t' R lo hi nxt l m where
  occ : MinOcc ld id t → MinOcc1 ld id t'

/-- What `remove` still has to do with the new root node of the subtree. -/
def rest (ld id : Nat) : {n : Nat} → Pager K V → BT K V n → Option Nat → Stack K → Option (Pager K V)
  | 0, p, (t : BLeaf K V), nxt, st => removeLeaf p t.pg (encLeaf ld t.es nxt) true st
  | n + 1, p, (t : BNode K (BT K V n)), _, st => removeUp p t.pg (encInt id t.ks (t.cs.map BT.pg)) st

theorem rest_leaf {p : Pager K V} {pg es nxt st} :
    rest ld id p (BT.leaf pg es) nxt st = removeLeaf p pg (encLeaf ld es nxt) true st := rfl

theorem rest_node {n} {p : Pager K V} {pg ks} {cs : List (BT K V n)} {nxt st} :
    rest ld id p (BT.node pg ks cs) nxt st = removeUp p pg (encInt id ks (cs.map BT.pg)) st := rfl

/-- Replacing a part of the children of a node. -/
theorem seg_after {n : Nat} {p p' : Pager K V} {pg : Nat} {t : BT K V (n + 1)} {kl ks kr} {cl cs cr : List (BT K V n)}
    {c c0 : BT K V n} {R lo hi nxt m cr0 ks0}
    (ht : t = BT.node pg ks0 (cl ++ c0 :: cr0)) (hf : c.first = c0.first)
    (hord : OrdL (OkC ld id) (kl ++ ks ++ kr) (cl ++ (c :: cs) ++ cr) lo hi)
    (hlen : (kl ++ ks ++ kr).length ≤ id)
    (hw : WfG g ld id p' (pg :: (cl.flatMap BT.pages ++ (c :: cs).flatMap BT.pages ++ cr.flatMap BT.pages) ++ R))
    (hleft : Linked (RepT ld id p.disk) cl (some c0.first))
    (hseg : Linked (RepT ld id p'.disk) (c :: cs) (nextOf cr nxt))
    (hright : Linked (RepT ld id p.disk) cr nxt)
    (hframe : ∀ i ∈ cl.flatMap BT.pages ++ cr.flatMap BT.pages ++ R, p'.disk.pages[i]? = p.disk.pages[i]?)
    (hm : p'.md.len = m) (hroot : p'.md.root = p.md.root) {l : List (K × V)}
    (hl : cl.flatMap BT.toL ++ (c :: cs).flatMap BT.toL ++ cr.flatMap BT.toL = l) :
    After g ld id p p' t (BT.node pg (kl ++ ks ++ kr) (cl ++ (c :: cs) ++ cr)) R lo hi nxt l m := by
  subst ht hl
  refine ⟨hw.perm (by perm_pages), below_node.2 ?_, ok_node.2 ⟨hlen, hord⟩, rfl, ?_, by simp, hm, hroot,
    frame_of hframe (by simp +contextual)⟩
  · rw [linked_append, linked_append]
    refine ⟨⟨?_, hseg⟩, ?_⟩
    · show Linked _ cl (some c.first)
      rw [hf]
      exact linked_frame (frame_of hframe (by simp +contextual)) hleft
    · exact linked_frame (frame_of hframe (by simp +contextual)) hright
  · rw [List.append_assoc cl, List.cons_append]
    exact first_ctx hf

/-- The situation when the new node of a child is in memory. -/
structure Ctx (g : Bool) (ld id : Nat) {n : Nat} (p : Pager K V) (pg : Nat) (kl kr : List K) (cl : List (BT K V n)) (c0 c : BT K V n)
    (cr : List (BT K V n)) (R : List Nat) (lo hi : Option K) (nxt : Option Nat) : Prop where
  wf : WfG g ld id p (pg :: (cl.flatMap BT.pages ++ c.pages ++ cr.flatMap BT.pages) ++ R)
  left : Linked (RepT ld id p.disk) cl (some c0.first)
  mid : Below ld id p.disk c (nextOf cr nxt)
  right : Linked (RepT ld id p.disk) cr nxt
  first : c.first = c0.first
  pgeq : c.pg = c0.pg
  l1 : cl.length = kl.length
  l2 : cr.length = kr.length
  klen : (kl ++ kr).length ≤ id
  kne : kl ++ kr ≠ []
  ord : OrdL (OkC ld id) (kl ++ kr) (cl ++ c0 :: cr) lo hi
  ok : Ok ld id c (lowB kl lo) (hiB kr hi)
  occ : MinOcc1 ld id c

/-- The new node of the child is large enough and is written. -/
theorem step_write {n : Nat} {p p1 p' : Pager K V} {pg kl kr} {cl cr : List (BT K V n)} {c0 c : BT K V n} {R lo hi nxt m}
    (h : Ctx g ld id p pg kl kr cl c0 c cr R lo hi nxt)
    (hat : AtPage p.disk pg (.internal (encInt id (kl ++ kr) ((cl ++ c0 :: cr).map BT.pg))))
    (hm : p1.md.len = m) (hr1 : p1.md.root = p.md.root) (hw1 : ∀ l, WfG g ld id p l → WfG g ld id p1 l)
    (hd1 : p1.disk.pages = p.disk.pages)
    (hocc : MinOcc ld id c) (hc : p1.writeNode c.pg (c.rootNode ld id (nextOf cr nxt)) = some p') :
    RDone g ld id p p' (BT.node pg (kl ++ kr) (cl ++ c0 :: cr)) (BT.node pg (kl ++ kr) (cl ++ c :: cr)) R lo hi nxt
      (cl.flatMap BT.toL ++ c.toL ++ cr.flatMap BT.toL) m := by
  obtain ⟨p2, e2, w2, b2, m2, f2⟩ := (hw1 _ h.wf).write (i := c.pg) (by simp [BT.pg_mem]) (c.rootNode ld id (nextOf cr nxt))
  rw [hc] at e2
  cases e2
  have hnd := h.wf.nodup
  have hne : ∀ i, i ∈ pg :: (cl.flatMap BT.pages ++ cr.flatMap BT.pages) ++ R → i ≠ c.pg := by
    rintro i hi rfl
    have hnd2 : (c.pages ++ (pg :: (cl.flatMap BT.pages ++ cr.flatMap BT.pages) ++ R)).Nodup :=
      (List.Perm.nodup_iff (by perm_pages)).1 hnd
    exact (List.nodup_append.1 hnd2).2.2 _ c.pg_mem _ hi rfl
  have hfr : ∀ i, i ≠ c.pg → p'.disk.pages[i]? = p.disk.pages[i]? := fun i hi => by rw [f2 i hi, hd1]
  have hord := h.ord
  obtain ⟨-, hrepl⟩ := ordL_ctx (kl := kl) (ks := []) (kr := kr) (cl := cl) (cs := [c0]) (cr := cr) h.l1 (by simp) (by simpa using hord)
  have h2 := hrepl [] [c] (ordL_nil.2 ⟨hocc, h.ok⟩)
  have hmid : Below ld id p'.disk c (nextOf cr nxt) := by
    have hm := h.mid
    cases n with
    | zero => obtain ⟨a, b, rfl⟩ := c.leaf_cases; trivial
    | succ n =>
      refine below_frame (fun i _ hne => hfr i hne) ?_ hm
      have hnd2 : (c.pages ++ (pg :: (cl.flatMap BT.pages ++ cr.flatMap BT.pages) ++ R)).Nodup :=
        (List.Perm.nodup_iff (by perm_pages)).1 hnd
      exact (List.nodup_append.1 hnd2).1
  have ha := seg_after (p := p) (p' := p') (pg := pg) (kl := kl) (ks := []) (kr := kr) (cl := cl) (cs := []) (cr := cr) (c := c)
    (c0 := c0) (R := R) (nxt := nxt) (m := m) (cr0 := cr) (ks0 := kl ++ kr) rfl h.first h2 (by simpa using h.klen)
    (w2.perm (by perm_pages)) h.left ⟨⟨b2, hmid⟩, trivial⟩ h.right (fun i hi => hfr i (hne i ?_)) (by rw [m2, hm])
    (by rw [m2, hr1]) rfl
  · simp only [List.append_nil, List.append_assoc, List.cons_append, List.nil_append, List.flatMap_cons,
      List.flatMap_nil] at ha ⊢
    refine ⟨ha, ?_, fun h => h, fun h => h⟩
    show p'.disk.pages[pg]? = _
    rw [hfr pg (hne pg (by simp)), hat]
    simp [h.pgeq]
  · simp only [List.mem_append, List.mem_cons] at hi ⊢
    tauto

/-- The outcome of one round. -/
def Outcome (g : Bool) (ld id : Nat) {n : Nat} (p : Pager K V) (c : BT K V n) (x : Option Nat) (e : Nat × INode K × Nat)
    (t : BT K V (n + 1)) (R : List Nat) (lo hi : Option K) (nxt : Option Nat) (l : List (K × V)) (m : Nat) : Prop :=
  ∃ p' t', ((∀ st, rest ld id p c x (e :: st) = some p') ∧ RDone g ld id p p' t t' R lo hi nxt l m) ∨
    ((∀ st, rest ld id p c x (e :: st) = rest ld id p' t' nxt st) ∧ Pend g ld id p p' t t' R lo hi nxt l m)

theorem sibling_zero : siblingIndex 0 = 1 := rfl
theorem sibling_succ (i : Nat) : siblingIndex (i + 1) = i := rfl

theorem step_leaf_right {p : Pager K V} {pg k kr q es s ds} {c0 : BT K V 0} {cr R lo hi nxt} (hld : 1 ≤ ld)
    (h : Ctx g ld id p pg [] (k :: kr) [] c0 (BT.leaf q es) (BT.leaf s ds :: cr) R lo hi nxt)
    (hun : es.length < (ld + 1) / 2) :
    Outcome g ld id p (BT.leaf q es) (some s)
      (pg, encInt id (k :: kr) ((c0 :: BT.leaf s ds :: cr).map BT.pg), 0)
      (BT.node pg (k :: kr) (c0 :: BT.leaf s ds :: cr)) R lo hi nxt
      (es ++ (BT.leaf s ds :: cr).flatMap BT.toL) (p.md.len - 1) := by
  obtain ⟨wf, hleft, hmid, hright, hfirst, hpg, l1, l2, klen, kne, ord, hok, occ⟩ := h
  have hpq : q = c0.pg := hpg
  have wf : WfG g ld id p (pg :: q :: s :: (cr.flatMap BT.pages ++ R)) := wf.perm (by perm_pages)
  have hnd := wf.nodup
  simp only [List.nodup_cons, List.mem_cons, not_or] at hnd
  obtain ⟨⟨n1, n2, n3⟩, ⟨n4, n5⟩, n6, -⟩ := hnd
  have hdeg := wf.ldeg
  obtain ⟨hs1, hb1, hl1⟩ := ok_leaf.1 hok
  obtain ⟨hseg, hrepl⟩ := ordL_ctx (kl := []) (ks := [k]) (kr := kr) (cl := []) (cs := [c0, BT.leaf s ds]) (cr := cr)
    rfl rfl ord
  simp only [lowB, List.nil_append, List.singleton_append] at hseg hrepl
  obtain ⟨hsep, hc0, hocc, hokd⟩ := hseg
  obtain ⟨hs2, hb2, hl2⟩ := ok_leaf.1 hokd
  have hocc : (ld + 1) / 2 ≤ ds.length := hocc
  have occ : (ld + 1) / 2 ≤ es.length + 1 := occ
  have hrepD : RepT ld id p.disk (BT.leaf s ds) (nextOf cr nxt) := hright.1
  have hatD : AtPage p.disk s (.leaf (encLeaf ld ds (nextOf cr nxt))) := hrepD.1
  have hmap : (c0 :: BT.leaf s ds :: cr).map BT.pg = q :: s :: cr.map BT.pg := by simp [hpq]
  rw [hmap]
  have hptr : (encInt id (k :: kr) (q :: s :: cr.map BT.pg)).ptrs[1]? = some s := by
    have := ptrs_encInt (id := id) (ks := k :: kr) (pl := [q]) (q := s) (pr := cr.map BT.pg)
    simpa using this
  have hlt : ∀ a ∈ es, ∀ b ∈ ds, a.1 < b.1 := fun a ha b hb =>
    lt_of_lt_of_le ((hb1 a ha).2 k rfl) ((hb2 b hb).1 k rfl)
  have hloE : ∀ e ∈ es, EntIn lo (hiB kr hi) e.1 := fun e he =>
    ⟨(hb1 e he).1, fun b hb => lt_trans ((hb1 e he).2 k rfl) (hsep.2 b hb)⟩
  have hhiD : ∀ e ∈ ds, EntIn lo (hiB kr hi) e.1 := fun e he =>
    ⟨fun a ha => le_trans (le_of_lt (hsep.1 a ha)) ((hb2 e he).1 k rfl), (hb2 e he).2⟩
  by_cases hmin : ds.length = (ld + 1) / 2
  · -- merge
    have wf' : WfG g ld id p (s :: pg :: q :: (cr.flatMap BT.pages ++ R)) := wf.perm (by perm_pages)
    obtain ⟨p1, p2, e1, e2, w2, a2, m2, r2, f2⟩ := wf'.drop_write (a := q) (by simp)
      (.leaf (encLeaf ld (es ++ ds) (nextOf cr nxt)))
    refine ⟨p2.setLen (p2.md.len - 1), BT.node pg kr (BT.leaf q (es ++ ds) :: cr), Or.inr ⟨?_, ?_, ?_⟩⟩
    · intro st
      rw [rest_leaf, rest_node, removeLeaf]
      have hrem := removeAt_encInt (id := id) (k := k) (kl := []) (kr := kr) (pl := [q]) (q := s) (pr := cr.map BT.pg)
        (right := true) rfl (by simp at l2 ⊢; omega) (by simpa using klen)
      simp only [List.nil_append, List.length_nil, List.cons_append] at hrem
      simp only [hdeg, len_encLeaf, hun, if_true, sibling_zero, hptr, getPage_eq hatD, hmin,
        merge_encLeaf (es1 := es) (es2 := ds) (ld := ld) (n1 := some s) (n2 := nextOf cr nxt) (by omega), e1, e2,
        List.map_cons, BT.pg_leaf, hrem]
    · have ho := hrepl [] [BT.leaf q (es ++ ds)] (ordL_nil.2 ⟨?_, ok_leaf.2 ⟨?_, ?_, ?_⟩⟩)
      · exact seg_after (p := p) (p' := p2.setLen (p2.md.len - 1)) (pg := pg) (R := R) (nxt := nxt) (cr := cr) (c := BT.leaf q (es ++ ds)) (cl := []) (kl := []) (ks := []) (cs := []) (ks0 := k :: kr) (c0 := c0) (m := p.md.len - 1) rfl hfirst ho
          (by simp at klen ⊢; omega) ((w2.setLen _).perm (by perm_pages)) hleft ⟨⟨a2, trivial⟩, trivial⟩ hright.2
          (fun i hi => f2 i (by rintro rfl; simp at hi n6; tauto) (by rintro rfl; simp at hi n5; tauto)) (by rw [← m2]; rfl) r2 (by simp)
      · show (ld + 1) / 2 ≤ (es ++ ds).length
        simp; omega
      · exact SL.sorted_append.2 ⟨hs1, hs2, hlt⟩
      · intro e he
        rcases List.mem_append.1 he with he | he
        · exact hloE e he
        · exact hhiD e he
      · simp; omega
    · intro h
      have h : (id + 1) / 2 ≤ (k :: kr).length + 1 := h
      exact h
  · -- borrow
    cases ds with
    | nil => simp at hocc; omega
    | cons d ds =>
      cases ds with
      | nil => simp at hocc hmin; omega
      | cons d2 ds =>
        obtain ⟨p1, p2, p3, e1, e2, e3, w3, a1, a2, a3, m3, f3⟩ := wf.write3 (a := pg) (b := s) (c := q) (by simp) (by simp) (by simp)
          n2 n1 (Ne.symm n4)
          (.internal (encInt id (d2.1 :: kr) (q :: s :: cr.map BT.pg)))
          (.leaf (encLeaf ld (d2 :: ds) (nextOf cr nxt))) (.leaf (encLeaf ld (es ++ [d]) (some s)))
        have hdd := List.pairwise_cons.1 hs2
        have hd2 := List.pairwise_cons.1 hdd.2
        have hins := insert_encLeaf_room (ld := ld) (e := d) (el := es) (er := []) (nxt := some s)
          (fun a ha => hlt a ha d (by simp)) (by simp) List.Pairwise.nil (by simp; omega)
        rw [List.append_nil] at hins
        have hrem := removeAt_encLeaf (ld := ld) (e := d) (el := []) (er := d2 :: ds) (nxt := nextOf cr nxt) hl2
        simp only [List.nil_append, List.length_nil] at hrem
        have hget : (encLeaf ld (d2 :: ds) (nextOf cr nxt)).entries[0]? = some (some d2) := by
          simp [encLeaf, pad]
        have hst := store_encInt (id := id) (kl := []) (k := k) (k' := d2.1) (kr := kr)
          (ps := q :: s :: cr.map BT.pg)
        have hsk := setKey_encInt (id := id) (kl := []) (k := k) (k' := d2.1) (kr := kr)
          (ps := q :: s :: cr.map BT.pg)
        simp only [List.nil_append, List.length_nil] at hst hsk
        refine ⟨p3.setLen (p3.md.len - 1), BT.node pg (d2.1 :: kr) (BT.leaf q (es ++ [d]) :: BT.leaf s (d2 :: ds) :: cr),
          Or.inl ⟨?_, ?_, ?_, ?_, ?_⟩⟩
        · intro st
          rw [rest_leaf, removeLeaf]
          simp only [hdeg, len_encLeaf, hun, if_true, sibling_zero, hptr, getPage_eq hatD, hmin, if_false, hrem, hget,
            hst, hins, hsk, e1, e2, e3]
        · have ho := hrepl [d2.1] [BT.leaf q (es ++ [d]), BT.leaf s (d2 :: ds)] ⟨?_, ⟨?_, ok_leaf.2 ⟨?_, ?_, ?_⟩⟩,
            ?_, ok_leaf.2 ⟨hdd.2, ?_, ?_⟩⟩
          · exact seg_after (p := p) (p' := p3.setLen (p3.md.len - 1)) (pg := pg) (R := R) (nxt := nxt) (cr := cr) (c := BT.leaf q (es ++ [d])) (cl := []) (kl := []) (ks := [d2.1]) (cs := [BT.leaf s (d2 :: ds)]) (ks0 := k :: kr) (c0 := c0)
              (m := p.md.len - 1) rfl hfirst ho
              (by simpa using klen) ((w3.setLen _).perm (by perm_pages)) hleft ⟨⟨a3, trivial⟩, ⟨a2, trivial⟩, trivial⟩ hright.2
              (fun i hi => f3 i (by rintro rfl; simp at hi n3; tauto) (by rintro rfl; simp at hi n6; tauto) (by rintro rfl; simp at hi n5; tauto))
              (by rw [← m3]; rfl) (by rw [← m3]; rfl) (by simp)
          · refine ⟨fun a ha => lt_of_lt_of_le (hsep.1 a ha) ((hb2 d2 (by simp)).1 k rfl), (hb2 d2 (by simp)).2⟩
          · show (ld + 1) / 2 ≤ (es ++ [d]).length
            simp; omega
          · refine SL.sorted_append.2 ⟨hs1, List.pairwise_singleton _ _, ?_⟩
            intro a ha b hb
            exact hlt a ha b (by simp at hb; simp [hb])
          · intro e he
            refine ⟨?_, ?_⟩
            · rcases List.mem_append.1 he with he | he
              · exact (hloE e he).1
              · exact (hhiD e (by simp at he; simp [he])).1
            · intro b hb
              cases hb
              rcases List.mem_append.1 he with he | he
              · exact hlt e he d2 (by simp)
              · simp at he; rw [he]; exact hdd.1 d2 (by simp)
          · simp; omega
          · show (ld + 1) / 2 ≤ (d2 :: ds).length
            simp at hocc hmin ⊢; omega
          · intro e he
            refine ⟨fun a ha => ?_, (hb2 e (by simp at he ⊢; tauto)).2⟩
            cases ha
            rcases List.mem_cons.1 he with rfl | he
            · exact le_refl _
            · exact le_of_lt (hd2.1 e he)
          · simp at hl2 ⊢; omega
        · show p3.disk.pages[pg]? = _
          rw [a1]
          simp [hpq]
        · intro h
          exact h
        · intro _
          exact rootOk_node.2 (by simp)

theorem step_leaf_left {p : Pager K V} {pg k kl kr q es s ds} {c0 : BT K V 0} {cl cr R lo hi nxt} (hld : 1 ≤ ld)
    (h : Ctx g ld id p pg (kl ++ [k]) kr (cl ++ [BT.leaf s ds]) c0 (BT.leaf q es) cr R lo hi nxt)
    (hun : es.length < (ld + 1) / 2) :
    Outcome g ld id p (BT.leaf q es) (nextOf cr nxt)
      (pg, encInt id (kl ++ k :: kr) ((cl ++ BT.leaf s ds :: c0 :: cr).map BT.pg), kl.length + 1)
      (BT.node pg (kl ++ k :: kr) (cl ++ BT.leaf s ds :: c0 :: cr)) R lo hi nxt
      ((cl ++ [BT.leaf s ds]).flatMap BT.toL ++ es ++ cr.flatMap BT.toL) (p.md.len - 1) := by
  obtain ⟨wf, hleft, hmid, hright, hfirst, hpg, l1, l2, klen, kne, ord, hok, occ⟩ := h
  have hpq : q = c0.pg := hpg
  have hfq : q = c0.first := hfirst
  have wf : WfG g ld id p (pg :: q :: s :: (cl.flatMap BT.pages ++ cr.flatMap BT.pages ++ R)) := wf.perm (by perm_pages)
  have hnd := wf.nodup
  simp only [List.nodup_cons, List.mem_cons, not_or] at hnd
  obtain ⟨⟨n1, n2, n3⟩, ⟨n4, n5⟩, n6, -⟩ := hnd
  have hdeg := wf.ldeg
  rw [lowB_snoc] at hok
  obtain ⟨hs1, hb1, hl1⟩ := ok_leaf.1 hok
  simp only [List.length_append, List.length_cons, List.length_nil, Nat.add_right_cancel_iff] at l1
  simp only [List.append_assoc, List.cons_append, List.nil_append, List.length_append, List.length_cons] at klen
  obtain ⟨hseg, hrepl⟩ := ordL_ctx (kl := kl) (ks := [k]) (kr := kr) (cl := cl) (cs := [BT.leaf s ds, c0]) (cr := cr)
    l1 rfl (by simpa using ord)
  obtain ⟨hsep, ⟨hocc, hokd⟩, hc0⟩ := hseg
  obtain ⟨hs2, hb2, hl2⟩ := ok_leaf.1 hokd
  have hocc : (ld + 1) / 2 ≤ ds.length := hocc
  have occ : (ld + 1) / 2 ≤ es.length + 1 := occ
  have hleft' := linked_append.1 hleft
  have hrepD : RepT ld id p.disk (BT.leaf s ds) (some c0.first) := hleft'.2.1
  have hleft'' : Linked (RepT ld id p.disk) cl (some s) := hleft'.1
  have hatD : AtPage p.disk s (.leaf (encLeaf ld ds (some q))) := by rw [hfq]; exact hrepD.1
  have hmap : (cl ++ BT.leaf s ds :: c0 :: cr).map BT.pg = cl.map BT.pg ++ s :: q :: cr.map BT.pg := by simp [hpq]
  rw [hmap]
  have hptr : (encInt id (kl ++ k :: kr) (cl.map BT.pg ++ s :: q :: cr.map BT.pg)).ptrs[kl.length]? = some s := by
    have := ptrs_encInt (id := id) (ks := kl ++ k :: kr) (pl := cl.map BT.pg) (q := s) (pr := q :: cr.map BT.pg)
    rw [List.length_map, l1] at this
    exact this
  have hlt : ∀ a ∈ ds, ∀ b ∈ es, a.1 < b.1 := fun a ha b hb =>
    lt_of_lt_of_le ((hb2 a ha).2 k rfl) ((hb1 b hb).1 k rfl)
  have hloE : ∀ e ∈ ds, EntIn (lowB kl lo) (hiB kr hi) e.1 := fun e he =>
    ⟨(hb2 e he).1, fun b hb => lt_trans ((hb2 e he).2 k rfl) (hsep.2 b hb)⟩
  have hhiD : ∀ e ∈ es, EntIn (lowB kl lo) (hiB kr hi) e.1 := fun e he =>
    ⟨fun a ha => le_trans (le_of_lt (hsep.1 a ha)) ((hb1 e he).1 k rfl), (hb1 e he).2⟩
  have hidx : ¬ kl.length = kl.length + 1 + 1 := by omega
  by_cases hmin : ds.length = (ld + 1) / 2
  · -- merge
    have wf' : WfG g ld id p (q :: pg :: s :: (cl.flatMap BT.pages ++ cr.flatMap BT.pages ++ R)) := wf.perm (by perm_pages)
    obtain ⟨p1, p2, e1, e2, w2, a2, m2, r2, f2⟩ := wf'.drop_write (a := s) (by simp)
      (.leaf (encLeaf ld (ds ++ es) (nextOf cr nxt)))
    refine ⟨p2.setLen (p2.md.len - 1), BT.node pg (kl ++ [] ++ kr) (cl ++ [BT.leaf s (ds ++ es)] ++ cr), Or.inr ⟨?_, ?_, ?_⟩⟩
    · intro st
      rw [rest_leaf, rest_node, removeLeaf]
      have hrem := removeAt_encInt (id := id) (k := k) (kl := kl) (kr := kr) (pl := cl.map BT.pg ++ [s]) (q := q) (pr := cr.map BT.pg)
        (right := true) (by simp [l1]) (by simp [l1, l2]; omega) (by simp; omega)
      simp only [List.append_assoc, List.cons_append, List.nil_append] at hrem
      simp only [hdeg, len_encLeaf, hun, if_true, sibling_succ, hptr, getPage_eq hatD, hmin, hidx, if_false,
        merge_encLeaf (es1 := ds) (es2 := es) (ld := ld) (n1 := some q) (n2 := nextOf cr nxt) (by omega), e1, e2,
        List.map_cons, BT.pg_leaf, hrem]
      simp
    · have ho := hrepl [] [BT.leaf s (ds ++ es)] (ordL_nil.2 ⟨?_, ok_leaf.2 ⟨?_, ?_, ?_⟩⟩)
      · exact seg_after (p := p) (p' := p2.setLen (p2.md.len - 1)) (pg := pg) (R := R) (nxt := nxt) (cr := cr)
          (c := BT.leaf s (ds ++ es)) (cl := cl) (kl := kl) (ks := []) (cs := []) (ks0 := kl ++ k :: kr) (c0 := BT.leaf s ds)
          (cr0 := c0 :: cr) (m := p.md.len - 1) rfl rfl ho
          (by simp; omega) ((w2.setLen _).perm (by perm_pages)) hleft'' ⟨⟨a2, trivial⟩, trivial⟩ hright
          (fun i hi => f2 i (by rintro rfl; exact n5 hi) (by rintro rfl; exact n6 hi)) (by rw [← m2]; rfl) r2 (by simp)
      · show (ld + 1) / 2 ≤ (ds ++ es).length
        simp; omega
      · exact SL.sorted_append.2 ⟨hs2, hs1, hlt⟩
      · intro e he
        rcases List.mem_append.1 he with he | he
        · exact hloE e he
        · exact hhiD e he
      · simp; omega
    · intro h
      have h : (id + 1) / 2 ≤ (kl ++ k :: kr).length + 1 := h
      show (id + 1) / 2 ≤ (kl ++ [] ++ kr).length + 2
      simp at h ⊢; omega
  · -- borrow
    obtain ⟨ds', d, rfl⟩ : ∃ ds' d, ds = ds' ++ [d] := by
      have : ds ≠ [] := by rintro rfl; simp at hocc; omega
      exact ⟨ds.dropLast, ds.getLast this, (List.dropLast_concat_getLast this).symm⟩
    obtain ⟨p1, p2, p3, e1, e2, e3, w3, a1, a2, a3, m3, f3⟩ := wf.write3 (a := pg) (b := s) (c := q) (by simp) (by simp) (by simp)
      n2 n1 (Ne.symm n4)
      (.internal (encInt id (kl ++ d.1 :: kr) (cl.map BT.pg ++ s :: q :: cr.map BT.pg)))
      (.leaf (encLeaf ld ds' (some q))) (.leaf (encLeaf ld (d :: es) (nextOf cr nxt)))
    have hdd := SL.sorted_append.1 hs2
    have hins := insert_encLeaf_room (ld := ld) (e := d) (el := []) (er := es) (nxt := nextOf cr nxt)
      (by simp) (fun a ha => hlt d (by simp) a ha) hs1 (by simp; omega)
    simp only [List.nil_append] at hins
    have hrem := removeAt_encLeaf (ld := ld) (e := d) (el := ds') (er := []) (nxt := some q) hl2
    rw [List.append_nil] at hrem
    have hst := store_encInt (id := id) (kl := kl) (k := k) (k' := d.1) (kr := kr)
      (ps := cl.map BT.pg ++ s :: q :: cr.map BT.pg)
    have hsk := setKey_encInt (id := id) (kl := kl) (k := k) (k' := d.1) (kr := kr)
      (ps := cl.map BT.pg ++ s :: q :: cr.map BT.pg)
    have hdl : (ds' ++ [d]).length - 1 = ds'.length := by simp
    refine ⟨p3.setLen (p3.md.len - 1), BT.node pg (kl ++ [d.1] ++ kr) (cl ++ [BT.leaf s ds', BT.leaf q (d :: es)] ++ cr),
      Or.inl ⟨?_, ?_, ?_, ?_, ?_⟩⟩
    · intro st
      rw [rest_leaf, removeLeaf]
      simp only [hdeg, len_encLeaf, hun, if_true, sibling_succ, hptr, getPage_eq hatD, hmin, if_false, hidx, hdl, hrem,
        hst, hins, hsk, e1, e2, e3]
    · have ho := hrepl [d.1] [BT.leaf s ds', BT.leaf q (d :: es)] ⟨?_, ⟨?_, ok_leaf.2 ⟨hdd.1, ?_, ?_⟩⟩,
        ?_, ok_leaf.2 ⟨?_, ?_, ?_⟩⟩
      · exact seg_after (p := p) (p' := p3.setLen (p3.md.len - 1)) (pg := pg) (R := R) (nxt := nxt) (cr := cr)
          (c := BT.leaf s ds') (cl := cl) (kl := kl) (ks := [d.1]) (cs := [BT.leaf q (d :: es)]) (ks0 := kl ++ k :: kr)
          (c0 := BT.leaf s (ds' ++ [d])) (cr0 := c0 :: cr) (m := p.md.len - 1) rfl rfl ho
          (by simp; omega) ((w3.setLen _).perm (by perm_pages)) hleft''
          ⟨⟨a2, trivial⟩, ⟨a3, trivial⟩, trivial⟩ hright
          (fun i hi => f3 i (by rintro rfl; exact n3 hi) (by rintro rfl; exact n6 hi) (by rintro rfl; exact n5 hi))
          (by rw [← m3]; rfl) (by rw [← m3]; rfl) (by simp)
      · refine ⟨fun a ha => ?_, fun b hb => lt_trans ((hb2 d (by simp)).2 k rfl) (hsep.2 b hb)⟩
        cases ds' with
        | nil => simp at hocc hmin; omega
        | cons x ds' => exact lt_of_le_of_lt ((hb2 x (by simp)).1 a ha) (hdd.2.2 x (by simp) d (by simp))
      · show (ld + 1) / 2 ≤ ds'.length
        simp at hocc hmin; omega
      · intro e he
        refine ⟨(hb2 e (by simp [he])).1, fun b hb => ?_⟩
        cases hb
        exact hdd.2.2 e he d (by simp)
      · simp at hl2; omega
      · show (ld + 1) / 2 ≤ (d :: es).length
        simp; omega
      · exact List.pairwise_cons.2 ⟨fun a ha => hlt d (by simp) a ha, hs1⟩
      · intro e he
        refine ⟨fun a ha => ?_, ?_⟩
        · cases ha
          rcases List.mem_cons.1 he with rfl | he
          · exact le_refl _
          · exact le_of_lt (hlt d (by simp) e he)
        · rcases List.mem_cons.1 he with rfl | he
          · exact (hloE e (by simp)).2
          · exact (hhiD e he).2
      · simp; omega
    · show p3.disk.pages[pg]? = _
      rw [a1]
      simp
    · intro h
      have h : (id + 1) / 2 ≤ (kl ++ k :: kr).length + 1 := h
      show (id + 1) / 2 ≤ (kl ++ [d.1] ++ kr).length + 1
      simp at h ⊢; omega
    · intro _
      exact rootOk_node.2 (by simp)

theorem nextOf_first {n : Nat} {pg ks} {cs : List (BT K V n)} (hne : cs ≠ []) (x : Option Nat) :
    nextOf cs x = some (BT.node pg ks cs).first := by
  cases cs with
  | nil => exact absurd rfl hne
  | cons c cs => rfl

theorem ordL_ne {C : Type} {P : C → Option K → Option K → Prop} {ks} {cs : List C} {lo hi}
    (h : OrdL P ks cs lo hi) : cs ≠ [] := by
  rintro rfl
  have := ordL_length h
  simp at this

theorem step_node_right {n : Nat} {p : Pager K V} {pg k kr q ks s js} {cs ds : List (BT K V n)} {c0 : BT K V (n + 1)}
    {cr R lo hi nxt} (hid : 3 ≤ id)
    (h : Ctx g ld id p pg [] (k :: kr) [] c0 (BT.node q ks cs) (BT.node s js ds :: cr) R lo hi nxt)
    (hun : ks.length + 1 < (id + 1) / 2) :
    Outcome g ld id p (BT.node q ks cs) (some (BT.node s js ds).first)
      (pg, encInt id (k :: kr) ((c0 :: BT.node s js ds :: cr).map BT.pg), 0)
      (BT.node pg (k :: kr) (c0 :: BT.node s js ds :: cr)) R lo hi nxt
      ((BT.node q ks cs).toL ++ (BT.node s js ds :: cr).flatMap BT.toL) p.md.len := by
  obtain ⟨wf, hleft, hmid, hright, hfirst, hpg, l1, l2, klen, kne, ord, hok, occ⟩ := h
  have hpq : q = c0.pg := hpg
  have wf : WfG g ld id p (pg :: q :: s :: (cs.flatMap BT.pages ++ ds.flatMap BT.pages ++ cr.flatMap BT.pages ++ R)) :=
    wf.perm (by perm_pages)
  have hnd := wf.nodup
  simp only [List.nodup_cons, List.mem_cons, not_or] at hnd
  obtain ⟨⟨n1, n2, n3⟩, ⟨n4, n5⟩, n6, -⟩ := hnd
  have hdeg := wf.ideg
  obtain ⟨hl1, ho1⟩ := ok_node.1 hok
  obtain ⟨hseg, hrepl⟩ := ordL_ctx (kl := []) (ks := [k]) (kr := kr) (cl := []) (cs := [c0, BT.node s js ds]) (cr := cr)
    rfl rfl ord
  simp only [lowB, List.nil_append, List.singleton_append, hiB_cons] at hseg hrepl ho1
  obtain ⟨hsep, hc0, hocc, hokd⟩ := hseg
  obtain ⟨hl2, ho2⟩ := ok_node.1 hokd
  have hoccN : (id + 1) / 2 ≤ js.length + 1 := hocc
  have occ : (id + 1) / 2 ≤ ks.length + 2 := occ
  have hcs := ordL_ne ho1
  have hds := ordL_ne ho2
  have hclen := ordL_length ho1
  have hdlen := ordL_length ho2
  have hlkc : Linked (RepT ld id p.disk) cs (some (BT.node s js ds).first) := below_node.1 hmid
  have hrepD : RepT ld id p.disk (BT.node s js ds) (nextOf cr nxt) := hright.1
  have hlkd : Linked (RepT ld id p.disk) ds (nextOf cr nxt) := below_node.1 hrepD.2
  have hatD : AtPage p.disk s (.internal (encInt id js (ds.map BT.pg))) := hrepD.1
  have hmap : (c0 :: BT.node s js ds :: cr).map BT.pg = q :: s :: cr.map BT.pg := by simp [hpq]
  rw [hmap]
  have hptr : (encInt id (k :: kr) (q :: s :: cr.map BT.pg)).ptrs[1]? = some s := by
    have := ptrs_encInt (id := id) (ks := k :: kr) (pl := [q]) (q := s) (pr := cr.map BT.pg)
    simpa using this
  have hkey : (encInt id (k :: kr) (q :: s :: cr.map BT.pg)).keys[0]? = some (some k) := by
    have := keys_encInt (id := id) (kl := []) (k := k) (kr := kr) (ps := q :: s :: cr.map BT.pg)
    simpa using this
  have hks := ordL_keys ho1
  by_cases hmin : js.length + 1 = (id + 1) / 2
  · -- merge
    have wf' : WfG g ld id p (s :: pg :: q :: (cs.flatMap BT.pages ++ ds.flatMap BT.pages ++ cr.flatMap BT.pages ++ R)) :=
      wf.perm (by perm_pages)
    obtain ⟨p2, p3, e1, e2, w2, a2, m2, r2, f2⟩ := wf'.drop_write (a := q) (by simp)
      (.internal (encInt id (ks ++ k :: js) ((cs ++ ds).map BT.pg)))
    have hfr : ∀ i ∈ cs.flatMap BT.pages ++ ds.flatMap BT.pages ++ cr.flatMap BT.pages ++ R,
        p3.disk.pages[i]? = p.disk.pages[i]? := fun i hi =>
      f2 i (by rintro rfl; exact n6 hi) (by rintro rfl; exact n5 hi)
    refine ⟨p3, BT.node pg kr (BT.node q (ks ++ k :: js) (cs ++ ds) :: cr), Or.inr ⟨?_, ?_, ?_⟩⟩
    · intro st
      rw [rest_node, rest_node, removeUp]
      have hrem := removeAt_encInt (id := id) (k := k) (kl := []) (kr := kr) (pl := [q]) (q := s) (pr := cr.map BT.pg)
        (right := true) rfl (by simp at l2 ⊢; omega) (by simpa using klen)
      simp only [List.nil_append, List.length_nil, List.cons_append] at hrem
      have hmerge := merge_encInt (id := id) (k := k) (ks1 := ks) (ks2 := js) (ps1 := cs.map BT.pg) (ps2 := ds.map BT.pg)
        (by simpa using hclen) (by simpa using hdlen) (by omega)
      rw [← List.map_append] at hmerge
      simp only [hdeg, len_encInt, hun, if_true, sibling_zero, hptr, getPage_eq hatD, hmin, hkey, hmerge, e1, e2,
        List.map_cons, BT.pg_node, hrem]
    · have ho := hrepl [] [BT.node q (ks ++ k :: js) (cs ++ ds)] (ordL_nil.2 ⟨?_, ok_node.2 ⟨?_, ?_⟩⟩)
      · refine seg_after (p := p) (p' := p3) (pg := pg) (R := R) (nxt := nxt) (cr := cr)
          (c := BT.node q (ks ++ k :: js) (cs ++ ds)) (cl := []) (kl := []) (ks := []) (cs := []) (ks0 := k :: kr) (c0 := c0)
          (m := p.md.len) rfl ?_ ho
          (by simp at klen ⊢; omega) (w2.perm (by perm_pages)) hleft ⟨⟨a2, below_node.2 (linked_append.2 ⟨?_, ?_⟩)⟩, trivial⟩ hright.2
          (frame_of hfr (by simp +contextual)) m2 r2 (by simp)
        · rw [← hfirst]
          cases cs with
          | nil => exact absurd rfl hcs
          | cons c cs => rfl
        · rw [nextOf_first (pg := s) (ks := js) hds]
          exact linked_frame (frame_of hfr (by simp +contextual)) hlkc
        · exact linked_frame (frame_of hfr (by simp +contextual)) hlkd
      · show (id + 1) / 2 ≤ (ks ++ k :: js).length + 1
        simp; omega
      · simp; omega
      · exact (ordL_join hclen).2 ⟨ho1, hsep, ho2⟩
    · intro h
      have h : (id + 1) / 2 ≤ (k :: kr).length + 1 := h
      exact h
  · -- borrow
    cases js with
    | nil => simp at hoccN hmin; omega
    | cons j js =>
      cases ds with
      | nil => exact absurd rfl hds
      | cons e ds =>
        obtain ⟨hj, he, ho3⟩ := ordL_cons.1 ho2
        have hds' := ordL_ne ho3
        obtain ⟨p1, p2, p3, e1, e2, e3, w3, a1, a2, a3, m3, f3⟩ := wf.write3 (a := pg) (b := s) (c := q) (by simp) (by simp) (by simp)
          n2 n1 (Ne.symm n4)
          (.internal (encInt id (j :: kr) (q :: s :: cr.map BT.pg)))
          (.internal (encInt id js (ds.map BT.pg))) (.internal (encInt id (ks ++ [k]) ((cs ++ [e]).map BT.pg)))
        have hfr : ∀ i ∈ cs.flatMap BT.pages ++ (e :: ds).flatMap BT.pages ++ cr.flatMap BT.pages ++ R,
            p3.disk.pages[i]? = p.disk.pages[i]? := fun i hi =>
          f3 i (by rintro rfl; exact n3 hi) (by rintro rfl; exact n6 hi) (by rintro rfl; exact n5 hi)
        have hins := insert_encInt (id := id) (k := k) (p := e.pg) (kl := ks) (kr := []) (pl := cs.map BT.pg) (pr := [])
          (by simpa using hclen) rfl (fun a ha => le_of_lt ((hks.2 a ha).2 k rfl)) (by simp) List.Pairwise.nil (by simp; omega)
        simp only [List.append_nil] at hins
        have hrem := removeAt_encInt (id := id) (k := j) (kl := []) (kr := js) (pl := []) (q := e.pg) (pr := ds.map BT.pg)
          (right := false) rfl (by simp at hdlen ⊢; omega) (by simpa using hl2)
        simp only [List.nil_append, List.length_nil] at hrem
        have hsk := setKey_encInt (id := id) (kl := []) (k := k) (k' := j) (kr := kr) (ps := q :: s :: cr.map BT.pg)
        simp only [List.nil_append, List.length_nil] at hsk
        obtain ⟨hlke, hlkd'⟩ := hlkd
        refine ⟨p3, BT.node pg (j :: kr) (BT.node q (ks ++ [k]) (cs ++ [e]) :: BT.node s js ds :: cr),
          Or.inl ⟨?_, ?_, ?_, ?_, ?_⟩⟩
        · intro st
          rw [rest_node, removeUp]
          simp only [len_encInt] at hsk
          rw [List.map_append] at e3
          simp only [List.map_cons, List.map_nil] at e3 hatD
          simp only [hdeg, len_encInt, hun, if_true, sibling_zero, hptr, getPage_eq hatD, hmin, if_false, hrem, hkey,
            hins, hsk, e1, e2, e3]
        · have ho := hrepl [j] [BT.node q (ks ++ [k]) (cs ++ [e]), BT.node s js ds] ⟨?_, ⟨?_, ok_node.2 ⟨?_, ?_⟩⟩,
            ?_, ok_node.2 ⟨?_, ho3⟩⟩
          · refine seg_after (p := p) (p' := p3) (pg := pg) (R := R) (nxt := nxt) (cr := cr)
              (c := BT.node q (ks ++ [k]) (cs ++ [e])) (cl := []) (kl := []) (ks := [j]) (cs := [BT.node s js ds])
              (ks0 := k :: kr) (c0 := c0) (m := p.md.len) rfl ?_ ho
              (by simpa using klen) (w3.perm (by perm_pages)) hleft
              ⟨⟨a3, below_node.2 (linked_append.2 ⟨?_, ?_, trivial⟩)⟩, ⟨a2, below_node.2 ?_⟩, trivial⟩ hright.2
              (frame_of hfr (by simp +contextual)) (by rw [m3]) (by rw [m3]) (by simp)
            · rw [← hfirst]
              cases cs with
              | nil => exact absurd rfl hcs
              | cons c cs => rfl
            · exact linked_frame (frame_of hfr (by simp +contextual)) hlkc
            · have := repT_frame (d' := p3.disk) (frame_of hfr (by simp +contextual)) hlke
              rw [nextOf_first (pg := s) (ks := js) hds'] at this
              exact this
            · exact linked_frame (frame_of hfr (by simp +contextual)) hlkd'
          · exact ⟨fun a ha => lt_trans (hsep.1 a ha) (hj.1 k rfl), hj.2⟩
          · show (id + 1) / 2 ≤ (ks ++ [k]).length + 1
            simp; omega
          · simp; omega
          · exact (ordL_join (kr := []) hclen).2 ⟨ho1, ⟨hsep.1, fun b hb => by cases hb; exact hj.1 k rfl⟩, ordL_nil.2 he⟩
          · show (id + 1) / 2 ≤ js.length + 1
            simp at hoccN hmin; omega
          · simp at hl2; omega
        · show p3.disk.pages[pg]? = _
          rw [a1]
          simp
        · intro h
          exact h
        · intro _
          exact rootOk_node.2 (by simp)

theorem step_node_left {n : Nat} {p : Pager K V} {pg k kl kr q ks s js} {cs ds : List (BT K V n)} {c0 : BT K V (n + 1)}
    {cl cr R lo hi nxt} (hid : 3 ≤ id)
    (h : Ctx g ld id p pg (kl ++ [k]) kr (cl ++ [BT.node s js ds]) c0 (BT.node q ks cs) cr R lo hi nxt)
    (hun : ks.length + 1 < (id + 1) / 2) :
    Outcome g ld id p (BT.node q ks cs) (nextOf cr nxt)
      (pg, encInt id (kl ++ k :: kr) ((cl ++ BT.node s js ds :: c0 :: cr).map BT.pg), kl.length + 1)
      (BT.node pg (kl ++ k :: kr) (cl ++ BT.node s js ds :: c0 :: cr)) R lo hi nxt
      ((cl ++ [BT.node s js ds]).flatMap BT.toL ++ (BT.node q ks cs).toL ++ cr.flatMap BT.toL) p.md.len := by
  obtain ⟨wf, hleft, hmid, hright, hfirst, hpg, l1, l2, klen, kne, ord, hok, occ⟩ := h
  have hpq : q = c0.pg := hpg
  have wf : WfG g ld id p (pg :: q :: s ::
      (cs.flatMap BT.pages ++ ds.flatMap BT.pages ++ cl.flatMap BT.pages ++ cr.flatMap BT.pages ++ R)) :=
    wf.perm (by perm_pages)
  have hnd := wf.nodup
  simp only [List.nodup_cons, List.mem_cons, not_or] at hnd
  obtain ⟨⟨n1, n2, n3⟩, ⟨n4, n5⟩, n6, -⟩ := hnd
  have hdeg := wf.ideg
  rw [lowB_snoc] at hok
  obtain ⟨hl1, ho1⟩ := ok_node.1 hok
  simp only [List.length_append, List.length_cons, List.length_nil, Nat.add_right_cancel_iff] at l1
  simp only [List.append_assoc, List.cons_append, List.nil_append, List.length_append, List.length_cons] at klen
  obtain ⟨hseg, hrepl⟩ := ordL_ctx (kl := kl) (ks := [k]) (kr := kr) (cl := cl) (cs := [BT.node s js ds, c0]) (cr := cr)
    l1 rfl (by simpa using ord)
  obtain ⟨hsep, ⟨hocc, hokd⟩, hc0⟩ := hseg
  obtain ⟨hl2, ho2⟩ := ok_node.1 hokd
  have hocc : (id + 1) / 2 ≤ js.length + 1 := hocc
  have occ : (id + 1) / 2 ≤ ks.length + 2 := occ
  have hcs := ordL_ne ho1
  have hds := ordL_ne ho2
  have hclen := ordL_length ho1
  have hdlen := ordL_length ho2
  have hleft' := linked_append.1 hleft
  have hrepD : RepT ld id p.disk (BT.node s js ds) (some c0.first) := hleft'.2.1
  have hleft'' : Linked (RepT ld id p.disk) cl (some (BT.node s js ds).first) := hleft'.1
  have hlkc : Linked (RepT ld id p.disk) cs (nextOf cr nxt) := below_node.1 hmid
  have hlkd : Linked (RepT ld id p.disk) ds (some c0.first) := below_node.1 hrepD.2
  rw [← hfirst] at hlkd
  have hatD : AtPage p.disk s (.internal (encInt id js (ds.map BT.pg))) := hrepD.1
  have hmap : (cl ++ BT.node s js ds :: c0 :: cr).map BT.pg = cl.map BT.pg ++ s :: q :: cr.map BT.pg := by simp [hpq]
  rw [hmap]
  have hptr : (encInt id (kl ++ k :: kr) (cl.map BT.pg ++ s :: q :: cr.map BT.pg)).ptrs[kl.length]? = some s := by
    have := ptrs_encInt (id := id) (ks := kl ++ k :: kr) (pl := cl.map BT.pg) (q := s) (pr := q :: cr.map BT.pg)
    rw [List.length_map, l1] at this
    exact this
  have hkey := keys_encInt (id := id) (kl := kl) (k := k) (kr := kr) (ps := cl.map BT.pg ++ s :: q :: cr.map BT.pg)
  have hks := ordL_keys ho1
  have hidx : ¬ kl.length = kl.length + 1 + 1 := by omega
  by_cases hmin : js.length + 1 = (id + 1) / 2
  · -- merge
    have wf' : WfG g ld id p (q :: pg :: s ::
        (cs.flatMap BT.pages ++ ds.flatMap BT.pages ++ cl.flatMap BT.pages ++ cr.flatMap BT.pages ++ R)) :=
      wf.perm (by perm_pages)
    obtain ⟨p2, p3, e1, e2, w2, a2, m2, r2, f2⟩ := wf'.drop_write (a := s) (by simp)
      (.internal (encInt id (js ++ k :: ks) ((ds ++ cs).map BT.pg)))
    have hfr : ∀ i ∈ cs.flatMap BT.pages ++ ds.flatMap BT.pages ++ cl.flatMap BT.pages ++ cr.flatMap BT.pages ++ R,
        p3.disk.pages[i]? = p.disk.pages[i]? := fun i hi =>
      f2 i (by rintro rfl; exact n5 hi) (by rintro rfl; exact n6 hi)
    refine ⟨p3, BT.node pg (kl ++ [] ++ kr) (cl ++ [BT.node s (js ++ k :: ks) (ds ++ cs)] ++ cr), Or.inr ⟨?_, ?_, ?_⟩⟩
    · intro st
      rw [rest_node, rest_node, removeUp]
      have hrem := removeAt_encInt (id := id) (k := k) (kl := kl) (kr := kr) (pl := cl.map BT.pg ++ [s]) (q := q) (pr := cr.map BT.pg)
        (right := true) (by simp [l1]) (by simp [l1, l2]; omega) (by simp; omega)
      simp only [List.append_assoc, List.cons_append, List.nil_append] at hrem
      have hmerge := merge_encInt (id := id) (k := k) (ks1 := js) (ks2 := ks) (ps1 := ds.map BT.pg) (ps2 := cs.map BT.pg)
        (by simpa using hdlen) (by simpa using hclen) (by omega)
      rw [← List.map_append] at hmerge
      simp only [hdeg, len_encInt, hun, if_true, sibling_succ, hptr, getPage_eq hatD, hmin, hidx, if_false, hkey, hmerge, e1, e2,
        List.map_cons, BT.pg_node, hrem]
      simp
    · have ho := hrepl [] [BT.node s (js ++ k :: ks) (ds ++ cs)] (ordL_nil.2 ⟨?_, ok_node.2 ⟨?_, ?_⟩⟩)
      · refine seg_after (p := p) (p' := p3) (pg := pg) (R := R) (nxt := nxt) (cr := cr)
          (c := BT.node s (js ++ k :: ks) (ds ++ cs)) (cl := cl) (kl := kl) (ks := []) (cs := []) (ks0 := kl ++ k :: kr)
          (c0 := BT.node s js ds) (cr0 := c0 :: cr)
          (m := p.md.len) rfl ?_ ho
          (by simp; omega) (w2.perm (by perm_pages)) hleft'' ⟨⟨a2, below_node.2 (linked_append.2 ⟨?_, ?_⟩)⟩, trivial⟩ hright
          (frame_of hfr (by simp +contextual)) m2 r2 (by simp)
        · cases ds with
          | nil => exact absurd rfl hds
          | cons c cs => rfl
        · rw [nextOf_first (pg := q) (ks := ks) hcs]
          exact linked_frame (frame_of hfr (by simp +contextual)) hlkd
        · exact linked_frame (frame_of hfr (by simp +contextual)) hlkc
      · show (id + 1) / 2 ≤ (js ++ k :: ks).length + 1
        simp; omega
      · simp; omega
      · exact (ordL_join hdlen).2 ⟨ho2, hsep, ho1⟩
    · intro h
      have h : (id + 1) / 2 ≤ (kl ++ k :: kr).length + 1 := h
      show (id + 1) / 2 ≤ (kl ++ [] ++ kr).length + 2
      simp at h ⊢; omega
  · -- borrow
    obtain ⟨js', j, rfl⟩ : ∃ js' j, js = js' ++ [j] := by
      have : js ≠ [] := by rintro rfl; simp at hocc hmin; omega
      exact ⟨js.dropLast, js.getLast this, (List.dropLast_concat_getLast this).symm⟩
    obtain ⟨ds', e, rfl⟩ : ∃ ds' e, ds = ds' ++ [e] :=
      ⟨ds.dropLast, ds.getLast hds, (List.dropLast_concat_getLast hds).symm⟩
    simp only [List.length_append, List.length_cons, List.length_nil] at hdlen hocc hmin hl2
    have hdlen' : ds'.length = js'.length + 1 := by omega
    obtain ⟨ho3, hj, he⟩ := (ordL_join (kr := []) hdlen').1 ho2
    have he := ordL_nil.1 he
    have hds' := ordL_ne ho3
    obtain ⟨p1, p2, p3, e1, e2, e3, w3, a1, a2, a3, m3, f3⟩ := wf.write3 (a := pg) (b := s) (c := q) (by simp) (by simp) (by simp)
      n2 n1 (Ne.symm n4)
      (.internal (encInt id (kl ++ j :: kr) (cl.map BT.pg ++ s :: q :: cr.map BT.pg)))
      (.internal (encInt id js' (ds'.map BT.pg))) (.internal (encInt id (k :: ks) ((e :: cs).map BT.pg)))
    have hfr : ∀ i ∈ cs.flatMap BT.pages ++ (ds' ++ [e]).flatMap BT.pages ++ cl.flatMap BT.pages ++ cr.flatMap BT.pages ++ R,
        p3.disk.pages[i]? = p.disk.pages[i]? := fun i hi =>
      f3 i (by rintro rfl; exact n3 hi) (by rintro rfl; exact n6 hi) (by rintro rfl; exact n5 hi)
    have hins := insertFirst_encInt (id := id) (k := k) (p := e.pg) (ks := ks) (ps := cs.map BT.pg)
      (by simpa using hclen) (fun a ha => (hks.2 a ha).1 k rfl) hks.1 (by omega)
    have hrem := removeAt_encInt (id := id) (k := j) (kl := js') (kr := []) (pl := ds'.map BT.pg) (q := e.pg) (pr := [])
      (right := true) (by simp [hdlen']) (by simp [hdlen']) (by simp; omega)
    simp only [List.append_nil] at hrem
    have hsk := setKey_encInt (id := id) (kl := kl) (k := k) (k' := j) (kr := kr) (ps := cl.map BT.pg ++ s :: q :: cr.map BT.pg)
    obtain ⟨hlkd', hlke, -⟩ := linked_append.1 hlkd
    have hjl : (js' ++ [j]).length - 1 = js'.length := by simp
    have hmin' : ¬ (js' ++ [j]).length + 1 = (id + 1) / 2 := by simpa using hmin
    refine ⟨p3, BT.node pg (kl ++ [j] ++ kr) (cl ++ [BT.node s js' ds', BT.node q (k :: ks) (e :: cs)] ++ cr),
      Or.inl ⟨?_, ?_, ?_, ?_, ?_⟩⟩
    · intro st
      rw [rest_node, removeUp]
      simp only [len_encInt] at hsk
      rw [List.map_append] at hatD
      simp only [List.map_cons, List.map_nil] at e3 hatD
      simp only [hdeg, len_encInt, hun, if_true, sibling_succ, hptr, getPage_eq hatD, hmin', if_false, hidx, hjl, hrem, hkey,
        hins, hsk, e1, e2, e3]
    · have ho := hrepl [j] [BT.node s js' ds', BT.node q (k :: ks) (e :: cs)] ⟨?_, ⟨?_, ok_node.2 ⟨?_, ho3⟩⟩,
        ?_, ok_node.2 ⟨?_, ?_⟩⟩
      · refine seg_after (p := p) (p' := p3) (pg := pg) (R := R) (nxt := nxt) (cr := cr)
          (c := BT.node s js' ds') (cl := cl) (kl := kl) (ks := [j]) (cs := [BT.node q (k :: ks) (e :: cs)])
          (ks0 := kl ++ k :: kr) (c0 := BT.node s (js' ++ [j]) (ds' ++ [e])) (cr0 := c0 :: cr) (m := p.md.len) rfl ?_ ho
          (by simp; omega) (w3.perm (by perm_pages)) hleft''
          ⟨⟨a2, below_node.2 ?_⟩, ⟨a3, below_node.2 ⟨?_, ?_⟩⟩, trivial⟩ hright
          (frame_of hfr (by simp +contextual)) (by rw [m3]) (by rw [m3]) (by simp)
        · cases ds' with
          | nil => exact absurd rfl hds'
          | cons c cs => rfl
        · exact linked_frame (frame_of hfr (by simp +contextual)) hlkd'
        · have := repT_frame (d' := p3.disk) (frame_of hfr (by simp +contextual)) hlke
          rw [nextOf_first (pg := q) (ks := ks) hcs]
          exact this
        · exact linked_frame (frame_of hfr (by simp +contextual)) hlkc
      · exact ⟨hj.1, fun b hb => lt_trans (hj.2 k rfl) (hsep.2 b hb)⟩
      · show (id + 1) / 2 ≤ js'.length + 1
        omega
      · omega
      · show (id + 1) / 2 ≤ (k :: ks).length + 1
        simp; omega
      · simp; omega
      · exact ordL_cons.2 ⟨⟨fun a ha => by cases ha; exact hj.2 k rfl, hsep.2⟩, he, ho1⟩
    · show p3.disk.pages[pg]? = _
      rw [a1]
      simp
    · intro h
      have h : (id + 1) / 2 ≤ (kl ++ k :: kr).length + 1 := h
      show (id + 1) / 2 ≤ (kl ++ [j] ++ kr).length + 1
      simp at h ⊢; omega
    · intro _
      exact rootOk_node.2 (by simp)

/-- The length written so far: the leaf stage decrements it. -/
def stepLen : Nat → Nat → Nat
  | 0, m => m - 1
  | _ + 1, m => m

theorem snoc_cases {α : Type} (l : List α) : l = [] ∨ ∃ a x, l = a ++ [x] := by
  by_cases h : l = []
  · exact Or.inl h
  · exact Or.inr ⟨l.dropLast, l.getLast h, (List.dropLast_concat_getLast h).symm⟩

theorem remove_step (hld : 1 ≤ ld) (hid : 3 ≤ id) {n : Nat} {p : Pager K V} {pg kl kr} {cl cr : List (BT K V n)} {c0 c : BT K V n}
    {R lo hi nxt} (h : Ctx g ld id p pg kl kr cl c0 c cr R lo hi nxt)
    (hat : AtPage p.disk pg (.internal (encInt id (kl ++ kr) ((cl ++ c0 :: cr).map BT.pg)))) :
    Outcome g ld id p c (nextOf cr nxt)
      (pg, encInt id (kl ++ kr) ((cl ++ c0 :: cr).map BT.pg), kl.length)
      (BT.node pg (kl ++ kr) (cl ++ c0 :: cr)) R lo hi nxt
      (cl.flatMap BT.toL ++ c.toL ++ cr.flatMap BT.toL) (stepLen n p.md.len) := by
  cases n with
  | zero =>
    obtain ⟨q, es, rfl⟩ := c.leaf_cases
    by_cases hun : es.length < (ld + 1) / 2
    · have l1 := h.l1
      have l2 := h.l2
      rcases snoc_cases kl with rfl | ⟨kl', k, rfl⟩
      · obtain rfl : cl = [] := List.eq_nil_of_length_eq_zero (by simpa using l1)
        cases kr with
        | nil => exact absurd rfl h.kne
        | cons k kr =>
          cases cr with
          | nil => simp at l2
          | cons d cr =>
            obtain ⟨s, ds, rfl⟩ := d.leaf_cases
            exact step_leaf_right hld h hun
      · rcases snoc_cases cl with rfl | ⟨cl', d, rfl⟩
        · simp at l1
        · obtain ⟨s, ds, rfl⟩ := d.leaf_cases
          have := step_leaf_left hld h hun
          simp only [List.append_assoc, List.cons_append, List.nil_append, List.length_append, List.length_cons,
            List.length_nil, Nat.zero_add] at this ⊢
          exact this
    · obtain ⟨p2, e2, -, -, -, -⟩ := (h.wf.setLen (p.md.len - 1)).write (i := q) (by simp)
        (.leaf (encLeaf ld es (nextOf cr nxt)))
      refine ⟨p2, _, Or.inl ⟨?_, step_write (p1 := p.setLen (p.md.len - 1)) h hat rfl rfl (fun l hl => hl.setLen _) rfl ?_ e2⟩⟩
      · intro st
        rw [rest_leaf, removeLeaf]
        simp only [len_encLeaf, h.wf.ldeg, hun, if_false, if_true, e2]
      · show (ld + 1) / 2 ≤ es.length
        omega
  | succ n =>
    obtain ⟨q, ks, cs, rfl⟩ := c.node_cases
    by_cases hun : ks.length + 1 < (id + 1) / 2
    · have l1 := h.l1
      have l2 := h.l2
      rcases snoc_cases kl with rfl | ⟨kl', k, rfl⟩
      · obtain rfl : cl = [] := List.eq_nil_of_length_eq_zero (by simpa using l1)
        cases kr with
        | nil => exact absurd rfl h.kne
        | cons k kr =>
          cases cr with
          | nil => simp at l2
          | cons d cr =>
            obtain ⟨s, js, ds, rfl⟩ := d.node_cases
            exact step_node_right hid h hun
      · rcases snoc_cases cl with rfl | ⟨cl', d, rfl⟩
        · simp at l1
        · obtain ⟨s, js, ds, rfl⟩ := d.node_cases
          have := step_node_left hid h hun
          simp only [List.append_assoc, List.cons_append, List.nil_append, List.length_append, List.length_cons,
            List.length_nil, Nat.zero_add] at this ⊢
          exact this
    · obtain ⟨p2, e2, -, -, -, -⟩ := h.wf.write (i := q) (by simp)
        (.internal (encInt id ks (cs.map BT.pg)))
      refine ⟨p2, _, Or.inl ⟨?_, step_write (p1 := p) h hat rfl rfl (fun l hl => hl) rfl ?_ e2⟩⟩
      · intro st
        rw [rest_node, removeUp]
        simp only [len_encInt, h.wf.ideg, hun, if_false, e2]
      · show (id + 1) / 2 ≤ ks.length + 1
        omega

theorem After.from {n : Nat} {p0 p p' : Pager K V} {t t' : BT K V n} {R lo hi nxt l m}
    (h : After g ld id p p' t t' R lo hi nxt l m) (hr : p.md.root = p0.md.root)
    (hf : ∀ i ∈ R, p.disk.pages[i]? = p0.disk.pages[i]?) : After g ld id p0 p' t t' R lo hi nxt l m :=
  ⟨h.wf, h.below, h.ok, h.pg, h.first, h.toL, h.len, by rw [h.root, hr], fun i hi => by rw [h.frame i hi, hf i hi]⟩

theorem rootOk_of_minOcc (hid : 3 ≤ id) {n : Nat} {t : BT K V n} (h : MinOcc ld id t) : RootOk t := by
  cases n with
  | zero => trivial
  | succ n =>
    obtain ⟨pg, ks, cs, rfl⟩ := t.node_cases
    have h : (id + 1) / 2 ≤ ks.length + 1 := h
    refine rootOk_node.2 ?_
    rintro rfl
    simp at h; omega

/-- Searching for a key, present or not. -/
theorem search_sub (hid : 1 ≤ id) {key : K} {p : Pager K V} :
    ∀ {n : Nat} {t : BT K V n} {lo hi nxt}, RepT ld id p.disk t nxt → Ok ld id t lo hi → EntIn lo hi key →
    ∃ lp es x path, (∀ f st, n < f → searchNode p key f t.pg st = some (lp, .leaf (encLeaf ld es x), path ++ st)) ∧
      SL.find key t.toL = SL.find key es ∧ SL.Sorted es ∧ es.length ≤ ld ∧ (path ≠ [] ∨ MinOcc ld id t → (ld + 1) / 2 ≤ es.length) := by
  intro n
  induction n with
  | zero =>
    intro t lo hi nxt hr hok he
    obtain ⟨pg, es, rfl⟩ := t.leaf_cases
    obtain ⟨hs, hb, hl⟩ := ok_leaf.1 hok
    exact ⟨pg, es, nxt, [], fun f st hf => searchNode_leaf hr hf, rfl, hs, hl, fun h => h.elim (fun h => absurd rfl h) fun h => h⟩
  | succ n ih =>
    intro t lo hi nxt hr hok he
    obtain ⟨pg, ks, cs, rfl⟩ := t.node_cases
    obtain ⟨hlen, hord⟩ := ok_node.1 hok
    obtain ⟨kl, kr, cl, c, cr, rfl, rfl, l1, l2, k1, k2, he'⟩ := descend hord he
    have hc := (ordL_ctx (kl := kl) (ks := []) (kr := kr) (cl := cl) (cs := [c]) (cr := cr) l1 rfl (by simpa using hord)).1
    have hc := ordL_nil.1 hc
    have hlk := linked_ctx.1 (below_node.1 hr.2)
    obtain ⟨lp, es, x, path, h1, h2, h3, h4, h5⟩ := ih hlk.2.1 hc.2 he'
    refine ⟨lp, es, x, path ++ [(pg, encInt id (kl ++ kr) ((cl ++ c :: cr).map BT.pg), kl.length)], ?_, ?_, h3, h4,
      fun _ => h5 (Or.inr hc.1)⟩
    · intro f st hf
      obtain ⟨f, rfl⟩ : ∃ g, f = g + 1 := ⟨f - 1, by omega⟩
      rw [BT.pg_node, searchNode_node hid hr hlen l1 k1 k2, h1 f _ (by omega)]
      simp
    · rw [← h2]
      have hA : ∀ e ∈ cl.flatMap BT.toL, e.1 < key := by
        intro e hx
        obtain ⟨b, hb, hlt⟩ := ordL_left (okC_mem (ld := ld) (id := id)) l1 hord e hx
        exact lt_of_lt_of_le hlt (he'.1 b hb)
      have hB : ∀ e ∈ cr.flatMap BT.toL, key < e.1 := by
        intro e hx
        have h'' : OrdL (OkC ld id) (kl ++ kr) ((cl ++ [c]) ++ cr) lo hi := by simpa using hord
        obtain ⟨b, hb, hlt⟩ := ordL_right (okC_mem (ld := ld) (id := id)) (by simp [l1]) h'' e hx
        exact lt_of_lt_of_le (he'.2 b hb) hlt
      have e1 : (BT.node pg (kl ++ kr) (cl ++ c :: cr)).toL = cl.flatMap BT.toL ++ c.toL ++ cr.flatMap BT.toL := by simp
      rw [e1, find_ctx hA hB]

theorem remove_sub (hld : 1 ≤ ld) (hid : 3 ≤ id) {key : K} {o : K × V} {p : Pager K V} :
    ∀ {n : Nat} {t : BT K V n} {R lo hi nxt}, WfG g ld id p (t.pages ++ R) → RepT ld id p.disk t nxt →
    Ok ld id t lo hi → EntIn lo hi key → RootOk t → SL.find key t.toL = some o →
    ∃ lp ln path ln', (∀ f st, n < f → searchNode p key f t.pg st = some (lp, .leaf ln, path ++ st)) ∧
      ln.remove key = some (ln', some o) ∧
      ((∃ p' t', (∀ st, removeLeaf p lp ln' true (path ++ st) = some p') ∧
          RDone g ld id p p' t t' R lo hi nxt (SL.del key t.toL) (p.md.len - 1)) ∨
       (∃ p' t', (∀ st, removeLeaf p lp ln' true (path ++ st) = rest ld id p' t' nxt st) ∧
          Pend g ld id p p' t t' R lo hi nxt (SL.del key t.toL) (if n = 0 then p.md.len else p.md.len - 1))) := by
  intro n
  induction n with
  | zero =>
    intro t R lo hi nxt hw hr hok he hro hf
    obtain ⟨pg, es, rfl⟩ := t.leaf_cases
    obtain ⟨hs, hb, hl⟩ := ok_leaf.1 hok
    obtain ⟨el, er, a1, a2, a3, a4, a5⟩ := split_entries key hs
    rcases a5 with rfl | ⟨v, rfl⟩
    · rw [BT.toL_leaf, SL.find_append, SL.find_of_lt_all a1, SL.find_of_all_lt a2] at hf
      cases hf
    · have hfind : SL.find key (el ++ (key, v) :: er) = some (key, v) := SL.find_of_mem hs (show (key, v) ∈ el ++ (key, v) :: er by simp)
      rw [BT.toL_leaf, hfind] at hf
      cases hf
      have hdel : SL.del key (el ++ (key, v) :: er) = el ++ er := SL.del_mid_eq hs
      refine ⟨pg, encLeaf ld (el ++ (key, v) :: er) nxt, [], encLeaf ld (el ++ er) nxt, fun f st hf => searchNode_leaf hr hf,
        remove_encLeaf_present (fun a ha => ne_of_lt (a1 a ha)) hl, Or.inr ⟨p, BT.leaf pg (el ++ er), fun st => rfl, ?_⟩⟩
      refine ⟨⟨hw, trivial, ok_leaf.2 ⟨?_, ?_, by simp at hl ⊢; omega⟩, rfl, rfl,
        hdel.symm, rfl, rfl, fun _ _ => rfl⟩, ?_⟩
      · rw [← hdel]; exact SL.sorted_del hs
      · intro e hx
        exact hb e (by simp only [List.mem_append, List.mem_cons] at hx ⊢; tauto)
      · intro h
        have h : (ld + 1) / 2 ≤ (el ++ (key, v) :: er).length := h
        show (ld + 1) / 2 ≤ (el ++ er).length + 1
        simp at h ⊢; omega
  | succ n ih =>
    intro t R lo hi nxt hw hr hok he hro hf
    obtain ⟨pg, ks, cs, rfl⟩ := t.node_cases
    obtain ⟨hlen, hord⟩ := ok_node.1 hok
    have hkne := rootOk_node.1 hro
    obtain ⟨kl, kr, cl, c, cr, rfl, rfl, l1, l2, k1, k2, he'⟩ := descend hord he
    obtain ⟨hc, hrepl, hfind, -, hdel⟩ := node_parts (pg := pg) (v := o.2) hord l1 he'
    have hlk := linked_ctx.1 (below_node.1 hr.2)
    rw [hfind] at hf
    have hw' : WfG g ld id p (c.pages ++ (pg :: (cl.flatMap BT.pages ++ cr.flatMap BT.pages) ++ R)) :=
      hw.perm (by perm_pages)
    obtain ⟨lp, ln, path, ln', hsearch, hrem, hcase⟩ := ih hw' hlk.2.1 hc.2 he' (rootOk_of_minOcc hid hc.1) hf
    refine ⟨lp, ln, path ++ [(pg, encInt id (kl ++ kr) ((cl ++ c :: cr).map BT.pg), kl.length)], ln', ?_, hrem, ?_⟩
    · intro f st hf
      obtain ⟨f, rfl⟩ : ∃ g, f = g + 1 := ⟨f - 1, by omega⟩
      rw [BT.pg_node, searchNode_node (by omega) hr hlen l1 k1 k2, hsearch f _ (by omega)]
      simp
    · rw [hdel]
      rcases hcase with ⟨p', t', hup, hd⟩ | ⟨p', t', hup, hd⟩
      · refine Or.inl ⟨p', BT.node pg (kl ++ kr) (cl ++ t' :: cr), fun st => by rw [List.append_assoc, hup], ?_⟩
        have ho := hrepl [] [t'] (ordL_nil.2 ⟨hd.occ hc.1, hd.ok⟩)
        refine ⟨⟨hd.wf.perm (by perm_pages), below_node.2 (linked_ctx.2 ⟨?_, ⟨hd.at_, hd.below⟩, ?_⟩),
          ok_node.2 ⟨hlen, by simpa using ho⟩, rfl, first_ctx hd.first, by simp [hd.toL], hd.len, hd.root,
          frame_of hd.frame (by simp +contextual)⟩, ?_, fun h => h, fun h => h⟩
        · rw [hd.first]; exact linked_frame (frame_of hd.frame (by simp +contextual)) hlk.1
        · exact linked_frame (frame_of hd.frame (by simp +contextual)) hlk.2.2
        · have : AtPage p.disk pg _ := hr.1
          show p'.disk.pages[pg]? = _
          rw [hd.frame pg (by simp), this]
          simp [hd.pg]
      · have hctx : Ctx g ld id p' pg kl kr cl c t' cr R lo hi nxt := by
          refine ⟨hd.wf.perm (by perm_pages), ?_, hd.below, ?_, hd.first, hd.pg, l1, l2, hlen, hkne, hord, hd.ok, hd.occ hc.1⟩
          · exact linked_frame (frame_of hd.frame (by simp +contextual)) hlk.1
          · exact linked_frame (frame_of hd.frame (by simp +contextual)) hlk.2.2
        have hat : AtPage p'.disk pg (.internal (encInt id (kl ++ kr) ((cl ++ c :: cr).map BT.pg))) := by
          have : AtPage p.disk pg _ := hr.1
          show p'.disk.pages[pg]? = _
          rw [hd.frame pg (by simp), this]
          rfl
        have hlenn : stepLen n p'.md.len = p.md.len - 1 := by
          rw [hd.len]
          cases n <;> rfl
        have hfr : ∀ i ∈ R, p'.disk.pages[i]? = p.disk.pages[i]? := frame_of hd.frame (by simp +contextual)
        obtain ⟨p2, t2, hcase⟩ := remove_step hld hid hctx hat
        rw [hlenn, hd.toL] at hcase
        rcases hcase with ⟨h1, h2⟩ | ⟨h1, h2⟩
        · refine Or.inl ⟨p2, t2, ?_, h2.toAfter.from hd.root hfr, h2.at_, h2.occ, h2.rootOk⟩
          intro st
          rw [List.append_assoc, hup, List.singleton_append, h1]
        · refine Or.inr ⟨p2, t2, ?_, h2.toAfter.from hd.root hfr, h2.occ⟩
          intro st
          rw [List.append_assoc, hup, List.singleton_append, h1]

theorem length_del_present {l : List (K × V)} {k : K} {o} (hs : SL.Sorted l) (h : SL.find k l = some o) :
    (SL.del k l).length = l.length - 1 := by
  have := SL.length_del (k := k) hs
  rw [h] at this
  simpa using this

/-- `remove` of a key that is not in the map. -/
theorem remove_absent (hid : 1 ≤ id) {key : K} {p : Pager K V} {n : Nat} {t : BT K V n}
    (h : HoldsG g δ ld id p t) (hf : SL.find key t.toL = none) : remove p key = some (p, none) := by
  obtain ⟨lp, es, x, path, h1, h2, h3, h4, h5⟩ := search_sub hid h.rep h.ok (entIn_none key)
  have hs := h1 (p.disk.pages.length + 1) [] h.fuel
  rw [← h.root, List.append_nil] at hs
  have hsr : search p key = some (lp, .leaf (encLeaf ld es x), path) := hs
  have hne : ∀ a ∈ es, a.1 ≠ key := by
    rintro ⟨a, v⟩ ha rfl
    rw [h2, SL.find_of_mem h3 ha] at hf
    cases hf
  rw [remove, hsr]
  simp only [remove_encLeaf_absent hne]
  cases path with
  | nil => simp [removeLeaf]
  | cons e path =>
    have := h5 (Or.inl (by simp))
    obtain ⟨pp, pn, i⟩ := e
    rw [removeLeaf]
    simp only [len_encLeaf, h.wf.ldeg]
    rw [if_neg (by omega)]
    rfl

/-- `remove` of a key in the map. -/
theorem remove_present (hld : 1 ≤ ld) (hid : 3 ≤ id) {key : K} {o : K × V} {p : Pager K V} {n : Nat} {t : BT K V n}
    (h : HoldsG g δ ld id p t) (hf : SL.find key t.toL = some o) (hpos : δ = 0 ∨ 0 < p.md.len) :
    ∃ p' m, ∃ t' : BT K V m, remove p key = some (p', some o) ∧ HoldsG g δ ld id p' t' ∧ t'.toL = SL.del key t.toL := by
  have hw : WfG g ld id p (t.pages ++ []) := by simpa using h.wf
  obtain ⟨lp, ln, path, ln', hsearch, hrem, hcase⟩ :=
    remove_sub hld hid hw h.rep h.ok (entIn_none key) h.rootOk hf
  have hs := hsearch (p.disk.pages.length + 1) [] h.fuel
  rw [← h.root, List.append_nil] at hs
  have hsr : search p key = some (lp, .leaf ln, path) := hs
  have hsort := ok_sorted h.ok
  have hlen : p.md.len - 1 + δ = (SL.del key t.toL).length := by
    have h1 := h.drift
    have h2 : 0 < t.toL.length := by
      cases ht : t.toL with
      | nil => rw [ht] at hf; cases hf
      | cons => simp
    rw [length_del_present hsort hf]
    omega
  have hgo : ∀ p', removeLeaf p lp ln' true path = some p' → remove p key = some (p', some o) := by
    intro p' hp'
    rw [remove, hsr]
    simp [hrem, hp']
  rcases hcase with ⟨p', t', hup, hd⟩ | ⟨p', t', hup, hd⟩
  · have := hup []
    rw [List.append_nil] at this
    exact ⟨p', n, t', hgo p' this, ⟨by simpa using hd.wf, by rw [hd.root, h.root, hd.pg], ⟨hd.at_, hd.below⟩, hd.ok,
      hd.rootOk h.rootOk, by rw [hd.len, hd.toL, hlen]⟩, hd.toL⟩
  · have hup := hup []
    rw [List.append_nil] at hup
    have hwf : WfG g ld id p' t'.pages := by simpa using hd.wf
    cases n with
    | zero =>
      obtain ⟨q, es, rfl⟩ := t'.leaf_cases
      have hwf2 : WfG g ld id p' [q] := hwf
      obtain ⟨p2, e2, w2, b2, m2, f2⟩ := (hwf2.setLen (p'.md.len - 1)).write (i := q) (by simp)
        (.leaf (encLeaf ld es none))
      rw [rest_leaf, removeLeaf, if_pos rfl, e2] at hup
      refine ⟨p2, 0, BT.leaf q es, hgo p2 hup, ⟨w2, ?_, ⟨b2, trivial⟩, hd.ok, trivial, ?_⟩, hd.toL⟩
      · rw [m2]
        show p'.md.root = q
        rw [hd.root, h.root, ← hd.pg]
        rfl
      · rw [m2]
        show p'.md.len - 1 + δ = _
        rw [hd.len, hd.toL]
        exact hlen
    | succ n =>
      obtain ⟨q, ks, cs, rfl⟩ := t'.node_cases
      have hlen' : p'.md.len = p.md.len - 1 := hd.len
      rw [rest_node, removeUp] at hup
      simp only [len_encInt, hwf.ideg] at hup
      by_cases hks : ks = []
      · subst hks
        obtain ⟨-, hord⟩ := ok_node.1 hd.ok
        obtain ⟨c, rfl⟩ : ∃ c, cs = [c] := by
          have := ordL_length hord
          exact List.length_eq_one_iff.1 (by simpa using this)
        have hc := ordL_nil.1 hord
        have hptr : (encInt id ([] : List K) ([c].map BT.pg)).ptrs[0]? = some c.pg := by
          simp [encInt, pad]
        have hwf2 : WfG g ld id (p'.setRoot c.pg) (q :: c.pages) := by
          have := hwf.setRoot c.pg
          simpa using this
        obtain ⟨p2, e2, w2, m2, f2⟩ := hwf2.dealloc
        have hup2 : removeLeaf p lp ln' true path = some p2 := by
          rw [hup]
          split
          · simp only [List.length_nil, if_true, hptr, e2]
          · rename_i hx
            simp at hx; omega
        refine ⟨p2, n, c, hgo p2 hup2, ⟨w2, by rw [m2]; rfl, ?_, hc.2, rootOk_of_minOcc hid hc.1, ?_⟩, ?_⟩
        · have hlk : RepT ld id p'.disk c none := (below_node.1 hd.below).1
          refine repT_frame (d := p'.disk) (fun i hi => ?_) hlk
          have : i ≠ q := by
            rintro rfl
            exact (List.nodup_cons.1 hwf2.nodup).1 hi
          rw [f2 i this]
          rfl
        · rw [m2]
          show p'.md.len + δ = _
          have := hd.toL
          simp at this
          rw [this, hlen', hlen]
        · have := hd.toL
          simpa using this
      · obtain ⟨p2, e2, w2, b2, m2, f2⟩ := hwf.write (i := q) (by simp)
          (.internal (encInt id ks (cs.map BT.pg)))
        have hk : ¬ ks.length = 0 := fun h => hks (List.eq_nil_of_length_eq_zero h)
        have hup2 : removeLeaf p lp ln' true path = some p2 := by
          rw [hup, e2]
          split
          · exact if_neg hk
          · rfl
        refine ⟨p2, n + 1, BT.node q ks cs, hgo p2 hup2, ⟨w2, ?_, ⟨b2, ?_⟩, hd.ok, rootOk_node.2 hks, ?_⟩, hd.toL⟩
        · rw [m2, hd.root, h.root, ← hd.pg]
        · exact below_frame (fun i _ hne => f2 i hne) hwf.nodup hd.below
        · rw [m2, hlen', hd.toL]
          exact hlen

end Verif.Bp
