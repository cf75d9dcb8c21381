/- Property C34: exactly which operations of a BpMap survive a crash at every point. -/
import Verif.Bp.Crash
import Verif.Bp.Exact

namespace Verif.Bp

open Verif.Spec

section
variable {K V : Type}

/-! ### The record of file states only grows -/

def Ext (p p' : Pager K V) : Prop := p.trace <+: p'.trace

theorem Ext.refl (p : Pager K V) : Ext p p := List.prefix_rfl

theorem Ext.trans {p q r : Pager K V} (h : Ext p q) (h' : Ext q r) : Ext p r := List.IsPrefix.trans h h'

theorem ext_put (p : Pager K V) (d) : Ext p (p.put d) := List.prefix_append _ _

theorem ext_setLen (p : Pager K V) (n) : Ext p (p.setLen n) := List.prefix_append _ _

theorem ext_setRoot (p : Pager K V) (n) : Ext p (p.setRoot n) := List.prefix_append _ _

theorem ext_writeNode {p p' : Pager K V} {i n} (e : p.writeNode i n = some p') : Ext p p' := by
  rw [writeNode_some e]; exact ext_put _ _

theorem ext_allocate {p p' : Pager K V} {n q} (e : p.allocate n = some (p', q)) : Ext p p' := by
  rw [Pager.allocate] at e
  split at e
  · simp only at e
    split at e
    · cases e
    · rename_i hw
      cases e
      refine Ext.trans ?_ (ext_put _ _)
      refine Ext.trans ?_ (ext_writeNode hw)
      exact List.prefix_append _ _
  · split at e
    · split at e
      · cases e
      · rename_i hw
        cases e
        exact (ext_writeNode hw).trans (List.prefix_append _ _)
    · cases e

theorem ext_deallocate {p p' : Pager K V} {i} (e : p.deallocate i = some p') : Ext p p' := by
  rw [Pager.deallocate] at e
  split at e
  · cases e
  · rename_i hw
    cases e
    exact (ext_writeNode hw).trans (List.prefix_append _ _)

theorem mem_writes {p q p' : Pager K V} {d} {l : List (Disk K V)} (h : q.trace = p.trace ++ l) (hd : d ∈ l) (he : Ext q p') :
    d ∈ writes p p' := by
  obtain ⟨l', e⟩ := he
  rw [writes, ← e, h, List.append_assoc, List.drop_left]
  simp [hd]

theorem mem_writes_writeNode {p q r p' : Pager K V} {i n} (h : Ext p q) (hw : q.writeNode i n = some r) (he : Ext r p') :
    r.disk ∈ writes p p' := by
  obtain ⟨l, e⟩ := h
  have hr := writeNode_some hw
  refine mem_writes (q := r) (l := l ++ [r.disk]) ?_ (by simp) he
  rw [hr]
  simp [Pager.put, ← e]

/-- The first write. -/
theorem head_writes {p r p' : Pager K V} {i n} (hw : p.writeNode i n = some r) (he : Ext r p') :
    (writes p p').head? = some r.disk := by
  have hr := writeNode_some hw
  obtain ⟨l', e⟩ := he
  have ht : r.trace = p.trace ++ [r.disk] := by rw [hr]; rfl
  rw [writes, ← e, ht, List.append_assoc, List.drop_left]
  rfl

variable [LinearOrder K]

theorem ext_insertUp {p p' : Pager K V} {page} {st : Stack K} {o} (e : insertUp p page st o = some p') : Ext p p' := by
  induction st generalizing p page o with
  | nil =>
    cases o with
    | none => simp only [insertUp] at e; cases e; exact Ext.refl _
    | some kq =>
      obtain ⟨k, q⟩ := kq
      simp only [insertUp] at e
      split at e
      · split at e
        · cases e
        · rename_i ha
          cases e; exact (ext_allocate ha).trans (ext_setRoot _ _)
      · cases e
  | cons s st ih =>
    obtain ⟨pp, n, i⟩ := s
    cases o with
    | none => simp only [insertUp] at e; cases e; exact Ext.refl _
    | some kq =>
      obtain ⟨k, q⟩ := kq
      simp only [insertUp] at e
      split at e
      · cases e
      · exact ext_writeNode e
      · split at e
        · cases e
        · rename_i ha
          split at e
          · cases e
          · rename_i hb
            exact ((ext_allocate ha).trans (ext_writeNode hb)).trans (ih e)

theorem ext_removeUp {p p' : Pager K V} {page} {n : INode K} {st : Stack K} (e : removeUp p page n st = some p') : Ext p p' := by
  induction st generalizing p page n with
  | nil =>
    simp only [removeUp] at e
    repeat' split at e
    all_goals first | cases e; done | exact ext_writeNode e | exact (ext_setRoot _ _).trans (ext_deallocate e)
  | cons s st ih =>
    obtain ⟨pp, pn, i⟩ := s
    simp only [removeUp] at e
    repeat' split at e
    all_goals first
      | cases e; done
      | exact ext_writeNode e
      | (refine ((ext_deallocate (by assumption)).trans (ext_writeNode (by assumption))).trans (ih e); done)
      | (refine ((ext_writeNode (by assumption)).trans (ext_writeNode (by assumption))).trans (ext_writeNode e); done)

/-! ### Searches in a file that differs from a map in a few pages -/

variable {ld id : Nat}

theorem lowB_le {kl : List K} {lo : Option K} {x : K} (hp : kl.Pairwise (· < ·)) (h : ∀ b ∈ lowB kl lo, b ≤ x) : ∀ a ∈ kl, a ≤ x := by
  rcases snoc_cases kl with rfl | ⟨l, k, rfl⟩
  · simp
  · have hk : k ≤ x := h k (by rw [lowB_snoc]; rfl)
    intro a ha
    rcases List.mem_append.1 ha with ha | ha
    · exact le_trans (le_of_lt ((List.pairwise_append.1 hp).2.2 a ha k (by simp))) hk
    · simp at ha; rw [ha]; exact hk

theorem lt_hiB {kr : List K} {hi : Option K} {x : K} (hp : kr.Pairwise (· < ·)) (h : ∀ b ∈ hiB kr hi, x < b) : ∀ a ∈ kr, x < a := by
  cases kr with
  | nil => simp
  | cons k kr =>
    have hk : x < k := h k rfl
    intro a ha
    rcases List.mem_cons.1 ha with rfl | ha
    · exact hk
    · exact lt_trans hk ((List.pairwise_cons.1 hp).1 a ha)

/-- The bounds of a child are within those of the node. -/
theorem entIn_child {C : Type} {P : C → Option K → Option K → Prop} {kl kr} {cs : List C} {lo hi : Option K} {x : K}
    (h : OrdL P (kl ++ kr) cs lo hi) (hx : EntIn (lowB kl lo) (hiB kr hi) x) : EntIn lo hi x := by
  obtain ⟨hp, hk⟩ := ordL_keys h
  obtain ⟨hp1, hp2, -⟩ := List.pairwise_append.1 hp
  have h1 := lowB_le hp1 hx.1
  have h2 := lt_hiB hp2 hx.2
  refine ⟨?_, ?_⟩
  · cases kl with
    | nil => exact hx.1
    | cons k kl =>
      intro a ha
      exact le_trans (le_of_lt ((hk k (by simp)).1 a ha)) (h1 k (by simp))
  · cases kr with
    | nil => exact hx.2
    | cons k kr =>
      intro b hb
      exact lt_trans (h2 k (by simp)) ((hk k (by simp)).2 b hb)

/-- The subtree of depth `m` in which a key belongs, and how any search within its bounds gets there. -/
theorem bottom (hid : 1 ≤ id) {key : K} {p : Pager K V} {m : Nat} : ∀ {j : Nat} {t : BT K V (m + j)} {lo hi nxt},
    RepT ld id p.disk t nxt → Ok ld id t lo hi → EntIn lo hi key → t.pages.Nodup →
    ∃ (u : BT K V m) (lo' hi' : Option K) (nxt' : Option Nat) (path : Stack K), RepT ld id p.disk u nxt' ∧ Ok ld id u lo' hi' ∧
      (j ≠ 0 ∨ MinOcc ld id t → MinOcc ld id u) ∧ (3 ≤ id → RootOk t → RootOk u) ∧
      EntIn lo' hi' key ∧ (∃ L R, t.leaves = L ++ u.leaves ++ R) ∧ (∀ i ∈ u.pages, i ∈ t.pages) ∧ u.pages.Nodup ∧
      (∀ x, EntIn lo' hi' x → EntIn lo hi x) ∧
      ∀ q : Pager K V, (∀ i ∈ t.pages, i ∉ u.pages → q.disk.pages[i]? = p.disk.pages[i]?) →
        ∀ x, EntIn lo' hi' x → ∀ f st, searchNode q x (f + j) t.pg st = searchNode q x f u.pg (path ++ st) := by
  intro j
  induction j with
  | zero =>
    intro t lo hi nxt hr hok he hnd
    exact ⟨t, lo, hi, nxt, [], hr, hok, fun h => h.elim (fun h => absurd rfl h) fun h => h, fun _ h => h, he, ⟨[], [], by simp⟩, fun _ h => h,
      hnd, fun _ h => h, fun q _ x _ f st => rfl⟩
  | succ j ih =>
    intro t lo hi nxt hr hok he hnd
    obtain ⟨pg, ks, cs, rfl⟩ := t.node_cases
    obtain ⟨hlen, hord⟩ := ok_node.1 hok
    obtain ⟨kl, kr, cl, c, cr, rfl, rfl, l1, l2, k1, k2, he'⟩ := descend hord he
    have hc := (ordL_ctx (kl := kl) (ks := []) (kr := kr) (cl := cl) (cs := [c]) (cr := cr) l1 rfl (by simpa using hord)).1
    have hc := ordL_nil.1 hc
    have hlk := linked_ctx.1 (below_node.1 hr.2)
    have hnd' : (pg :: (cl.flatMap BT.pages ++ (c.pages ++ cr.flatMap BT.pages))).Nodup := by
      simpa using hnd
    have hpgc : pg ∉ c.pages := by
      have := (List.nodup_cons.1 hnd').1
      intro h
      exact this (by simp [h])
    have hnd2 := List.nodup_append.1 (List.nodup_cons.1 hnd').2
    have hndc : c.pages.Nodup := (List.nodup_append.1 hnd2.2.1).1
    obtain ⟨u, lo', hi', nxt', path, h1, h2, h3, h3', h4, ⟨L, R, h5⟩, h6, h7, h9, h8⟩ := ih hlk.2.1 hc.2 he' hndc
    have hcp : ∀ i ∈ c.pages, i ∈ (BT.node pg (kl ++ kr) (cl ++ c :: cr)).pages := by
      intro i hi
      simp [hi]
    refine ⟨u, lo', hi', nxt', path ++ [(pg, encInt id (kl ++ kr) ((cl ++ c :: cr).map BT.pg), kl.length)], h1, h2,
      fun _ => h3 (Or.inr hc.1), fun h _ => rootOk_of_minOcc h (h3 (Or.inr hc.1)), h4,
      ⟨cl.flatMap BT.leaves ++ L, R ++ cr.flatMap BT.leaves, by simp [h5]⟩, fun i hi => hcp i (h6 i hi), h7,
      fun x hx => entIn_child hord (h9 x hx), ?_⟩
    intro q hq x hx f st
    have hx' := h9 x hx
    obtain ⟨hp1, hp2, -⟩ := List.pairwise_append.1 (ordL_keys hord).1
    have hat : AtPage q.disk pg (.internal (encInt id (kl ++ kr) ((cl ++ c :: cr).map BT.pg))) := by
      have : AtPage p.disk pg _ := hr.1
      rw [AtPage, hq pg (by simp) (fun h => hpgc (h6 _ h))]
      exact this
    have hptr := ptrs_encInt (id := id) (ks := kl ++ kr) (pl := cl.map BT.pg) (q := c.pg) (pr := cr.map BT.pg)
    rw [List.length_map, l1] at hptr
    have hmap : (cl ++ c :: cr).map BT.pg = cl.map BT.pg ++ c.pg :: cr.map BT.pg := by simp
    rw [← hmap] at hptr
    rw [BT.pg_node, ← Nat.add_assoc, searchNode, getPage_eq hat]
    simp only [search_encInt hid hlen (lowB_le hp1 hx'.1) (lt_hiB hp2 hx'.2), hptr]
    rw [h8 q (fun i hi hi' => hq i (hcp i hi) hi') x hx f]
    simp

/-- Reading the first leaf of a file with the internal nodes of a map. -/
theorem leftmost_frame {p : Pager K V} : ∀ {n : Nat} {t : BT K V n} {lo hi nxt}, RepT ld id p.disk t nxt → Ok ld id t lo hi →
    ∃ pg es l, t.leaves = (pg, es) :: l ∧ ∀ q : Pager K V,
      (∀ i ∈ t.pages, ∀ nd, AtPage p.disk i (.internal nd) → AtPage q.disk i (.internal nd)) →
      ∀ nd, AtPage q.disk pg (.leaf nd) → ∀ f, n < f → leftmost q f t.pg = some nd := by
  intro n
  induction n with
  | zero =>
    intro t lo hi nxt hr hok
    obtain ⟨pg, es, rfl⟩ := t.leaf_cases
    refine ⟨pg, es, [], rfl, fun q _ nd hnd f hf => ?_⟩
    obtain ⟨f, rfl⟩ : ∃ g, f = g + 1 := ⟨f - 1, by omega⟩
    rw [BT.pg_leaf, leftmost, getPage_eq hnd]
  | succ n ih =>
    intro t lo hi nxt hr hok
    obtain ⟨pg, ks, cs, rfl⟩ := t.node_cases
    obtain ⟨-, ho⟩ := ok_node.1 hok
    cases cs with
    | nil => exact absurd rfl (ordL_ne ho)
    | cons c cs =>
      obtain ⟨lo, hi, hc⟩ := ordL_all ho c (by simp)
      have hlk := below_node.1 hr.2
      obtain ⟨pg', es, l, h1, h2⟩ := ih hlk.1 hc.2
      refine ⟨pg', es, l ++ cs.flatMap BT.leaves, by simp [h1], fun q hq nd hnd f hf => ?_⟩
      obtain ⟨f, rfl⟩ : ∃ g, f = g + 1 := ⟨f - 1, by omega⟩
      have hat := hq pg (by simp) _ hr.1
      have hptr : (encInt id ks ((c :: cs).map BT.pg)).ptrs[0]? = some c.pg := by simp [encInt, pad]
      rw [BT.pg_node, leftmost, getPage_eq hat]
      simp only [hptr]
      exact h2 q (fun i hi => hq i (by simp [hi])) nd hnd f (by omega)

theorem lchain_frame {d d' : Disk K V} {l : List (Nat × List (K × V))} {nxt}
    (h : ∀ x ∈ l, d'.pages[x.1]? = d.pages[x.1]?) (hl : LChain ld d l nxt) : LChain ld d' l nxt := by
  induction l with
  | nil => trivial
  | cons x l ih =>
    obtain ⟨pg, es⟩ := x
    exact ⟨by have := h (pg, es) (by simp); simp only at this; rw [AtPage, this]; exact hl.1, ih (fun x hx => h x (by simp [hx])) hl.2⟩

theorem toList_chain {p : Pager K V} {pg es} {l : List (Nat × List (K × V))} (hdeg : p.md.leafDeg = ld)
    (hch : LChain ld p.disk ((pg, es) :: l) none)
    (hleft : leftmost p (p.disk.pages.length + 1) p.md.root = some (encLeaf ld es (nextLeaf l none)))
    (hne : ∀ x ∈ l, x.2 ≠ []) (hle : ∀ x ∈ (pg, es) :: l, x.2.length ≤ ld)
    (hcount : ((pg, es) :: l).length ≤ p.disk.pages.length) :
    toList p = some (((pg, es) :: l).flatMap Prod.snd) := by
  have hc : (((pg, es) :: l).flatMap Prod.snd).length ≤ p.disk.pages.length * ld :=
    le_trans (flatMap_length_le hle) (Nat.mul_le_mul_right _ hcount)
  rw [toList, iterNew, hleft, hdeg]
  simp only [Option.map_some]
  have hes : es.length ≤ ld := hle (pg, es) (by simp)
  have := drain_chain l [] es (encLeaf ld es (nextLeaf l none)).entries (p.disk.pages.length * ld + 1) hch.2 hne
    (fun x hx => hle x (by simp [hx])) rfl (by simp [encLeaf, pad]; omega) (by simpa using hes)
    (by simp only [List.flatMap_cons, List.length_append] at hc; omega)
  simp only [List.length_nil, Nat.zero_add] at this
  rw [List.flatMap_cons]
  exact this

/-- A search in a whole file, by the subtree of depth `m`. -/
theorem search_bottom {q : Pager K V} {m j : Nat} {t : BT K V (m + j)} {u : BT K V m} {x : K} {path : Stack K}
    (hroot : q.md.root = t.pg) (hf : j < q.disk.pages.length + 1)
    (h : ∀ f st, searchNode q x (f + j) t.pg st = searchNode q x f u.pg (path ++ st)) :
    search q x = searchNode q x (q.disk.pages.length + 1 - j) u.pg path := by
  have := h (q.disk.pages.length + 1 - j) []
  rw [List.append_nil, Nat.sub_add_cancel (by omega), ← hroot] at this
  exact this

/-- An insertion into a full leaf passes through a file that lists the new entry but does not find an entry of the
new leaf. -/
theorem insert_split_crash (hld : 1 ≤ ld) (hid : 3 ≤ id) {key : K} {v : V} {p p' : Pager K V} {n : Nat} {t : BT K V n}
    (h : Holds ld id p t) (hf : SL.find key t.toL = none) {page nd stack}
    (hs : search p key = some (page, .leaf nd, stack)) (hfull : ¬ nd.len < nd.entries.length)
    (e : insert p key v = some (p', none)) :
    ∃ d ∈ writes p p', ((∃ l, toList (Pager.openFile d) = some l ∧ (key, v) ∈ l) ∧
      ∃ x, SL.find x (SL.ins key v t.toL) ≠ none ∧ get (Pager.openFile d) x = some none) ∧
      ∃ p2 s q, insertLeaf p page nd (key, v) = some (p2, some (s, q), none) ∧ p2.disk = d ∧ p2.disk.hdr = p2.md := by
  obtain ⟨j, rfl⟩ : ∃ j, n = 0 + j := ⟨n, by omega⟩
  have hfuel := h.fuel
  have hsort := ok_sorted h.ok
  obtain ⟨u, lo', hi', nxt', path, h1, h2, h3, h3', h4, ⟨L, R, h5⟩, h6, h7, h9, h8⟩ :=
    bottom (by omega) h.rep h.ok (entIn_none key) h.wf.nodup
  obtain ⟨lp, es, rfl⟩ := u.leaf_cases
  have hsp := search_bottom h.root (by omega) (h8 p (fun _ _ _ => rfl) key h4)
  rw [BT.pg_leaf, searchNode_leaf h1 (by omega), hs] at hsp
  simp only [Option.some.injEq, Prod.mk.injEq, Node.leaf.injEq] at hsp
  obtain ⟨rfl, rfl, rfl⟩ := hsp
  obtain ⟨hs1, hb1, hl1⟩ := ok_leaf.1 h2
  have hlen : es.length = ld := by
    simp only [encLeaf] at hfull
    rw [pad_length (by simpa using hl1)] at hfull
    omega
  have htoL : t.toL = L.flatMap Prod.snd ++ es ++ R.flatMap Prod.snd := by
    rw [← BT.leaves_toL, h5]; simp
  obtain ⟨el, er, a1, a2, a3, a4, a5⟩ := split_entries key hs1
  have hes : es = el ++ er := by
    rcases a5 with a5 | ⟨o, a5⟩
    · exact a5
    · have : (key, o) ∈ t.toL := by rw [htoL, a5]; simp
      rw [SL.find_of_mem hsort this] at hf
      cases hf
  subst hes
  have hlen1 : (el ++ (key, v) :: er).length = ld + 1 := by simp at hlen ⊢; omega
  have e1 := (List.take_append_drop (ld / 2 + 1) (el ++ (key, v) :: er)).symm
  have l1 : ((el ++ (key, v) :: er).take (ld / 2 + 1)).length = ld / 2 + 1 := by
    rw [List.length_take, hlen1]; omega
  have l2 : ((el ++ (key, v) :: er).drop (ld / 2 + 1)).length = ld - ld / 2 := by
    rw [List.length_drop, hlen1]; omega
  generalize (el ++ (key, v) :: er).take (ld / 2 + 1) = es1 at e1 l1
  generalize (el ++ (key, v) :: er).drop (ld / 2 + 1) = es2 at e1 l2
  cases es2 with
  | nil => simp at l2; omega
  | cons s es2 =>
    have hlp : page ∈ t.pages := h6 page (by simp)
    obtain ⟨p1, q, c1, w1, b1, n1, r1, f1⟩ := h.wf.alloc (.leaf (encLeaf ld (s :: es2) nxt'))
    obtain ⟨p2, c2, w2, b2, m2, f2⟩ := w1.write (i := page) (by simp [hlp]) (.leaf (encLeaf ld es1 (some q)))
    have hqt : q ∉ t.pages := (List.nodup_cons.1 w1.nodup).1
    have hq : q ≠ page := fun e => hqt (e ▸ hlp)
    have hins : SL.ins key v (el ++ er) = es1 ++ s :: es2 := by rw [SL.ins_between a1 a2, e1]
    have hs2 : SL.Sorted (es1 ++ s :: es2) := hins ▸ SL.sorted_ins (k := key) (v := v) hs1
    obtain ⟨g1, g2, g3, g4⟩ := SL.sorted_mid.1 hs2
    have hb2 : ∀ a ∈ es1 ++ s :: es2, EntIn lo' hi' a.1 := by
      intro a ha
      rw [← hins] at ha
      rcases SL.mem_ins ha with rfl | ha
      · exact h4
      · exact hb1 a ha
    have hleaf : insertLeaf p page (encLeaf ld (el ++ er) nxt') (key, v) = some (p2, some (s.1, q), none) := by
      rw [insertLeaf, insert_encLeaf_full hld a1 a2 a4 hlen e1 l1]
      simp only [c1]
      have : ({ encLeaf ld es1 nxt' with next := some q } : LNode K V) = encLeaf ld es1 (some q) := rfl
      rw [this, c2]
      rfl
    have hext : Ext p2 p' := by
      rw [insert, hs] at e
      simp only [hleaf] at e
      split at e
      · cases e
      · rename_i hu
        cases e
        exact (ext_insertUp hu).trans (ext_setLen _ _)
    have hmd : (Pager.openFile p2.disk).md = p2.md := w2.hdr
    have hroot : (Pager.openFile p2.disk).md.root = t.pg := by rw [hmd, m2, r1, h.root]
    have hfr : ∀ i ∈ t.pages, i ≠ page → p2.disk.pages[i]? = p.disk.pages[i]? := by
      intro i hi hne
      rw [f2 i hne, f1 i hi]
    have hdep := depth_lt h.ok
    have hle2 : (q :: t.pages).length ≤ p2.disk.pages.length := w2.length_le
    have hfuel2 : 0 + j < p2.disk.pages.length + 1 := by simp only [List.length_cons] at hle2; omega
    have hat2 : RepT ld id (Pager.openFile p2.disk).disk (BT.leaf page es1) (some q) := ⟨b2, below_leaf⟩
    refine ⟨p2.disk, mem_writes_writeNode (ext_allocate c1) c2 hext, ⟨?_, s.1, ?_, ?_⟩, p2, s.1, q, hleaf, rfl, w2.hdr⟩
    · obtain ⟨pg0, es0, l0, h10, h11⟩ := leftmost_frame h.rep h.ok
      have hint : ∀ i ∈ t.pages, ∀ nd, AtPage p.disk i (.internal nd) → AtPage (Pager.openFile p2.disk).disk i (.internal nd) := by
        intro i hi nd hnd
        show p2.disk.pages[i]? = _
        rw [hfr i hi ?_]
        · exact hnd
        · rintro rfl
          have : AtPage p.disk i _ := h1.1
          rw [AtPage] at this hnd
          rw [this] at hnd
          simp at hnd
      have hch := lchain_of_rep h.ok h.rep
      have hnp : (t.leaves.map Prod.fst).Nodup := (leaves_pages t).nodup h.wf.nodup
      have hleP := (leaves_pages t).length_le
      have hmem : ∀ x ∈ t.leaves, x.1 ∈ t.pages := fun x hx => (leaves_pages t).subset (List.mem_map_of_mem hx)
      rw [h5, BT.leaves_leaf, lchain_append, lchain_append] at hch
      obtain ⟨⟨hcL, hcM, -⟩, hcR⟩ := hch
      have hn' : nextLeaf R none = nxt' := by
        have := h1.1
        simp only [BT.pg_leaf, BT.rootNode_leaf, AtPage] at this
        rw [AtPage, this] at hcM
        simp [encLeaf] at hcM
        exact hcM.symm
      have hnp' := hnp
      rw [h5, BT.leaves_leaf, List.map_append, List.map_append, List.nodup_append, List.nodup_append] at hnp'
      have hneL : ∀ x ∈ L, x.1 ≠ page := fun x hx => hnp'.1.2.2 _ (List.mem_map_of_mem hx) _ (by simp)
      have hneR : ∀ x ∈ R, x.1 ≠ page := fun x hx e =>
        hnp'.2.2 page (by simp) _ (List.mem_map_of_mem hx) e.symm
      have hmL : ∀ x ∈ L, x.1 ∈ t.pages := fun x hx => hmem x (by rw [h5]; simp [hx])
      have hmR : ∀ x ∈ R, x.1 ∈ t.pages := fun x hx => hmem x (by rw [h5]; simp [hx])
      have hnew : LChain ld p2.disk (L ++ (page, es1) :: (q, s :: es2) :: R) none := by
        refine lchain_append.2 ⟨lchain_frame (fun x hx => hfr _ (hmL x hx) (hneL x hx)) hcL, b2, ?_,
          lchain_frame (fun x hx => hfr _ (hmR x hx) (hneR x hx)) hcR⟩
        rw [AtPage, f2 q hq, hn']
        exact b1
      have hleaves := leaves_le h.ok
      have hhalf : ∀ x ∈ t.leaves, x.2 ≠ [] := by
        intro x hx h0
        have := leaves_half h.ok ?_ x hx
        · rw [h0] at this
          simp at this; omega
        · by_cases hj : j = 0
          · subst hj
            left
            obtain ⟨pg', es', rfl⟩ := BT.leaf_cases t
            have hl := congrArg List.length h5
            simp at hl
            have hL : L = [] := List.eq_nil_of_length_eq_zero (by omega)
            have hR : R = [] := List.eq_nil_of_length_eq_zero (by omega)
            subst hL hR
            simp at h5
            show (ld + 1) / 2 ≤ es'.length
            rw [h5.2, hlen]; omega
          · right; omega
      have hkv : (key, v) ∈ (L ++ (page, es1) :: (q, s :: es2) :: R).flatMap Prod.snd := by
        have : (key, v) ∈ es1 ++ s :: es2 := by rw [← e1]; simp
        simp only [List.flatMap_append, List.flatMap_cons, List.mem_append]
        rcases List.mem_append.1 this with h | h
        · exact Or.inr (Or.inl h)
        · exact Or.inr (Or.inr (Or.inl h))
      have hleN : ∀ x ∈ L ++ (page, es1) :: (q, s :: es2) :: R, x.2.length ≤ ld := by
        intro x hx
        simp only [List.mem_append, List.mem_cons] at hx
        rcases hx with hx | rfl | rfl | hx
        · exact hleaves x (by rw [h5]; simp [hx])
        · show es1.length ≤ ld; omega
        · show (s :: es2).length ≤ ld; omega
        · exact hleaves x (by rw [h5]; simp [hx])
      have hneN : ∀ x ∈ L ++ (page, es1) :: (q, s :: es2) :: R, x.2 ≠ [] := by
        intro x hx
        simp only [List.mem_append, List.mem_cons] at hx
        rcases hx with hx | rfl | rfl | hx
        · exact hhalf x (by rw [h5]; simp [hx])
        · intro h0; simp only at h0; rw [h0] at l1; simp at l1
        · simp
        · exact hhalf x (by rw [h5]; simp [hx])
      have hcN : (L ++ (page, es1) :: (q, s :: es2) :: R).length ≤ p2.disk.pages.length := by
        refine le_trans ?_ hle2
        rw [h5] at hleP
        simp at hleP ⊢
        omega
      have hdeg : (Pager.openFile p2.disk).md.leafDeg = ld := by rw [hmd]; exact w2.ldeg
      refine ⟨_, ?_, hkv⟩
      obtain ⟨es0', l0', hN⟩ : ∃ es0' l0', L ++ (page, es1) :: (q, s :: es2) :: R = (pg0, es0') :: l0' := by
        rw [h5] at h10
        cases L with
        | nil => simp at h10; obtain ⟨⟨rfl, -⟩, -⟩ := h10; exact ⟨_, _, rfl⟩
        | cons y L => obtain ⟨y1, y2⟩ := y; simp at h10; obtain ⟨⟨rfl, rfl⟩, -⟩ := h10; exact ⟨_, _, rfl⟩
      rw [hN] at hnew hneN hleN hcN ⊢
      refine toList_chain (p := Pager.openFile p2.disk) hdeg hnew ?_ (fun x hx => hneN x (List.mem_cons_of_mem _ hx)) hleN hcN
      rw [hroot]
      exact h11 _ hint _ hnew.1 _ hfuel2
    · rw [SL.find_ins hsort]
      split
      · simp
      · rename_i hne
        have : s ∈ SL.ins key v (el ++ er) := by rw [hins]; simp
        rcases SL.mem_ins this with rfl | hm
        · exact absurd rfl hne
        · rw [SL.find_of_mem hsort (e := s) (by rw [htoL]; simp only [List.mem_append] at hm ⊢; tauto)]
          simp
    · have hsq := search_bottom hroot (by show j < p2.disk.pages.length + 1; omega)
        (h8 (Pager.openFile p2.disk) (fun i hi hne => hfr i hi (by simpa using hne)) s.1 (hb2 s (by simp)))
      rw [BT.pg_leaf, searchNode_leaf hat2 (by show 0 < p2.disk.pages.length + 1 - j; omega)] at hsq
      rw [get, hsq]
      have := search_encLeaf_none (ld := ld) (el := es1) (er := []) (nxt := some q) (key := s.1) hld (by simp; omega) g3 (by simp)
      rw [List.append_nil] at this
      simp only [this]

theorem deallocate_some {p p' : Pager K V} {i} (e : p.deallocate i = some p') :
    ∃ q, p.writeNode i (.free p.md.free) = some q ∧ Ext q p' := by
  rw [Pager.deallocate] at e
  split at e
  · cases e
  · rename_i q hw
    cases e
    exact ⟨q, hw, List.prefix_append _ _⟩

/-- A removal that leaves a leaf less than half full passes through a file that answers wrongly about some key: its
first write. -/
theorem remove_under_crash (hld : 1 ≤ ld) (hid : 3 ≤ id) {key : K} {p p' : Pager K V} {n m : Nat} {t : BT K V n} {t' : BT K V m}
    (h : Holds ld id p t) (h' : Holds ld id p' t') (ht : t'.toL = SL.del key t.toL) {page nd stack o}
    (hs : search p key = some (page, .leaf nd, stack)) (hst : stack ≠ []) (hn : nd.len ≤ (ld + 1) / 2)
    (e : remove p key = some (p', some o)) :
    ∃ d, (writes p p').head? = some d ∧ ∃ x, get (Pager.openFile d) x ≠ get p x ∧ get (Pager.openFile d) x ≠ get p' x := by
  have hfuel := h.fuel
  have hsort := ok_sorted h.ok
  cases hn0 : n with
  | zero =>
    subst hn0
    obtain ⟨pg, es, rfl⟩ := BT.leaf_cases t
    rw [search, h.root, BT.pg_leaf, searchNode_leaf h.rep (by omega)] at hs
    simp at hs
    exact absurd hs.2.2 (by simpa using hst)
  | succ j =>
  obtain ⟨j, rfl⟩ : ∃ j, n = 1 + j := ⟨j, by omega⟩
  clear hn0
  obtain ⟨u, lo', hi', nxt', path, h1, h2, h3, h3', h4, ⟨L, R, h5⟩, h6, h7, h9, h8⟩ :=
    bottom (by omega) h.rep h.ok (entIn_none key) h.wf.nodup
  have hroot := h3' hid h.rootOk
  obtain ⟨pp, ks, cs, rfl⟩ := u.node_cases
  obtain ⟨hlen, hord⟩ := ok_node.1 h2
  obtain ⟨kl, kr, cl, c, cr, rfl, rfl, l1, l2, k1, k2, he'⟩ := descend hord h4
  have hc := (ordL_ctx (kl := kl) (ks := []) (kr := kr) (cl := cl) (cs := [c]) (cr := cr) l1 rfl (by simpa using hord)).1
  have hc := ordL_nil.1 hc
  have hlk := linked_ctx.1 (below_node.1 h1.2)
  obtain ⟨lp, es, rfl⟩ := c.leaf_cases
  have hsp := search_bottom h.root (by omega) (h8 p (fun _ _ _ => rfl) key h4)
  obtain ⟨f, hf⟩ : ∃ f, p.disk.pages.length + 1 - j = f + 2 := ⟨p.disk.pages.length - 1 - j, by omega⟩
  rw [hf, BT.pg_node, searchNode_node (by omega) h1 hlen l1 k1 k2, BT.pg_leaf, searchNode_leaf hlk.2.1 (by omega), hs] at hsp
  simp only [Option.some.injEq, Prod.mk.injEq, Node.leaf.injEq] at hsp
  obtain ⟨rfl, rfl, rfl⟩ := hsp
  have hmd : p.disk.hdr = p.md := h.wf.hdr
  -- searches below this node, in a file where one page has been overwritten
  have route : ∀ (w : Nat) (nw : Node K V) (pw : Pager K V), p.writeNode w nw = some pw →
      w ∈ (BT.node pp (kl ++ kr) (cl ++ BT.leaf page es :: cr)).pages → ∀ x, EntIn lo' hi' x →
      ∀ (a b : List K) (pl : List Nat) (z : Nat) (pr : List Nat),
        AtPage pw.disk pp (.internal (encInt id (a ++ b) (pl ++ z :: pr))) → (a ++ b).length ≤ id →
        (∀ y ∈ a, y ≤ x) → (∀ y ∈ b, x < y) → pl.length = a.length → ∀ nd, AtPage pw.disk z nd → (∀ n, nd ≠ .internal n) →
        ∃ st, search (Pager.openFile pw.disk) x = some (z, nd, st) := by
    intro w nw pw hw hwm x hx a b pl z pr hat hab ha hb hpl nd hz hnd
    have hpw := writeNode_some hw
    have hd : pw.disk = { p.disk with pages := p.disk.pages.set w (some nw) } := by rw [hpw]; rfl
    have hlen' : (Pager.openFile pw.disk).disk.pages.length = p.disk.pages.length := by
      show pw.disk.pages.length = _
      rw [hd]; simp
    have hr' : (Pager.openFile pw.disk).md.root = t.pg := by
      show pw.disk.hdr.root = _
      rw [hd]
      show p.disk.hdr.root = _
      rw [hmd, h.root]
    have := search_bottom hr' (by omega) (h8 (Pager.openFile pw.disk) (fun i hi hne => by
      show pw.disk.pages[i]? = _
      rw [hd]
      exact List.getElem?_set_ne (fun (e : w = i) => hne (e ▸ hwm))) x hx)
    rw [this, hlen', hf]
    have hptr := ptrs_encInt (id := id) (ks := a ++ b) (pl := pl) (q := z) (pr := pr)
    rw [hpl] at hptr
    have hat' : AtPage (Pager.openFile pw.disk).disk pp _ := hat
    have hz' : AtPage (Pager.openFile pw.disk).disk z nd := hz
    rw [BT.pg_node, searchNode, getPage_eq hat']
    simp only [search_encInt (show 1 ≤ id by omega) hab ha hb, hptr]
    rw [searchNode, getPage_eq hz']
    cases nd with
    | internal n => exact absurd rfl (hnd n)
    | leaf n => exact ⟨_, rfl⟩
    | free n => exact ⟨_, rfl⟩
  have hat_other : ∀ (w : Nat) (nw : Node K V) (pw : Pager K V), p.writeNode w nw = some pw → ∀ i nd, i ≠ w → AtPage p.disk i nd →
      AtPage pw.disk i nd := by
    intro w nw pw hw i nd hne hat
    rw [writeNode_some hw]
    show (p.disk.pages.set w (some nw))[i]? = _
    rw [List.getElem?_set_ne (Ne.symm hne)]
    exact hat
  have hat_self : ∀ (w : Nat) (nw : Node K V) (pw : Pager K V), p.writeNode w nw = some pw → w < p.disk.pages.length →
      AtPage pw.disk w nw := by
    intro w nw pw hw hlt
    rw [writeNode_some hw]
    show (p.disk.pages.set w (some nw))[w]? = _
    simp [hlt]
  -- answers before and after
  have htoLu : ∀ a ∈ (BT.node pp (kl ++ kr) (cl ++ BT.leaf page es :: cr)).toL, a ∈ t.toL := by
    intro a ha
    rw [← BT.leaves_toL, h5]
    rw [← BT.leaves_toL] at ha
    simp only [List.flatMap_append, List.mem_append]
    exact Or.inl (Or.inr ha)
  have hgp : ∀ a ∈ t.toL, get p a.1 = some (some a.2) := by
    intro a ha
    rw [get_holds hld (by omega) h, SL.abs, SL.find_of_mem hsort ha]
    rfl
  have hgp' : ∀ a ∈ t.toL, a.1 ≠ key → get p' a.1 = some (some a.2) := by
    intro a ha hne
    rw [get_holds hld (by omega) h', ht, SL.abs, SL.find_del, if_neg hne, SL.find_of_mem hsort ha]
    rfl
  have hgk : get p' key = some none := by
    rw [get_holds hld (by omega) h', ht, SL.abs, SL.find_del, if_pos rfl]
    rfl
  -- the leaf
  obtain ⟨hs1, hb1, hl1⟩ := ok_leaf.1 hc.2
  have hmin1 : (ld + 1) / 2 ≤ es.length := hc.1
  have hn : es.length ≤ (ld + 1) / 2 := hn
  obtain ⟨el, er, a1, a2, a3, a4, a5⟩ := split_entries key hs1
  rw [remove, hs] at e
  simp only at e
  obtain ⟨v0, hes⟩ : ∃ v0, es = el ++ (key, v0) :: er := by
    rcases a5 with a5 | a5
    · rw [remove_encLeaf_absent (by
        intro a ha
        rw [a5] at ha
        rcases List.mem_append.1 ha with ha | ha
        · exact ne_of_lt (a1 a ha)
        · exact ne_of_gt (a2 a ha))] at e
      simp at e
    · exact a5
  have hrem : (encLeaf ld es (nextOf cr nxt')).remove key = some (encLeaf ld (el ++ er) (nextOf cr nxt'), some (key, v0)) := by
    rw [hes]
    exact remove_encLeaf_present (fun a ha => ne_of_lt (a1 a ha)) (hes ▸ hl1)
  rw [hrem] at e
  simp only [Option.map_eq_some_iff, Option.isSome_some] at e
  obtain ⟨p'', e, e2⟩ := e
  cases e2
  have hkm : (key, v0) ∈ t.toL := htoLu _ (by simp [hes])
  have hun : (el ++ er).length < (ld + 1) / 2 := by
    rw [hes] at hn; simp at hn ⊢; omega
  have hdeg := h.wf.ldeg
  have hks := rootOk_node.1 hroot
  have hlt : ∀ i ∈ (BT.node pp (kl ++ kr) (cl ++ BT.leaf page es :: cr)).pages, i < p.disk.pages.length := fun i hi => h.wf.lt (h6 i hi)
  have hatpp : AtPage p.disk pp (.internal (encInt id (kl ++ kr) ((cl ++ BT.leaf page es :: cr).map BT.pg))) := h1.1
  have hatpage : AtPage p.disk page (.leaf (encLeaf ld es (nextOf cr nxt'))) := hlk.2.1.1
  have hndu := h7
  rw [removeLeaf] at e
  simp only [hdeg, len_encLeaf, hun, if_true] at e
  rcases snoc_cases kl with rfl | ⟨kl, k, rfl⟩
  · -- the right sibling
    cases cl with
    | cons => simp at l1
    | nil =>
    cases kr with
    | nil => exact absurd rfl hks
    | cons k kr =>
    cases cr with
    | nil => simp at l2
    | cons c2 cr =>
    obtain ⟨s, ds, rfl⟩ := c2.leaf_cases
    have hseg := (ordL_ctx (kl := []) (ks := [k]) (kr := kr) (cl := []) (cs := [BT.leaf page es, BT.leaf s ds]) (cr := cr)
      rfl rfl hord).1
    obtain ⟨hsep, hc0, hocc, hokd⟩ := hseg
    obtain ⟨hs2, hb2, hl2⟩ := ok_leaf.1 hokd
    have hocc : (ld + 1) / 2 ≤ ds.length := hocc
    have hatD : AtPage p.disk s (.leaf (encLeaf ld ds (nextOf cr nxt'))) := hlk.2.2.1.1
    have hmap : (([] : List (BT K V 0)) ++ BT.leaf page es :: BT.leaf s ds :: cr).map BT.pg = page :: s :: cr.map BT.pg := by simp
    have hptr : (encInt id ([] ++ k :: kr) (page :: s :: cr.map BT.pg)).ptrs[1]? = some s := by
      have := ptrs_encInt (id := id) (ks := k :: kr) (pl := [page]) (q := s) (pr := cr.map BT.pg)
      simpa using this
    rw [hmap] at e hatpp
    have hnd3 : pp ≠ page ∧ pp ≠ s ∧ page ≠ s := by
      simp at hndu
      exact ⟨hndu.1.1, hndu.1.2.1, hndu.2.1.1⟩
    have hpk := (ordL_keys hord).1
    have hpk' := (List.pairwise_cons.1 hpk).2
    have hmemD : ∀ a ∈ ds, a ∈ (BT.node pp ([] ++ k :: kr) ([] ++ BT.leaf page es :: BT.leaf s ds :: cr)).toL := by
      intro a ha; simp [ha]
    have hneD : ∀ a ∈ ds, a.1 ≠ key := fun a ha =>
      ne_of_gt (lt_of_lt_of_le (he'.2 k rfl) ((hb2 a ha).1 k rfl))
    simp only [List.length_nil, sibling_zero, hptr, getPage_eq hatD, if_true] at e
    by_cases hmin : ds.length = (ld + 1) / 2
    · simp only [len_encLeaf, hmin, if_true] at e
      split at e
      · rename_i n1 p1 hm hd1
        obtain ⟨pw, hw, hext⟩ := deallocate_some hd1
        split at e
        · rename_i p2 _ _ _ hw2 _
          have hext2 : Ext pw p' := (hext.trans (ext_writeNode hw2)).trans ((ext_setLen _ _).trans (ext_removeUp e))
          cases ds with
          | nil => simp at hocc; omega
          | cons d0 ds =>
            refine ⟨pw.disk, head_writes hw hext2, d0.1, ?_⟩
            have hd0 := hmemD d0 (by simp)
            obtain ⟨st, hst'⟩ := route s _ pw hw (by simp) d0.1 (ok_mem h2 d0 hd0) [k] kr [page] s (cr.map BT.pg)
              (hat_other _ _ _ hw _ _ hnd3.2.1 hatpp) hlen (by simpa using (hb2 d0 (by simp)).1 k rfl)
              (lt_hiB hpk' (hb2 d0 (by simp)).2) rfl _ (hat_self _ _ _ hw (hlt s (by simp))) (by simp)
            rw [get, hst', hgp d0 (htoLu d0 hd0), hgp' d0 (htoLu d0 hd0) (hneD d0 (by simp))]
            simp
        · cases e
      · cases e
    · simp only [len_encLeaf, hmin, if_false] at e
      cases ds with
      | nil => simp at hocc; omega
      | cons d ds =>
      cases ds with
      | nil => simp at hocc hmin; omega
      | cons d2 ds =>
      have hdd := List.pairwise_cons.1 hs2
      have hrem := removeAt_encLeaf (ld := ld) (e := d) (el := []) (er := d2 :: ds) (nxt := nextOf cr nxt') hl2
      simp only [List.nil_append, List.length_nil] at hrem
      have hget : (encLeaf ld (d2 :: ds) (nextOf cr nxt')).entries[0]? = some (some d2) := by
        simp [encLeaf, pad]
      have hst := store_encInt (id := id) (kl := []) (k := k) (k' := d2.1) (kr := kr)
        (ps := page :: s :: cr.map BT.pg)
      have hsk := setKey_encInt (id := id) (kl := []) (k := k) (k' := d2.1) (kr := kr)
        (ps := page :: s :: cr.map BT.pg)
      simp only [List.nil_append, List.length_nil] at hst hsk
      simp only [hrem, hget, List.nil_append, hst, hsk] at e
      split at e
      · rename_i ks1 n1 _ hks1 hins
        cases hks1
        split at e
        · cases e
        · rename_i pw hw
          split at e
          · cases e
          · rename_i p2 hw2
            split at e
            · cases e
            · rename_i p3 hw3
              cases e
              have hext2 : Ext pw (p3.setLen (p3.md.len - 1)) := ((ext_writeNode hw2).trans (ext_writeNode hw3)).trans (ext_setLen _ _)
              rw [hsk] at hw
              refine ⟨pw.disk, head_writes hw hext2, d.1, ?_⟩
              have hd0 := hmemD d (by simp)
              obtain ⟨st, hst'⟩ := route pp _ pw hw (by simp) d.1 (ok_mem h2 d hd0) [] (d2.1 :: kr) [] page (s :: cr.map BT.pg)
                (hat_self _ _ _ hw (hlt pp (by simp))) hlen (by simp)
                (by
                  intro y hy
                  rcases List.mem_cons.1 hy with rfl | hy
                  · exact hdd.1 d2 (by simp)
                  · exact lt_hiB hpk' (hb2 d (by simp)).2 y hy) rfl _ (hat_other _ _ _ hw _ _ (Ne.symm hnd3.1) hatpage) (by simp)
              rw [get, hst', hgp d (htoLu d hd0), hgp' d (htoLu d hd0) (hneD d (by simp))]
              have := search_encLeaf_none (ld := ld) (el := es) (er := []) (nxt := nextOf (BT.leaf s (d :: d2 :: ds) :: cr) nxt') (key := d.1) hld
                (by simpa using hl1) (fun a ha => lt_of_lt_of_le ((hb1 a ha).2 k rfl) ((hb2 d (by simp)).1 k rfl)) (by simp)
              rw [List.append_nil] at this
              simp only [this]
              simp
      · cases e
  · -- the left sibling
    rcases snoc_cases cl with rfl | ⟨cl, c2, rfl⟩
    · simp at l1
    obtain ⟨s, ds, rfl⟩ := c2.leaf_cases
    have l1' : cl.length = kl.length := by simpa using l1
    have hseg := (ordL_ctx (kl := kl) (ks := [k]) (kr := kr) (cl := cl) (cs := [BT.leaf s ds, BT.leaf page es]) (cr := cr)
      l1' rfl (by simpa using hord)).1
    obtain ⟨hsep, ⟨hocc, hokd⟩, -⟩ := hseg
    obtain ⟨hs2, hb2, hl2⟩ := ok_leaf.1 hokd
    have hocc : (ld + 1) / 2 ≤ ds.length := hocc
    have hlk2 := (linked_append.1 hlk.1).2
    have hatD : AtPage p.disk s (.leaf (encLeaf ld ds (some page))) := hlk2.1.1
    have hmap : ((cl ++ [BT.leaf s ds]) ++ BT.leaf page es :: cr).map BT.pg = cl.map BT.pg ++ s :: page :: cr.map BT.pg := by simp
    have hptr : (encInt id (kl ++ [k] ++ kr) (cl.map BT.pg ++ s :: page :: cr.map BT.pg)).ptrs[kl.length]? = some s := by
      have := ptrs_encInt (id := id) (ks := kl ++ [k] ++ kr) (pl := cl.map BT.pg) (q := s) (pr := page :: cr.map BT.pg)
      rw [List.length_map, l1'] at this
      exact this
    rw [hmap] at e hatpp
    have hmemU : ∀ a ∈ ds, a ∈ (BT.node pp (kl ++ [k] ++ kr) ((cl ++ [BT.leaf s ds]) ++ BT.leaf page es :: cr)).toL := by
      intro a ha; simp [ha]
    have hnd3 : pp ≠ page ∧ pp ≠ s ∧ page ≠ s := by
      have hpm : (BT.node pp (kl ++ [k] ++ kr) ((cl ++ [BT.leaf s ds]) ++ BT.leaf page es :: cr)).pages.Perm
          (pp :: page :: s :: (cl ++ cr).flatMap BT.pages) := by perm_pages
      have := hpm.nodup_iff.1 hndu
      simp only [List.nodup_cons, List.mem_cons, not_or] at this
      exact ⟨this.1.1, this.1.2.1, this.2.1.1⟩
    have hpk := (ordL_keys hord).1
    obtain ⟨hpk1, hpk2, hpk3⟩ := List.pairwise_append.1 hpk
    have hdk : ∀ a ∈ ds, a.1 < k := fun a ha => (hb2 a ha).2 k rfl
    have hke : ∀ a ∈ es, k ≤ a.1 := fun a ha => (hb1 a ha).1 k (by rw [lowB_snoc]; rfl)
    have hkk : k ≤ key := he'.1 k (by rw [lowB_snoc]; rfl)
    have hneD : ∀ a ∈ ds, a.1 ≠ key := fun a ha => ne_of_lt (lt_of_lt_of_le (hdk a ha) hkk)
    simp only [List.length_append, List.length_singleton, sibling_succ, hptr, getPage_eq hatD] at e
    have hsi : ¬ (kl.length = kl.length + 1 + 1) := by omega
    by_cases hmin : ds.length = (ld + 1) / 2
    · simp only [len_encLeaf, hmin, hsi, if_true, if_false] at e
      split at e
      · rename_i n1 p1 hm hd1
        obtain ⟨pw, hw, hext⟩ := deallocate_some hd1
        split at e
        · rename_i p2 _ _ _ hw2 _
          have hext2 : Ext pw p' := (hext.trans (ext_writeNode hw2)).trans ((ext_setLen _ _).trans (ext_removeUp e))
          refine ⟨pw.disk, head_writes hw hext2, key, ?_⟩
          obtain ⟨st, hst'⟩ := route page _ pw hw (by simp) key h4 (kl ++ [k]) kr (cl.map BT.pg ++ [s]) page (cr.map BT.pg)
            (hat_other _ _ _ hw _ _ hnd3.1 (by simpa using hatpp)) hlen k1 k2 (by simp [l1']) _ (hat_self _ _ _ hw (hlt page (by simp))) (by simp)
          have := hgp _ hkm
          simp only at this
          rw [get, hst', this, hgk]
          simp
        · cases e
      · cases e
    · simp only [len_encLeaf, hmin, hsi, if_false] at e
      rcases snoc_cases ds with rfl | ⟨ds, d, rfl⟩
      · simp at hocc; omega
      have hdd := (SL.sorted_append.1 hs2).2.2
      have hrem := removeAt_encLeaf (ld := ld) (e := d) (el := ds) (er := []) (nxt := some page) hl2
      rw [List.append_nil] at hrem
      have hlen' : (ds ++ [d]).length - 1 = ds.length := by simp
      have hst := store_encInt (id := id) (kl := kl) (k := k) (k' := d.1) (kr := kr)
        (ps := cl.map BT.pg ++ s :: page :: cr.map BT.pg)
      have hsk := setKey_encInt (id := id) (kl := kl) (k := k) (k' := d.1) (kr := kr)
        (ps := cl.map BT.pg ++ s :: page :: cr.map BT.pg)
      have hkk' : kl ++ [k] ++ kr = kl ++ k :: kr := by simp
      rw [hlen'] at e
      simp only [hrem, hkk', hst] at e
      split at e
      · rename_i ks1 n1 _ hks1 hins
        cases hks1
        rw [hsk] at e
        split at e
        · cases e
        · rename_i pw hw
          split at e
          · cases e
          · rename_i p2 hw2
            split at e
            · cases e
            · rename_i p3 hw3
              cases e
              have hext2 : Ext pw (p3.setLen (p3.md.len - 1)) := ((ext_writeNode hw2).trans (ext_writeNode hw3)).trans (ext_setLen _ _)
              refine ⟨pw.disk, head_writes hw hext2, d.1, ?_⟩
              have hd0 := hmemU d (by simp)
              have hself := hat_self _ _ _ hw (hlt pp (by simp))
              obtain ⟨st, hst'⟩ := route pp _ pw hw (by simp) d.1 (ok_mem h2 d hd0) (kl ++ [d.1]) kr (cl.map BT.pg ++ [s]) page (cr.map BT.pg)
                (by simpa using hself) (by simpa using hlen)
                (by
                  intro y hy
                  rcases List.mem_append.1 hy with hy | hy
                  · exact lowB_le (List.pairwise_append.1 hpk1).1 (hb2 d (by simp)).1 y hy
                  · simp at hy; rw [hy])
                (fun y hy => lt_trans (hdk d (by simp)) (hpk3 k (by simp) y hy)) (by simp [l1'])
                _ (hat_other _ _ _ hw _ _ (Ne.symm hnd3.1) hatpage) (by simp)
              rw [get, hst', hgp d (htoLu d hd0), hgp' d (htoLu d hd0) (hneD d (by simp))]
              have := search_encLeaf_none (ld := ld) (el := []) (er := es) (nxt := nextOf cr nxt') (key := d.1) hld
                (by simpa using hl1) (by simp) (fun a ha => lt_of_lt_of_le (hdk d (by simp)) (hke a ha))
              rw [List.nil_append] at this
              simp only [this]
              simp
      · cases e

/-- Two files whose root is the same leaf in page 0 have the same contents. -/
theorem sameContents_root {d : Disk K V} {p : Pager K V} {es : List (K × V)} (hr : d.hdr.root = 0) (hr' : p.md.root = 0)
    (hd : d.hdr.leafDeg = ld) (hd' : p.md.leafDeg = ld) (hle : es.length ≤ ld)
    (hat : AtPage d 0 (.leaf (encLeaf ld es none))) (hat' : AtPage p.disk 0 (.leaf (encLeaf ld es none))) : SameContents d p := by
  have lt : ∀ {d : Disk K V}, AtPage d 0 (.leaf (encLeaf ld es none)) → 0 < d.pages.length := by
    intro d h
    by_contra hn
    rw [AtPage, List.getElem?_eq_none (by omega)] at h
    cases h
  have key : ∀ q : Pager K V, q.md.root = 0 → q.md.leafDeg = ld → AtPage q.disk 0 (.leaf (encLeaf ld es none)) →
      (∀ k, search q k = some (0, .leaf (encLeaf ld es none), [])) ∧
      leftmost q (q.disk.pages.length + 1) q.md.root = some (encLeaf ld es none) ∧
      rightmost q (q.disk.pages.length + 1) q.md.root = some (encLeaf ld es none) ∧ toList q = some es := by
    intro q h1 h2 h3
    have hl : leftmost q (q.disk.pages.length + 1) q.md.root = some (encLeaf ld es none) := by
      rw [h1, leftmost, getPage_eq h3]
    refine ⟨fun k => ?_, hl, ?_, ?_⟩
    · rw [search, h1, searchNode, getPage_eq h3]
    · rw [h1, rightmost, getPage_eq h3]
    · have := toList_chain (p := q) (pg := 0) (es := es) (l := []) h2 ⟨h3, trivial⟩ hl (by simp) (by simpa using hle) (lt h3)
      simpa using this
  obtain ⟨a1, a2, a3, a4⟩ := key (Pager.openFile d) hr hd hat
  obtain ⟨b1, b2, b3, b4⟩ := key p hr' hd' hat'
  refine ⟨fun k => ?_, by rw [a4, b4], ?_, ?_⟩
  · rw [get, get, a1, b1]
  · rw [Bp.min, Bp.min, a2, b2]
  · rw [Bp.max, Bp.max, a3, b3]

/-- An insertion that returns an entry writes one page. -/
theorem insert_entry {p p' : Pager K V} {k : K} {v : V} {o page n stack} (hs : search p k = some (page, .leaf n, stack))
    (e : insert p k v = some (p', o)) (ho : o ≠ none) : ∃ n', p.writeNode page (.leaf n') = some p' := by
  rw [insert, hs] at e
  simp only at e
  cases hi : n.insert (k, v) with
  | none => simp only [insertLeaf, hi] at e; cases e
  | some x =>
    obtain ⟨n', c⟩ := x
    have hother : ∀ {a s}, insertLeaf p page n (k, v) = some (a, s, none) → False := by
      intro a s hl
      rw [hl] at e
      simp only at e
      split at e
      · cases e
      · cases e; exact ho rfl
    cases c with
    | split k2 s2 =>
      cases hl : insertLeaf p page n (k, v) with
      | none => rw [hl] at e; cases e
      | some r =>
        exfalso
        have hl' := hl
        simp only [insertLeaf, hi] at hl'
        split at hl'
        · cases hl'
        · simp only [Option.map_eq_some_iff] at hl'
          obtain ⟨q, -, rfl⟩ := hl'
          exact hother hl
    | done =>
      cases hl : insertLeaf p page n (k, v) with
      | none => rw [hl] at e; cases e
      | some r =>
        exfalso
        have hl' := hl
        simp only [insertLeaf, hi, Option.map_eq_some_iff] at hl'
        obtain ⟨q, -, rfl⟩ := hl'
        exact hother hl
    | entry o' =>
      simp only [insertLeaf, hi] at e
      cases hw : p.writeNode page (.leaf n') with
      | none => rw [hw] at e; cases e
      | some q =>
        rw [hw] at e
        cases e
        exact ⟨n', hw⟩

/-- An insertion of a new key into a leaf with a free slot writes the leaf and then the length. -/
theorem insert_room {p p' : Pager K V} {k : K} {v : V} {page n stack} (hs : search p k = some (page, .leaf n, stack))
    (e : insert p k v = some (p', none)) (hn : n.len < n.entries.length) :
    ∃ n' q, p.writeNode page (.leaf n') = some q ∧ p' = q.setLen (q.md.len + 1) := by
  rw [insert, hs] at e
  simp only at e
  cases hi : n.insert (k, v) with
  | none => simp only [insertLeaf, hi] at e; cases e
  | some x =>
    obtain ⟨n', c⟩ := x
    cases c with
    | split k s =>
      rw [LNode.insert] at hi
      simp only at hi
      rw [if_pos hn] at hi
      split at hi <;> cases hi
    | entry o' =>
      simp only [insertLeaf, hi] at e
      cases hw : p.writeNode page (.leaf n') with
      | none => rw [hw] at e; cases e
      | some q => rw [hw] at e; cases e
    | done =>
      simp only [insertLeaf, hi] at e
      cases hw : p.writeNode page (.leaf n') with
      | none => rw [hw] at e; cases e
      | some q =>
        rw [hw] at e
        have e : q.setLen (q.md.len + 1) = p' := by
          simpa [insertUp_none] using e
        subst e
        exact ⟨n', q, hw, rfl⟩

/-- A removal that needs no sibling writes the length and then the leaf. -/
theorem remove_plain {p p' : Pager K V} {k : K} {o page n stack} (hs : search p k = some (page, .leaf n, stack))
    (hn : stack = [] ∨ (p.md.leafDeg + 1) / 2 < n.len) (e : remove p k = some (p', some o)) :
    ∃ n', (p.setLen (p.md.len - 1)).writeNode page (.leaf n') = some p' := by
  rw [remove, hs] at e
  simp only at e
  cases hi : n.remove k with
  | none => rw [hi] at e; cases e
  | some x =>
    obtain ⟨n', r⟩ := x
    rw [hi] at e
    simp only [Option.map_eq_some_iff] at e
    obtain ⟨q, e, e2⟩ := e
    cases e2
    have hlen : n.len ≤ n'.len + 1 := by
      rw [LNode.remove] at hi
      simp only at hi
      split at hi
      · split at hi
        · cases hi
        · cases hi; simp only; omega
      · cases hi
    refine ⟨n', ?_⟩
    cases stack with
    | nil => simpa [removeLeaf] using e
    | cons s st =>
      obtain ⟨pp, pn, i⟩ := s
      rcases hn with hn | hn
      · cases hn
      · simp only [removeLeaf] at e
        rw [if_neg (by omega)] at e
        exact e

/-! ### The exact conditions -/

/-- **C34 (exact), insertion.**  An `insert` on a map reached by a covered history can be interrupted at any point
between two writes, leaving the contents from before or those from after the call, exactly if it overwrites an entry
or the leaf responsible for the key has a free slot.  In all other cases the leaf is split and there is a point at which
the file has neither contents. -/
theorem C34_insert_exact (hld : 1 ≤ ld) (hid : 3 ≤ id) {p p' : Pager K V} (hp : Reached ld id p) {k : K} {v : V} {o page n stack}
    (hs : search p k = some (page, .leaf n, stack)) (e : insert p k v = some (p', o)) :
    (∀ d ∈ writes p p', SameContents d p ∨ SameContents d p') ↔ o ≠ none ∨ n.len < n.entries.length := by
  obtain ⟨l, m, t, h, rfl⟩ := reached_rel hld hid hp
  constructor
  · intro hall
    by_contra hc
    rw [not_or, not_not] at hc
    obtain ⟨rfl, hfull⟩ := hc
    by_cases hk : Harmful ld p.disk k
    · obtain ⟨q, o, _, _, e', _⟩ := insert_lost (by omega) h v hk
      rw [e] at e'
      simp at e'
    · obtain ⟨q, m', t', e', h', ht⟩ := insert_holds (v := v) hld hid h (.inr (safe_of_not_harmful hk))
      rw [e] at e'
      simp only [Option.some.injEq, Prod.mk.injEq] at e'
      obtain ⟨rfl, hf⟩ := e'
      obtain ⟨d, hd, ⟨⟨l, hl, hkl⟩, x, hx, hg⟩, -⟩ := insert_split_crash hld hid h hf.symm hs hfull e
      rcases hall d hd with hc | hc
      · have := hc.iter
        rw [hl, toList_holds hld h] at this
        cases this
        exact SL.find_eq_none.1 hf.symm _ hkl rfl
      · have := hc.get x
        rw [hg, get_holds hld (by omega) h', ht, SL.abs] at this
        cases hfx : SL.find x (SL.ins k v t.toL) with
        | none => exact hx hfx
        | some y => rw [hfx] at this; simp at this
  · rintro (ho | hroom)
    · obtain ⟨n', hw⟩ := insert_entry hs e ho
      have hq := writeNode_some hw
      intro d hd
      simp only [writes, hq, Pager.put, List.drop_left, List.mem_singleton] at hd
      subst hd
      right
      have hsync : p.disk.hdr = p.md := h.wf.hdr
      refine sameContents_of (by rw [hq]; rfl) ?_ ?_
      · rw [hq]; exact congrArg Meta.root hsync
      · rw [hq]; exact congrArg Meta.leafDeg hsync
    · obtain ⟨ops, hist, -, hr⟩ := hp
      exact C34_insert_partial hr hs hroom e

/-- **C34 (exact), removal.**  A `remove` on a map reached by a covered history can be interrupted at any point, leaving
the contents from before or those from after the call, exactly if the key is not in the map, or the leaf responsible
for it is the root, or that leaf has more than half of its slots in use.  In all other cases an entry is borrowed from a
sibling or two leaves are merged, and there is a point at which the file has neither contents. -/
theorem C34_remove_exact (hld : 1 ≤ ld) (hid : 3 ≤ id) {p p' : Pager K V} (hp : Reached ld id p) {k : K} {o page n stack}
    (hs : search p k = some (page, .leaf n, stack)) (e : remove p k = some (p', o)) :
    (∀ d ∈ writes p p', SameContents d p ∨ SameContents d p') ↔ o = none ∨ stack = [] ∨ (ld + 1) / 2 < n.len := by
  obtain ⟨l, m, t, h, rfl⟩ := reached_rel hld hid hp
  have hdeg := h.wf.ldeg
  constructor
  · intro hall
    by_contra hc
    rw [not_or, not_or, not_lt] at hc
    obtain ⟨ho, hst, hn⟩ := hc
    cases hf : SL.find k t.toL with
    | none =>
      rw [remove_absent (by omega) h hf] at e
      cases e
      exact ho rfl
    | some y =>
      obtain ⟨q, m', t', e', h', ht⟩ := remove_present hld hid h hf (.inl rfl)
      rw [e] at e'
      simp only [Option.some.injEq, Prod.mk.injEq] at e'
      obtain ⟨rfl, rfl⟩ := e'
      obtain ⟨d, hd, x, hx, hx'⟩ := remove_under_crash hld hid h h' ht hs hst hn e
      rcases hall d (List.mem_of_mem_head? hd) with hc | hc
      · exact hx (hc.get x)
      · exact hx' (hc.get x)
  · rintro (rfl | hn)
    · cases hf : SL.find k t.toL with
      | none =>
        rw [remove_absent (by omega) h hf] at e
        cases e
        intro d hd
        simp [writes] at hd
      | some y =>
        obtain ⟨q, m', t', e', h', ht⟩ := remove_present hld hid h hf (.inl rfl)
        rw [e] at e'
        simp at e'
    · obtain ⟨ops, hist, -, hr⟩ := hp
      exact C34_remove_partial hr hs (by rw [hdeg]; exact hn) e

/-- **C34 (exact), clearing.**  A `clear` of a map reached by a covered history can be interrupted at any point, leaving
the contents from before or those from after the call, exactly if the root of the tree is a leaf in the first page of
the file.  Otherwise the file is cut to one page while its header still names the old root. -/
theorem C34_clear_exact (hld : 1 ≤ ld) (hid : 3 ≤ id) {p p' : Pager K V} (hp : Reached ld id p) (e : p.clear = some p') :
    (∀ d ∈ writes p p', SameContents d p ∨ SameContents d p') ↔ p.md.root = 0 ∧ ∃ n, p.getPage 0 = some (.leaf n) := by
  obtain ⟨l, m, t, h, rfl⟩ := reached_rel hld hid hp
  have hlt : 0 < p.disk.pages.length := by
    have := h.wf.lt t.pg_mem
    omega
  have hsync : p.disk.hdr = p.md := h.wf.hdr
  obtain ⟨x0, hx0⟩ : ∃ x, p.disk.pages[0]? = some x := ⟨p.disk.pages[0], by simp [hlt]⟩
  have hcut : p.disk.pages.take 1 ++ List.replicate (1 - p.disk.pages.length) none = [x0] := by
    have : 1 - p.disk.pages.length = 0 := by omega
    rw [this]
    cases hpg : p.disk.pages with
    | nil => rw [hpg] at hlt; simp at hlt
    | cons a l => rw [hpg] at hx0; simp at hx0; simp [hx0]
  let md : Meta := { p.md with pages := 1, len := 0, root := 0, free := none }
  have hp' : p' = ⟨md, ⟨md, [some (.leaf (LNode.new p.md.leafDeg))]⟩,
      p.trace ++ [⟨p.disk.hdr, [x0]⟩, ⟨md, [x0]⟩, ⟨md, [some (.leaf (LNode.new p.md.leafDeg))]⟩]⟩ := by
    rw [Pager.clear] at e
    simp only [Pager.setFileLen, Pager.put, Pager.writeHdr, hcut, Pager.writeNode] at e
    rw [if_pos (by simp)] at e
    simp only [Option.some.injEq] at e
    rw [← e]
    simp [md]
  have hwr : writes p p' = [⟨p.disk.hdr, [x0]⟩, ⟨md, [x0]⟩, ⟨md, [some (.leaf (LNode.new p.md.leafDeg))]⟩] := by
    rw [writes, hp']; simp
  obtain ⟨p'', e'', h'⟩ := clear_holds h
  rw [e] at e''
  cases e''
  constructor
  · intro hall
    have hmin : Bp.min (Pager.openFile ⟨p.disk.hdr, [x0]⟩) ≠ none := by
      rcases hall ⟨p.disk.hdr, [x0]⟩ (by rw [hwr]; simp) with hc | hc
      · rw [hc.min, min_holds hld h]; simp
      · rw [hc.min, min_holds hld h']; simp
    have hl : leftmost (Pager.openFile ⟨p.disk.hdr, [x0]⟩) 2 p.md.root ≠ none := by
      intro h0
      apply hmin
      have : (Pager.openFile ⟨p.disk.hdr, [x0]⟩ : Pager K V).md.root = p.md.root := congrArg Meta.root hsync
      rw [Bp.min, this]
      show (match leftmost (Pager.openFile ⟨p.disk.hdr, [x0]⟩) 2 p.md.root with | none => none | some n => _) = none
      rw [h0]
    have hr0 : p.md.root = 0 := by
      by_contra hne
      apply hl
      have : (Pager.openFile ⟨p.disk.hdr, [x0]⟩ : Pager K V).getPage p.md.root = none := by
        simp only [Pager.getPage, Pager.openFile]
        rw [List.getElem?_eq_none (by simp; omega)]
      rw [leftmost, this]
    refine ⟨hr0, ?_⟩
    cases m with
    | zero =>
      obtain ⟨pg, es, rfl⟩ := t.leaf_cases
      have := h.rep.1
      have hr := h.root
      rw [BT.pg_leaf] at this hr
      rw [← hr, hr0] at this
      exact ⟨_, getPage_eq this⟩
    | succ m =>
      exfalso
      obtain ⟨pg, ks, cs, rfl⟩ := t.node_cases
      have hat := h.rep.1
      have hr := h.root
      rw [BT.pg_node] at hat hr
      rw [← hr, hr0] at hat
      rw [hr0] at hr
      subst hr
      obtain ⟨-, ho⟩ := ok_node.1 h.ok
      cases cs with
      | nil => exact absurd rfl (ordL_ne ho)
      | cons c cs =>
        have hnd0 := h.wf.nodup
        rw [BT.pages_node] at hnd0
        have hnd := (List.nodup_cons.1 hnd0).1
        have hc0 : c.pg ≠ 0 := by
          intro h0
          apply hnd
          simp only [List.flatMap_cons, List.mem_append]
          exact Or.inl (h0 ▸ c.pg_mem)
        apply hl
        rw [AtPage, hx0] at hat
        cases hat
        have h1 : (Pager.openFile ⟨p.disk.hdr, [some (BT.rootNode ld id none (BT.node 0 ks (c :: cs)))]⟩ : Pager K V).getPage 0 =
          some (BT.rootNode ld id none (BT.node 0 ks (c :: cs))) := rfl
        have h2 : (Pager.openFile ⟨p.disk.hdr, [some (BT.rootNode ld id none (BT.node 0 ks (c :: cs)))]⟩ : Pager K V).getPage c.pg = none := by
          simp only [Pager.getPage, Pager.openFile]
          rw [List.getElem?_eq_none (by simp; omega)]
        have hptr : (encInt id ks ((c :: cs).map BT.pg)).ptrs[0]? = some c.pg := by simp [encInt, pad]
        rw [hr0, leftmost, h1]
        simp only [BT.rootNode_node, hptr]
        rw [leftmost]
        rw [BT.rootNode_node] at h2
        rw [h2]
  · rintro ⟨hr0, n0, hn0⟩
    have hx : x0 = some (.leaf n0) := by
      rw [Pager.getPage, hx0] at hn0
      cases x0 with
      | none => cases hn0
      | some y => simpa using hn0
    subst hx
    have hroot := h.root
    have hat := h.rep.1
    rw [← hroot, hr0, AtPage, hx0] at hat
    simp only [Option.some.injEq] at hat
    cases m with
    | succ m => obtain ⟨pg, ks, cs, rfl⟩ := t.node_cases; simp at hat
    | zero =>
      obtain ⟨pg, es, rfl⟩ := t.leaf_cases
      rw [BT.rootNode_leaf] at hat
      have hle := (ok_leaf.1 h.ok).2.2
      have hdeg := h.wf.ldeg
      intro d hd
      rw [hwr] at hd
      simp only [List.mem_cons, List.not_mem_nil, or_false] at hd
      have hat0 : AtPage p.disk 0 (.leaf (encLeaf ld es none)) := by rw [AtPage, hx0, hat]
      rcases hd with rfl | rfl | rfl
      · left
        exact sameContents_root (by rw [hsync]; exact hr0) hr0 (by rw [hsync]; exact hdeg) hdeg hle
          (by simp [AtPage, hat]) hat0
      · left
        exact sameContents_root rfl hr0 hdeg hdeg hle (by simp [AtPage, hat]) hat0
      · right
        refine sameContents_of ?_ ?_ ?_ <;> rw [hp']

/-! ### With the stored length -/

/-- Contents and length are those of `p`. -/
def SameState (d : Disk K V) (p : Pager K V) : Prop := SameContents d p ∧ (Pager.openFile d).md.len = p.md.len

/-- **C34 (exact), insertion, with the length.**  If the length reported after reopening counts as well, an `insert` can
be interrupted at any point exactly if it overwrites an entry: in all other cases there is a point at which the file
has neither the old contents and length nor the new ones. -/
theorem C34_insert_state_exact (hld : 1 ≤ ld) (hid : 3 ≤ id) {p p' : Pager K V} (hp : Reached ld id p) {k : K} {v : V} {o}
    (e : insert p k v = some (p', o)) :
    (∀ d ∈ writes p p', SameState d p ∨ SameState d p') ↔ o ≠ none := by
  have hp0 := hp
  obtain ⟨l, m, t, h, rfl⟩ := reached_rel hld hid hp
  obtain ⟨lp, es, x, path, h1, h2, h3, h4, h5⟩ := search_sub (by omega) h.rep h.ok (entIn_none k)
  have hs := h1 (p.disk.pages.length + 1) [] h.fuel
  rw [← h.root, List.append_nil] at hs
  have hs : search p k = some (lp, .leaf (encLeaf ld es x), path) := hs
  have hex := C34_insert_exact hld hid hp0 hs e
  constructor
  · rintro hall rfl
    rcases hex.1 (fun d hd => (hall d hd).imp And.left And.left) with h0 | hroom
    · exact h0 rfl
    · have hf : SL.find k t.toL = none := by
        by_cases hk : Harmful ld p.disk k
        · obtain ⟨q, o, _, _, e', _⟩ := insert_lost (by omega) h v hk
          rw [e] at e'
          simp at e'
        · obtain ⟨q, m', t', e', -, -⟩ := insert_holds (v := v) hld hid h (.inr (safe_of_not_harmful hk))
          rw [e] at e'
          simp only [Option.some.injEq, Prod.mk.injEq] at e'
          exact e'.2.symm
      obtain ⟨q, m', t', e', h', ht⟩ := insert_holds (v := v) hld hid h (.inl hf)
      rw [e] at e'
      simp only [Option.some.injEq, Prod.mk.injEq] at e'
      obtain ⟨rfl, -⟩ := e'
      obtain ⟨n', q, hw, rfl⟩ := insert_room hs e hroom
      have hq := writeNode_some hw
      have hd : q.disk ∈ writes p (q.setLen (q.md.len + 1)) := mem_writes_writeNode (Ext.refl p) hw (ext_setLen _ _)
      have hlen : (Pager.openFile q.disk).md.len = p.md.len := by
        rw [hq]; exact congrArg Meta.len h.wf.hdr
      rcases hall _ hd with hc | hc
      · have hroot : q.disk.hdr.root = q.md.root ∧ q.disk.hdr.leafDeg = q.md.leafDeg := by
          rw [hq]; exact ⟨congrArg Meta.root h.wf.hdr, congrArg Meta.leafDeg h.wf.hdr⟩
        have hc' : SameContents q.disk (q.setLen (q.md.len + 1)) := sameContents_of rfl hroot.1 hroot.2
        have h1 := hc.1.get k
        have h2 := hc'.get k
        rw [h1, get_holds hld (by omega) h, get_holds hld (by omega) h', ht, SL.abs, SL.abs, hf, SL.find_ins (ok_sorted h.ok), if_pos rfl] at h2
        simp at h2
      · have := hc.2
        rw [hlen, hq] at this
        have : p.md.len = p.md.len + 1 := this
        omega
  · intro ho d hd
    rcases hex.2 (.inl ho) d hd with hc | hc
    · left
      refine ⟨hc, ?_⟩
      obtain ⟨n', hw⟩ := insert_entry hs e ho
      have hq := writeNode_some hw
      simp only [writes, hq, Pager.put, List.drop_left, List.mem_singleton] at hd
      subst hd
      exact congrArg Meta.len h.wf.hdr
    · right
      refine ⟨hc, ?_⟩
      obtain ⟨n', hw⟩ := insert_entry hs e ho
      have hq := writeNode_some hw
      simp only [writes, hq, Pager.put, List.drop_left, List.mem_singleton] at hd
      subst hd
      rw [hq]
      exact congrArg Meta.len h.wf.hdr

/-- **C34 (exact), removal, with the length.**  If the length counts as well, a `remove` can be interrupted at any point
exactly if the key is not in the map. -/
theorem C34_remove_state_exact (hld : 1 ≤ ld) (hid : 3 ≤ id) {p p' : Pager K V} (hp : Reached ld id p) {k : K} {o}
    (e : remove p k = some (p', o)) :
    (∀ d ∈ writes p p', SameState d p ∨ SameState d p') ↔ o = none := by
  have hp0 := hp
  obtain ⟨l, m, t, h, rfl⟩ := reached_rel hld hid hp
  obtain ⟨lp, es, x, path, h1, h2, h3, h4, h5⟩ := search_sub (by omega) h.rep h.ok (entIn_none k)
  have hs := h1 (p.disk.pages.length + 1) [] h.fuel
  rw [← h.root, List.append_nil] at hs
  have hs : search p k = some (lp, .leaf (encLeaf ld es x), path) := hs
  have hex := C34_remove_exact hld hid hp0 hs e
  constructor
  · intro hall
    cases o with
    | none => rfl
    | some o =>
    exfalso
    have hn := (hex.1 (fun d hd => (hall d hd).imp And.left And.left)).resolve_left (by simp)
    obtain ⟨n', hw⟩ := remove_plain hs (by rw [h.wf.ldeg]; exact hn) e
    cases hf : SL.find k t.toL with
    | none =>
      rw [remove_absent (by omega) h hf] at e
      cases e
    | some y =>
      obtain ⟨q, m', t', e', h', ht⟩ := remove_present hld hid h hf (.inl rfl)
      rw [e] at e'
      simp only [Option.some.injEq, Prod.mk.injEq] at e'
      obtain ⟨rfl, rfl⟩ := e'
      have hd : (p.setLen (p.md.len - 1)).disk ∈ writes p p' :=
        mem_writes (q := p.setLen (p.md.len - 1)) rfl (by simp [Pager.setLen, Pager.writeHdr, Pager.put]) (ext_writeNode hw)
      have hpos : 0 < p.md.len := by
        rw [h.len]
        exact List.length_pos_of_mem (SL.find_some_mem hf)
      have hc' : SameContents (p.setLen (p.md.len - 1)).disk p := sameContents_of rfl rfl rfl
      rcases hall _ hd with hc | hc
      · have : p.md.len - 1 = p.md.len := hc.2
        omega
      · have h1 := hc.1.get k
        have h2 := hc'.get k
        rw [h1, get_holds hld (by omega) h, get_holds hld (by omega) h', ht, SL.abs, SL.abs, hf, SL.find_del, if_pos rfl] at h2
        simp at h2
  · rintro rfl
    cases hf : SL.find k t.toL with
    | none =>
      rw [remove_absent (by omega) h hf] at e
      cases e
      intro d hd
      simp [writes] at hd
    | some y =>
      obtain ⟨q, m', t', e', h', ht⟩ := remove_present hld hid h hf (.inl rfl)
      rw [e] at e'
      simp at e'

end

/-! ### Non-vacuity -/

/-- Both sides of the conditions occur.  Degrees 2 and 3, entries 1, 2 and 3 in the leaves `[1, 2]` and `[3]`. -/
def three : Pager Nat Nat := stateAfter 2 3 [.insert 1 1, .insert 2 2, .insert 3 3]

/-- `three` is reached by a covered history. -/
theorem three_reached : Reached 2 3 three := by
  have hr : ((bp Nat Nat 2 3).run (new 2 3) (plain [.insert 1 1, .insert 2 2, .insert 3 3])).isSome = true := by decide +kernel
  obtain ⟨⟨p, h⟩, e⟩ := Option.isSome_iff_exists.1 hr
  refine ⟨_, h, ⟨?_, harmless_of_checked (by decide +kernel : checked 2 3 (new 2 3) (plain [.insert 1 1, .insert 2 2, .insert 3 3]) = true)⟩,
    by rw [three, stateAfter, e]; rfl⟩
  intro op hop
  simp [plain] at hop
  rcases hop with rfl | rfl | rfl <;> trivial

/-- Slots in use, slots, and height of the tree above the leaf, for a key. -/
def leafOf (p : Pager Nat Nat) (k : Nat) : Option (Nat × Nat × Nat) :=
  (search p k).bind fun r => match r with | (_, .leaf n, st) => some (n.len, n.entries.length, st.length) | _ => none

example : leafOf three 0 = some (2, 2, 1) ∧ leafOf three 4 = some (1, 2, 1) ∧
    ((insert three 0 0).map Prod.snd = some none ∧ (insert three 4 4).map Prod.snd = some none) ∧
    (insert three 2 5).map Prod.snd = some (some (2, 2)) ∧
    ((remove three 1).map Prod.snd = some (some (1, 1)) ∧ (remove three 3).map Prod.snd = some (some (3, 3))) ∧
    three.md.root ≠ 0 ∧ three.clear.isSome = true := by
  decide +kernel

end Verif.Bp
