/- Insertion into a subtree.  Proof machinery. -/
import Verif.Bp.Tree

namespace Verif.Bp

variable {K V : Type} [LinearOrder K] {ld id : Nat} {g : Bool} {δ : Nat}

/-! ### Lists -/

theorem ins_ctx {k : K} {v : V} {a m b : List (K × V)} (ha : ∀ e ∈ a, e.1 < k) (hb : ∀ e ∈ b, k < e.1) :
    SL.ins k v (a ++ m ++ b) = a ++ SL.ins k v m ++ b := by
  induction a with
  | nil =>
    induction m with
    | nil =>
      cases b with
      | nil => rfl
      | cons e b => have := hb e (by simp); simp [SL.ins, this]
    | cons e m ih =>
      simp only [List.nil_append, List.cons_append, SL.ins] at ih ⊢
      split
      · rfl
      · split
        · rw [ih]; rfl
        · rfl
  | cons e a ih =>
    have h := ha e (by simp)
    have := ih fun x hx => ha x (by simp [hx])
    simp [SL.ins, not_lt.2 (le_of_lt h), h, this, List.append_assoc] at this ⊢
    exact this

theorem find_ctx {k : K} {a m b : List (K × V)} (ha : ∀ e ∈ a, e.1 < k) (hb : ∀ e ∈ b, k < e.1) :
    SL.find k (a ++ m ++ b) = SL.find k m := by
  rw [SL.find_append, SL.find_append, SL.find_of_lt_all ha, SL.find_of_all_lt hb]
  simp

theorem del_ctx {k : K} {a m b : List (K × V)} (ha : ∀ e ∈ a, e.1 < k) (hb : ∀ e ∈ b, k < e.1) :
    SL.del k (a ++ m ++ b) = a ++ SL.del k m ++ b := by
  rw [SL.del_append, SL.del_append, SL.del_of_lt_all ha, SL.del_of_all_lt hb]

/-- Where a key belongs in a sorted list. -/
theorem split_entries (k : K) {es : List (K × V)} (hs : SL.Sorted es) :
    ∃ el er, (∀ a ∈ el, a.1 < k) ∧ (∀ a ∈ er, k < a.1) ∧ SL.Sorted el ∧ SL.Sorted er ∧
      (es = el ++ er ∨ ∃ o, es = el ++ (k, o) :: er) := by
  induction es with
  | nil => exact ⟨[], [], by simp, by simp, List.Pairwise.nil, List.Pairwise.nil, Or.inl rfl⟩
  | cons e es ih =>
    obtain ⟨h1, h2⟩ := List.pairwise_cons.1 hs
    rcases lt_trichotomy e.1 k with h | h | h
    · obtain ⟨el, er, a1, a2, a3, a4, a5⟩ := ih h2
      refine ⟨e :: el, er, ?_, a2, ?_, a4, ?_⟩
      · intro x hx
        rcases List.mem_cons.1 hx with rfl | hx
        · exact h
        · exact a1 x hx
      · refine List.pairwise_cons.2 ⟨fun x hx => h1 x ?_, a3⟩
        rcases a5 with rfl | ⟨o, rfl⟩ <;> simp [hx]
      · rcases a5 with rfl | ⟨o, rfl⟩
        · left; simp
        · right; exact ⟨o, by simp⟩
    · subst h
      exact ⟨[], es, by simp, h1, List.Pairwise.nil, h2, Or.inr ⟨e.2, by simp⟩⟩
    · refine ⟨[], e :: es, by simp, ?_, List.Pairwise.nil, hs, Or.inl rfl⟩
      intro x hx
      rcases List.mem_cons.1 hx with rfl | hx
      · exact h
      · exact lt_trans h (h1 x hx)

theorem split_keys (key : K) {ks : List K} (hs : ks.Pairwise (· < ·)) :
    ∃ kl kr, ks = kl ++ kr ∧ (∀ a ∈ kl, a ≤ key) ∧ ∀ a ∈ kr, key < a := by
  induction ks with
  | nil => exact ⟨[], [], rfl, by simp, by simp⟩
  | cons k ks ih =>
    obtain ⟨h1, h2⟩ := List.pairwise_cons.1 hs
    by_cases h : k ≤ key
    · obtain ⟨kl, kr, rfl, a1, a2⟩ := ih h2
      refine ⟨k :: kl, kr, rfl, ?_, a2⟩
      intro x hx
      rcases List.mem_cons.1 hx with rfl | hx
      · exact h
      · exact a1 x hx
    · refine ⟨[], k :: ks, rfl, by simp, ?_⟩
      intro x hx
      rcases List.mem_cons.1 hx with rfl | hx
      · exact not_le.1 h
      · exact lt_trans (not_le.1 h) (h1 x hx)

theorem lowB_mem {kl : List K} {lo : Option K} : ∀ b ∈ lowB kl lo, b ∈ lo ∨ b ∈ kl := by
  induction kl generalizing lo with
  | nil => exact fun b hb => Or.inl hb
  | cons k kl ih =>
    intro b hb
    rcases ih b hb with h | h
    · cases h; right; simp
    · right; simp [h]

/-- The child of a node in which a key belongs. -/
theorem descend {C : Type} {P : C → Option K → Option K → Prop} {ks} {cs : List C} {lo hi} {key : K}
    (h : OrdL P ks cs lo hi) (he : EntIn lo hi key) :
    ∃ kl kr cl c cr, ks = kl ++ kr ∧ cs = cl ++ c :: cr ∧ cl.length = kl.length ∧ cr.length = kr.length ∧
      (∀ a ∈ kl, a ≤ key) ∧ (∀ a ∈ kr, key < a) ∧ EntIn (lowB kl lo) (hiB kr hi) key := by
  obtain ⟨kl, kr, rfl, h1, h2⟩ := split_keys key (ordL_keys h).1
  have hlen := ordL_length h
  simp at hlen
  have e1 : cs = cs.take kl.length ++ cs.drop kl.length := (List.take_append_drop _ _).symm
  cases hd : cs.drop kl.length with
  | nil =>
    have := congrArg List.length hd
    simp at this; omega
  | cons c cr =>
    rw [hd] at e1
    have hl := congrArg List.length e1
    have hl2 : (cs.take kl.length).length = kl.length := by simp; omega
    refine ⟨kl, kr, cs.take kl.length, c, cr, rfl, e1, hl2, ?_, h1, h2, ?_⟩
    · rw [List.length_append, hl2] at hl; simp at hl; omega
    · refine ⟨fun a ha => ?_, fun b hb => ?_⟩
      · rcases lowB_mem a ha with h | h
        · exact he.1 a h
        · exact h1 a h
      · cases kr with
        | nil => exact he.2 b hb
        | cons k kr => cases hb; exact h2 _ (by simp)

theorem linked_ctx {n : Nat} {P : BT K V n → Option Nat → Prop} {cl cr : List (BT K V n)} {c nxt} :
    Linked P (cl ++ c :: cr) nxt ↔ Linked P cl (some c.first) ∧ P c (nextOf cr nxt) ∧ Linked P cr nxt := by
  rw [linked_append]; exact Iff.rfl

theorem linked_ctx2 {n : Nat} {P : BT K V n → Option Nat → Prop} {cl cr : List (BT K V n)} {c d nxt} :
    Linked P (cl ++ c :: d :: cr) nxt ↔
      Linked P cl (some c.first) ∧ P c (some d.first) ∧ P d (nextOf cr nxt) ∧ Linked P cr nxt := by
  rw [linked_append]; exact Iff.rfl

theorem first_ctx {n p p' : Nat} {ks ks' : List K} {cl cr cr' : List (BT K V n)} {c c'} (h : c'.first = c.first) :
    (BT.node p' ks' (cl ++ c' :: cr')).first = (BT.node p ks (cl ++ c :: cr)).first := by
  cases cl <;> simp [h]

/-- Permutations of lists of pages. -/
macro "perm_pages" : tactic => `(tactic| (
  rw [List.perm_iff_count]; intro a
  simp only [List.count_append, List.count_cons, List.flatMap_append, List.flatMap_cons, List.flatMap_nil,
    List.count_nil, List.cons_append, List.nil_append, List.append_nil, List.append_assoc, BT.pages_node, BT.pages_leaf] <;> omega))

/-! ### Searching -/

theorem searchNode_leaf {p : Pager K V} {key : K} {pg es nxt} (h : RepT ld id p.disk (BT.leaf pg es) nxt)
    {f st} (hf : 0 < f) : searchNode p key f pg st = some (pg, .leaf (encLeaf ld es nxt), st) := by
  obtain ⟨f, rfl⟩ : ∃ g, f = g + 1 := ⟨f - 1, by omega⟩
  have h1 : AtPage p.disk pg _ := h.1
  rw [searchNode, getPage_eq h1]
  rfl

theorem searchNode_node {p : Pager K V} {key : K} {n pg kl kr} {cl cr : List (BT K V n)} {c nxt}
    (hid : 1 ≤ id) (h : RepT ld id p.disk (BT.node pg (kl ++ kr) (cl ++ c :: cr)) nxt)
    (hlen : (kl ++ kr).length ≤ id)
    (h1 : cl.length = kl.length) (h2 : ∀ a ∈ kl, a ≤ key) (h3 : ∀ a ∈ kr, key < a) {f st} :
    searchNode p key (f + 1) pg st =
      searchNode p key f c.pg ((pg, encInt id (kl ++ kr) ((cl ++ c :: cr).map BT.pg), kl.length) :: st) := by
  have hp : AtPage p.disk pg _ := h.1
  rw [searchNode, getPage_eq hp]
  simp only [BT.rootNode_node, search_encInt hid hlen h2 h3]
  have : (encInt id (kl ++ kr) ((cl ++ c :: cr).map BT.pg)).ptrs[kl.length]? = some c.pg := by
    simp only [encInt]
    rw [pad_get_lt (by simp; omega), ← h1]
    simp
  simp only [this]

/-! ### Insertion -/

/-- A root that is not a leaf has at least two children. -/
def RootOk : {n : Nat} → BT K V n → Prop
  | 0, _ => True
  | _ + 1, (t : BNode K _) => t.ks ≠ []

theorem rootOk_leaf {p} {es : List (K × V)} : RootOk (BT.leaf p es) := by trivial

theorem rootOk_node {n p ks} {cs : List (BT K V n)} : RootOk (BT.node p ks cs) ↔ ks ≠ [] := Iff.rfl

/-- What a subtree and the rest of the file look like after an insertion that needs no new sibling. -/
structure Done (g : Bool) (ld id : Nat) {n : Nat} (p p' : Pager K V) (t t' : BT K V n) (R : List Nat) (lo hi : Option K)
    (nxt : Option Nat) (l : List (K × V)) : Prop where
  wf : WfG g ld id p' (t'.pages ++ R)
  rep : RepT ld id p'.disk t' nxt
  ok : Ok ld id t' lo hi
  pg : t'.pg = t.pg
  first : t'.first = t.first
  toL : t'.toL = l
  occ : MinOcc ld id t → MinOcc ld id t'
  rootOk : RootOk t → RootOk t'
  len : p'.md.len = p.md.len
  root : p'.md.root = p.md.root
  frame : ∀ i ∈ R, p'.disk.pages[i]? = p.disk.pages[i]?

/-- The same after an insertion that split the root of the subtree. -/
structure Split (g : Bool) (ld id : Nat) {n : Nat} (p p' : Pager K V) (t t1 t2 : BT K V n) (k : K) (R : List Nat)
    (lo hi : Option K) (nxt : Option Nat) (l : List (K × V)) : Prop where
  wf : WfG g ld id p' (t1.pages ++ t2.pages ++ R)
  rep1 : RepT ld id p'.disk t1 (some t2.first)
  rep2 : RepT ld id p'.disk t2 nxt
  ok1 : OkC ld id t1 lo (some k)
  ok2 : OkC ld id t2 (some k) hi
  sep : SepIn lo hi k
  pg : t1.pg = t.pg
  first : t1.first = t.first
  toL : t1.toL ++ t2.toL = l
  len : p'.md.len = p.md.len
  root : p'.md.root = p.md.root
  frame : ∀ i ∈ R, p'.disk.pages[i]? = p.disk.pages[i]?

theorem insertUp_none {p : Pager K V} {page st} : insertUp p page st none = some p := by
  cases st <;> rfl

theorem sepIn_of_entIn {lo hi : Option K} {a b : K} (ha : EntIn lo hi a) (hb : EntIn lo hi b) (h : a < b) :
    SepIn lo hi b := ⟨fun x hx => lt_of_le_of_lt (ha.1 x hx) h, hb.2⟩

/-- Overwriting the key does not clear slots of a full leaf. -/
def Safe (ld : Nat) (d : Disk K V) (key : K) : Prop :=
  ∀ pg es nxt el o er, AtPage d pg (.leaf (encLeaf ld es nxt)) → es.length ≤ ld → es = el ++ (key, o) :: er →
    es.length < ld ∨ el.length ≤ ld / 2 + 1

theorem insert_leaf (hld : 1 ≤ ld) {key : K} {v : V} {p : Pager K V} {pg es R lo hi nxt}
    (hw : WfG g ld id p ((BT.leaf pg es).pages ++ R)) (hr : RepT ld id p.disk (BT.leaf pg es) nxt)
    (hok : Ok ld id (BT.leaf pg es) lo hi) (he : EntIn lo hi key)
    (hsafe : SL.find key es = none ∨ Safe ld p.disk key) :
    ∃ p1 s1, insertLeaf p pg (encLeaf ld es nxt) (key, v) = some (p1, s1, SL.find key es) ∧
      ((s1 = none ∧ ∃ t', Done g ld id p p1 (BT.leaf pg es) t' R lo hi nxt (SL.ins key v es)) ∨
       (SL.find key es = none ∧ ∃ t1 t2 k, s1 = some (k, t2.pg) ∧
          Split g ld id p p1 (BT.leaf pg es) t1 t2 k R lo hi nxt (SL.ins key v es))) := by
  obtain ⟨hs, hb, hl⟩ := ok_leaf.1 hok
  obtain ⟨el, er, a1, a2, a3, a4, a5⟩ := split_entries key hs
  have hb' : ∀ e ∈ SL.ins key v es, EntIn lo hi e.1 := by
    intro e hx
    rcases SL.mem_ins hx with rfl | hx
    · exact he
    · exact hb e hx
  have hs' := SL.sorted_ins (k := key) (v := v) hs
  have hpg : pg ∈ (BT.leaf pg es).pages ++ R := by simp
  have hnd := hw.nodup
  have hne : ∀ i ∈ R, i ≠ pg := by
    intro i hi e
    subst e
    simp at hnd
    exact hnd.1 hi
  rcases a5 with rfl | ⟨o, rfl⟩
  · have hfind : SL.find key (el ++ er) = none := by
      rw [SL.find_append, SL.find_of_lt_all a1, SL.find_of_all_lt a2]; rfl
    have hins : SL.ins key v (el ++ er) = el ++ (key, v) :: er := SL.ins_between a1 a2
    by_cases hroom : (el ++ er).length < ld
    · obtain ⟨p1, e1, w1, b1, m1, f1⟩ := hw.write hpg (.leaf (encLeaf ld (el ++ (key, v) :: er) nxt))
      refine ⟨p1, none, ?_, Or.inl ⟨rfl, BT.leaf pg (el ++ (key, v) :: er), ?_⟩⟩
      · rw [insertLeaf, insert_encLeaf_room a1 a2 a4 hroom]
        simp only [e1, Option.map_some, hfind]
      · refine ⟨w1, ⟨b1, below_leaf⟩, ok_leaf.2 ⟨hins ▸ hs', hins ▸ hb', ?_⟩, rfl, rfl, hins.symm, ?_, fun h => h, by rw [m1], by rw [m1],
          fun i hi => f1 i (hne i hi)⟩
        · simp at hroom ⊢; omega
        · intro h
          show (ld + 1) / 2 ≤ (el ++ (key, v) :: er).length
          have : (ld + 1) / 2 ≤ (el ++ er).length := h
          simp at this ⊢; omega
    · have hfull : (el ++ er).length = ld := by omega
      have hlen : (el ++ (key, v) :: er).length = ld + 1 := by simp at hfull ⊢; omega
      have e1 := (List.take_append_drop (ld / 2 + 1) (el ++ (key, v) :: er)).symm
      have l1 : ((el ++ (key, v) :: er).take (ld / 2 + 1)).length = ld / 2 + 1 := by
        rw [List.length_take, hlen]; omega
      have l2 : ((el ++ (key, v) :: er).drop (ld / 2 + 1)).length = ld - ld / 2 := by
        rw [List.length_drop, hlen]; omega
      generalize (el ++ (key, v) :: er).take (ld / 2 + 1) = es1 at e1 l1
      generalize (el ++ (key, v) :: er).drop (ld / 2 + 1) = es2 at e1 l2
      cases es2 with
      | nil => simp at l2; omega
      | cons s es2 =>
        obtain ⟨p1, q, c1, w1, b1, n1, r1, f1⟩ := hw.alloc (.leaf (encLeaf ld (s :: es2) nxt))
        obtain ⟨p2, c2, w2, b2, m2, f2⟩ := w1.write (i := pg) (by simp) (.leaf (encLeaf ld es1 (some q)))
        have hq : q ≠ pg := by
          intro e
          have := w1.nodup
          rw [e] at this
          simp at this
        have hsub : es1 ++ s :: es2 = SL.ins key v (el ++ er) := by rw [hins, e1]
        have hs2 : SL.Sorted (es1 ++ s :: es2) := hsub ▸ hs'
        have hb2 : ∀ e ∈ es1 ++ s :: es2, EntIn lo hi e.1 := hsub ▸ hb'
        obtain ⟨g1, g2, g3, g4⟩ := SL.sorted_mid.1 hs2
        refine ⟨p2, some (s.1, q), ?_, Or.inr ⟨hfind, BT.leaf pg es1, BT.leaf q (s :: es2), s.1, rfl, ?_⟩⟩
        · rw [insertLeaf, insert_encLeaf_full hld a1 a2 a4 hfull e1 l1]
          simp only [c1, hfind]
          have : ({ encLeaf ld es1 nxt with next := some q } : LNode K V) = encLeaf ld es1 (some q) := rfl
          rw [this, c2]
          rfl
        · refine ⟨?_, ⟨b2, below_leaf⟩, ⟨?_, below_leaf⟩, ?_, ?_, ?_, rfl, rfl, ?_, by rw [m2, n1], by rw [m2, r1], ?_⟩
          · exact w2.perm (by perm_pages)
          · show p2.disk.pages[q]? = _
            rw [f2 q hq]; exact b1
          · refine ⟨?_, ok_leaf.2 ⟨g1, fun e hx => ⟨(hb2 e (by simp [hx])).1, ?_⟩, by omega⟩⟩
            · show (ld + 1) / 2 ≤ es1.length
              omega
            · intro b hb; cases hb; exact g3 e hx
          · refine ⟨?_, ok_leaf.2 ⟨?_, fun e hx => ⟨?_, (hb2 e (by simp [hx])).2⟩, by omega⟩⟩
            · show (ld + 1) / 2 ≤ (s :: es2).length
              omega
            · exact (SL.sorted_append.1 hs2).2.1
            · intro b hb
              cases hb
              rcases List.mem_cons.1 hx with rfl | hx
              · exact le_refl _
              · exact le_of_lt (g4 e hx)
          · cases es1 with
            | nil => simp at l1
            | cons x es1 => exact sepIn_of_entIn (hb2 x (by simp)) (hb2 s (by simp)) (g3 x (by simp))
          · simp [hsub]
          · intro i hi
            rw [f2 i (hne i hi), f1 i (by simp [hi])]
  · have hfind : SL.find key (el ++ (key, o) :: er) = some (key, o) := SL.find_mid_eq hs
    have hins : SL.ins key v (el ++ (key, o) :: er) = el ++ (key, v) :: er := SL.ins_mid_eq hs
    have hroom : (el ++ (key, o) :: er).length < ld ∨ el.length ≤ ld / 2 + 1 := by
      rcases hsafe with h | h
      · rw [hfind] at h; exact absurd h (by simp)
      · exact h pg _ nxt el o er hr.1 hl rfl
    obtain ⟨p1, e1, w1, b1, m1, f1⟩ := hw.write hpg (.leaf (encLeaf ld (el ++ (key, v) :: er) nxt))
    refine ⟨p1, none, ?_, Or.inl ⟨rfl, BT.leaf pg (el ++ (key, v) :: er), ?_⟩⟩
    · have := insert_encLeaf_present (ld := ld) (e := (key, v)) (o := o) (el := el) (er := er) (nxt := nxt) a1 hl
        hroom
      simp only at this
      rw [insertLeaf, this]
      simp only [e1, Option.map_some, hfind]
    · refine ⟨w1, ⟨b1, below_leaf⟩, ok_leaf.2 ⟨hins ▸ hs', hins ▸ hb', ?_⟩, rfl, rfl, hins.symm, ?_, fun h => h, by rw [m1], by rw [m1],
        fun i hi => f1 i (hne i hi)⟩
      · simpa using hl
      · intro h
        show (ld + 1) / 2 ≤ (el ++ (key, v) :: er).length
        have : (ld + 1) / 2 ≤ (el ++ (key, o) :: er).length := h
        simpa using this


/-- Facts about replacing children of a node. -/
theorem node_parts {n pg kl kr} {cl cr : List (BT K V n)} {c} {lo hi : Option K} {key : K} {v : V}
    (h : OrdL (OkC ld id) (kl ++ kr) (cl ++ c :: cr) lo hi) (h1 : cl.length = kl.length)
    (he : EntIn (lowB kl lo) (hiB kr hi) key) :
    OkC ld id c (lowB kl lo) (hiB kr hi) ∧
    (∀ ks2 cs2, OrdL (OkC ld id) ks2 cs2 (lowB kl lo) (hiB kr hi) →
      OrdL (OkC ld id) (kl ++ ks2 ++ kr) (cl ++ cs2 ++ cr) lo hi) ∧
    SL.find key (BT.node pg (kl ++ kr) (cl ++ c :: cr)).toL = SL.find key c.toL ∧
    (SL.ins key v (BT.node pg (kl ++ kr) (cl ++ c :: cr)).toL =
      cl.flatMap BT.toL ++ SL.ins key v c.toL ++ cr.flatMap BT.toL) ∧
    (SL.del key (BT.node pg (kl ++ kr) (cl ++ c :: cr)).toL =
      cl.flatMap BT.toL ++ SL.del key c.toL ++ cr.flatMap BT.toL) := by
  have h' : OrdL (OkC ld id) (kl ++ [] ++ kr) (cl ++ [c] ++ cr) lo hi := by simpa using h
  obtain ⟨g1, g2⟩ := ordL_ctx h1 (by simp) h'
  have hA : ∀ e ∈ cl.flatMap BT.toL, e.1 < key := by
    intro e hx
    obtain ⟨b, hb, hlt⟩ := ordL_left (okC_mem (ld := ld) (id := id)) h1 h e hx
    exact lt_of_lt_of_le hlt (he.1 b hb)
  have hB : ∀ e ∈ cr.flatMap BT.toL, key < e.1 := by
    intro e hx
    have h'' : OrdL (OkC ld id) (kl ++ kr) ((cl ++ [c]) ++ cr) lo hi := by simpa using h
    obtain ⟨b, hb, hlt⟩ := ordL_right (okC_mem (ld := ld) (id := id)) (by simp [h1]) h'' e hx
    exact lt_of_lt_of_le (he.2 b hb) hlt
  have e1 : (BT.node pg (kl ++ kr) (cl ++ c :: cr)).toL = cl.flatMap BT.toL ++ c.toL ++ cr.flatMap BT.toL := by
    simp
  rw [e1]
  exact ⟨g1, g2, find_ctx hA hB, ins_ctx hA hB, del_ctx hA hB⟩

/-- The pages of the other children and of the root are not those of a child. -/
theorem frame_of {p p' : Pager K V} {R S : List Nat} (h : ∀ i ∈ R, p'.disk.pages[i]? = p.disk.pages[i]?)
    (hs : ∀ i ∈ S, i ∈ R) : ∀ i ∈ S, p'.disk.pages[i]? = p.disk.pages[i]? := fun i hi => h i (hs i hi)

theorem insert_sub (hld : 1 ≤ ld) (hid : 3 ≤ id) {key : K} {v : V} {p : Pager K V} :
    ∀ {n : Nat} {t : BT K V n} {R lo hi nxt}, WfG g ld id p (t.pages ++ R) → RepT ld id p.disk t nxt →
    Ok ld id t lo hi → EntIn lo hi key → (SL.find key t.toL = none ∨ Safe ld p.disk key) →
    ∃ lp ln path, (∀ f st, n < f → searchNode p key f t.pg st = some (lp, .leaf ln, path ++ st)) ∧
      ∃ p1 s1, insertLeaf p lp ln (key, v) = some (p1, s1, SL.find key t.toL) ∧
        (SL.find key t.toL ≠ none → s1 = none) ∧
        ((∃ p' t', (∀ st, insertUp p1 lp (path ++ st) s1 = some p') ∧
            Done g ld id p p' t t' R lo hi nxt (SL.ins key v t.toL)) ∨
         (SL.find key t.toL = none ∧ ∃ p' t1 t2 k,
            (∀ st, insertUp p1 lp (path ++ st) s1 = insertUp p' t.pg st (some (k, t2.pg))) ∧
            Split g ld id p p' t t1 t2 k R lo hi nxt (SL.ins key v t.toL))) := by
  intro n
  induction n with
  | zero =>
    intro t R lo hi nxt hw hr hok he hsafe
    obtain ⟨pg, es, rfl⟩ := t.leaf_cases
    obtain ⟨p1, s1, h1, h2⟩ := insert_leaf (v := v) hld hw hr hok he hsafe
    refine ⟨pg, encLeaf ld es nxt, [], fun f st hf => searchNode_leaf hr hf, p1, s1, h1, ?_, ?_⟩
    · intro h
      rcases h2 with h2 | h2
      · exact h2.1
      · exact absurd h2.1 h
    · rcases h2 with ⟨rfl, t', h2⟩ | ⟨h3, t1, t2, k, rfl, h2⟩
      · exact Or.inl ⟨p1, t', fun st => insertUp_none, h2⟩
      · exact Or.inr ⟨h3, p1, t1, t2, k, fun st => rfl, h2⟩
  | succ n ih =>
    intro t R lo hi nxt hw hr hok he hsafe
    obtain ⟨pg, ks, cs, rfl⟩ := t.node_cases
    obtain ⟨hlen, hord⟩ := ok_node.1 hok
    obtain ⟨kl, kr, cl, c, cr, rfl, rfl, l1, l2, k1, k2, he'⟩ := descend hord he
    obtain ⟨hc, hrepl, hfind, hins, _⟩ := node_parts (pg := pg) (v := v) hord l1 he'
    have hlk := linked_ctx.1 (below_node.1 hr.2)
    rw [hfind] at hsafe
    have hw' : WfG g ld id p (c.pages ++ (pg :: (cl.flatMap BT.pages ++ cr.flatMap BT.pages) ++ R)) :=
      hw.perm (by perm_pages)
    obtain ⟨lp, ln, path, hsearch, p1, s1, hleaf, hs1, hcase⟩ := ih hw' hlk.2.1 hc.2 he' hsafe
    refine ⟨lp, ln, path ++ [(pg, encInt id (kl ++ kr) ((cl ++ c :: cr).map BT.pg), kl.length)], ?_, p1, s1,
      by rw [hfind]; exact hleaf, by rw [hfind]; exact hs1, ?_⟩
    · intro f st hf
      obtain ⟨f, rfl⟩ : ∃ g, f = g + 1 := ⟨f - 1, by omega⟩
      rw [BT.pg_node, searchNode_node (by omega) hr hlen l1 k1 k2, hsearch f _ (by omega)]
      simp
    · rw [hfind, hins]
      rcases hcase with ⟨p', t', hup, hd⟩ | ⟨hnone, p', t1, t2, k, hup, hd⟩
      · refine Or.inl ⟨p', BT.node pg (kl ++ kr) (cl ++ t' :: cr), fun st => by rw [List.append_assoc, hup], ?_⟩
        have ho := hrepl [] [t'] (ordL_nil.2 ⟨hd.occ hc.1, hd.ok⟩)
        refine ⟨hd.wf.perm (by perm_pages), ⟨?_, below_node.2 (linked_ctx.2 ⟨?_, hd.rep, ?_⟩)⟩,
          ok_node.2 ⟨hlen, by simpa using ho⟩, rfl, first_ctx hd.first, by simp [hd.toL], fun h => h, fun h => h, hd.len, hd.root,
          frame_of hd.frame (by simp +contextual)⟩
        · have : AtPage p.disk pg _ := hr.1
          show p'.disk.pages[pg]? = _
          rw [hd.frame pg (by simp), this]
          simp [hd.pg]
        · rw [hd.first]; exact linked_frame (frame_of hd.frame (by simp +contextual)) hlk.1
        · exact linked_frame (frame_of hd.frame (by simp +contextual)) hlk.2.2
      · have ho : OrdL (OkC ld id) (kl ++ k :: kr) (cl ++ t1 :: t2 :: cr) lo hi := by
          have := hrepl [k] [t1, t2] ⟨hd.sep, hd.ok1, hd.ok2⟩
          simpa using this
        have hkeys := (ordL_keys ho).1
        rw [List.pairwise_append, List.pairwise_cons] at hkeys
        have q1 : ∀ a ∈ kl, a ≤ k := fun a ha => le_of_lt (hkeys.2.2 a ha k (by simp))
        have hpl : ((cl ++ [c]).map BT.pg).length = kl.length + 1 := by simp [l1]
        have hpr : (cr.map BT.pg).length = kr.length := by simp [l2]
        have hptrs : (cl ++ c :: cr).map BT.pg = (cl ++ [c]).map BT.pg ++ cr.map BT.pg := by simp
        have hnew : (cl ++ [c]).map BT.pg ++ t2.pg :: cr.map BT.pg = (cl ++ t1 :: t2 :: cr).map BT.pg := by
          simp [hd.pg]
        have hlk' : Linked (RepT ld id p'.disk) (cl ++ t1 :: t2 :: cr) nxt := by
          refine linked_ctx2.2 ⟨?_, hd.rep1, hd.rep2, ?_⟩
          · rw [hd.first]; exact linked_frame (frame_of hd.frame (by simp +contextual)) hlk.1
          · exact linked_frame (frame_of hd.frame (by simp +contextual)) hlk.2.2
        have hwp : WfG g ld id p' (pg :: ((cl ++ t1 :: t2 :: cr).flatMap BT.pages ++ R)) := hd.wf.perm (by perm_pages)
        have hndp := List.nodup_cons.1 hwp.nodup
        have htoL : cl.flatMap BT.toL ++ SL.ins key v c.toL ++ cr.flatMap BT.toL =
            (cl ++ t1 :: t2 :: cr).flatMap BT.toL := by simp [← hd.toL]
        have hfr : ∀ i ∈ R, p'.disk.pages[i]? = p.disk.pages[i]? := frame_of hd.frame (by simp +contextual)
        by_cases hroom : (kl ++ kr).length < id
        · obtain ⟨p2, c2, w2, b2, m2, f2⟩ := hwp.write (i := pg) (by simp)
            (.internal (encInt id (kl ++ k :: kr) ((cl ++ t1 :: t2 :: cr).map BT.pg)))
          refine Or.inl ⟨p2, BT.node pg (kl ++ k :: kr) (cl ++ t1 :: t2 :: cr), ?_, ?_⟩
          · intro st
            rw [List.append_assoc, hup]
            simp only [List.cons_append, List.nil_append]
            rw [insertUp, hptrs, insert_encInt hpl hpr q1 hkeys.2.1.1 hkeys.2.1.2 hroom, hnew]
            exact c2
          · refine ⟨w2.perm (by perm_pages), ⟨b2, below_node.2 ?_⟩, ok_node.2 ⟨?_, ho⟩, rfl, first_ctx hd.first,
              ?_, ?_, fun _ => rootOk_node.2 (by simp), by rw [m2, hd.len], by rw [m2, hd.root], ?_⟩
            · refine linked_frame (fun i hi => f2 i ?_) hlk'
              rintro rfl
              exact hndp.1 (by simp only [List.mem_append]; exact Or.inl hi)
            · simp at hroom ⊢; omega
            · rw [htoL, BT.toL_node]
            · intro h
              have h : (id + 1) / 2 ≤ (kl ++ kr).length + 1 := h
              show (id + 1) / 2 ≤ (kl ++ k :: kr).length + 1
              simp at h ⊢; omega
            · intro i hi
              rw [f2 i ?_, hfr i hi]
              rintro rfl
              exact hndp.1 (by simp only [List.mem_append]; exact Or.inr hi)
        · have hfull : (kl ++ kr).length = id := by omega
          have hlen1 : (kl ++ k :: kr).length = id + 1 := by simp at hfull ⊢; omega
          have hlen2 : (cl ++ t1 :: t2 :: cr).length = id + 2 := by simp at hfull ⊢; omega
          have e1 := (List.take_append_drop ((id + 1) / 2) (kl ++ k :: kr)).symm
          have m1 : ((kl ++ k :: kr).take ((id + 1) / 2)).length = (id + 1) / 2 := by
            rw [List.length_take, hlen1]; omega
          have m2 : ((kl ++ k :: kr).drop ((id + 1) / 2)).length = id + 1 - (id + 1) / 2 := by
            rw [List.length_drop, hlen1]
          have e2 := (List.take_append_drop ((id + 1) / 2 + 1) (cl ++ t1 :: t2 :: cr)).symm
          have m3 : ((cl ++ t1 :: t2 :: cr).take ((id + 1) / 2 + 1)).length = (id + 1) / 2 + 1 := by
            rw [List.length_take, hlen2]; omega
          have m4 : ((cl ++ t1 :: t2 :: cr).drop ((id + 1) / 2 + 1)).length = id + 2 - ((id + 1) / 2 + 1) := by
            rw [List.length_drop, hlen2]
          generalize (kl ++ k :: kr).take ((id + 1) / 2) = ks1 at e1 m1
          generalize (kl ++ k :: kr).drop ((id + 1) / 2) = ks2 at e1 m2
          generalize (cl ++ t1 :: t2 :: cr).take ((id + 1) / 2 + 1) = cs1 at e2 m3
          generalize (cl ++ t1 :: t2 :: cr).drop ((id + 1) / 2 + 1) = cs2 at e2 m4
          cases ks2 with
          | nil => simp at m2; omega
          | cons sk ks2 =>
            simp at m2
            obtain ⟨d0, cs1', hcs1⟩ : ∃ d0 cs1', cs1 = d0 :: cs1' := by
              cases cs1 with
              | nil => simp at m3
              | cons a b => exact ⟨a, b, rfl⟩
            obtain ⟨d1, cs2', hcs2⟩ : ∃ d1 cs2', cs2 = d1 :: cs2' := by
              cases cs2 with
              | nil => simp at m4; omega
              | cons a b => exact ⟨a, b, rfl⟩
            rw [e1, e2] at ho
            obtain ⟨o1, o2, o3⟩ := (ordL_join (by omega)).1 ho
            obtain ⟨p2, q, c2, w2, b2, n2, r2, f2⟩ := hwp.alloc (.internal (encInt id ks2 (cs2.map BT.pg)))
            obtain ⟨p3, c3, w3, b3, n3, f3⟩ := w2.write (i := pg) (by simp)
              (.internal (encInt id ks1 (cs1.map BT.pg)))
            have hq : q ∉ pg :: ((cl ++ t1 :: t2 :: cr).flatMap BT.pages ++ R) := (List.nodup_cons.1 w2.nodup).1
            have hqpg : q ≠ pg := fun e => hq (by simp [e])
            have hfr3 : ∀ i ∈ (cl ++ t1 :: t2 :: cr).flatMap BT.pages ++ R,
                p3.disk.pages[i]? = p'.disk.pages[i]? := by
              intro i hi
              rw [f3 i ?_, f2 i (List.mem_cons_of_mem _ hi)]
              rintro rfl
              exact hndp.1 hi
            have hlk3 : Linked (RepT ld id p3.disk) (cs1 ++ cs2) nxt := by
              rw [← e2]
              exact linked_frame (frame_of hfr3 fun i hi => List.mem_append.2 (Or.inl hi)) hlk'
            obtain ⟨hlk1, hlk2⟩ := linked_append.1 hlk3
            refine Or.inr ⟨hnone, p3, BT.node pg ks1 cs1, BT.node q ks2 cs2, sk, ?_, ?_⟩
            · intro st
              rw [List.append_assoc, hup]
              simp only [List.cons_append, List.nil_append]
              rw [insertUp, hptrs, insert_encInt_full (by omega) hpl hpr q1 hkeys.2.1.1 hkeys.2.1.2 hfull e1 m1
                (ps1 := cs1.map BT.pg) (ps2 := cs2.map BT.pg) (by rw [hnew, e2, List.map_append])
                (by rw [List.length_map]; exact m3)]
              simp only [c2, c3, BT.pg_node]
            · refine ⟨?_, ⟨b3, below_node.2 ?_⟩, ⟨?_, below_node.2 hlk2⟩, ⟨?_, ok_node.2 ⟨by omega, o1⟩⟩,
                ⟨?_, ok_node.2 ⟨by omega, o3⟩⟩, o2, rfl, ?_, ?_, by rw [n3, n2, hd.len], by rw [n3, r2, hd.root], ?_⟩
              · rw [e2] at w3
                exact w3.perm (by perm_pages)
              · rw [hcs2] at hlk1 ⊢
                exact hlk1
              · show p3.disk.pages[q]? = _
                rw [f3 q hqpg]; exact b2
              · show (id + 1) / 2 ≤ ks1.length + 1
                omega
              · show (id + 1) / 2 ≤ ks2.length + 1
                omega
              · have : (BT.node pg ks1 cs1).first = (BT.node pg ks1 (cs1 ++ cs2)).first := by rw [hcs1]; rfl
                rw [this, ← e2]
                exact first_ctx hd.first
              · rw [htoL, BT.toL_node, BT.toL_node, e2, List.flatMap_append]
              · intro i hi
                rw [hfr3 i (List.mem_append.2 (Or.inr hi)), hfr i hi]


/-! ### The whole map -/

/-- The file of a map holds a tree with the entries of the map; `δ` is what the length is short of their number. -/
structure HoldsG (g : Bool) (δ : Nat) (ld id : Nat) (p : Pager K V) {n : Nat} (t : BT K V n) : Prop where
  wf : WfG g ld id p t.pages
  root : p.md.root = t.pg
  rep : RepT ld id p.disk t none
  ok : Ok ld id t none none
  rootOk : RootOk t
  drift : p.md.len + δ = t.toL.length

/-- The file of a map holds a tree with the entries of the map. -/
abbrev Holds (ld id : Nat) (p : Pager K V) {n : Nat} (t : BT K V n) : Prop := HoldsG true 0 ld id p t

theorem HoldsG.len {p : Pager K V} {n : Nat} {t : BT K V n} (h : HoldsG g 0 ld id p t) : p.md.len = t.toL.length := h.drift

theorem depth_lt {n : Nat} {t : BT K V n} {lo hi} (h : Ok ld id t lo hi) : n < t.pages.length := by
  induction n generalizing lo hi with
  | zero => obtain ⟨pg, es, rfl⟩ := t.leaf_cases; simp
  | succ n ih =>
    obtain ⟨pg, ks, cs, rfl⟩ := t.node_cases
    obtain ⟨h1, h2⟩ := ok_node.1 h
    cases cs with
    | nil => have := ordL_length h2; simp at this
    | cons c cs =>
      have hc : ∃ lo hi, OkC ld id c lo hi := by
        cases ks with
        | nil =>
          cases cs with
          | nil => exact ⟨_, _, ordL_nil.1 h2⟩
          | cons d cs => have := ordL_length h2; simp at this
        | cons k ks => exact ⟨_, _, (ordL_cons.1 h2).2.1⟩
      obtain ⟨lo, hi, hc⟩ := hc
      have := ih hc.2
      simp; omega

theorem nodup_length_le {l : List Nat} (h : l.Nodup) {m : Nat} (hl : ∀ i ∈ l, i < m) : l.length ≤ m := by
  have := (List.subperm_of_subset h (l₂ := List.range m) fun i hi => by simpa using hl i hi).length_le
  simpa using this

theorem WfG.length_le {p : Pager K V} {l : List Nat} (h : WfG g ld id p l) : l.length ≤ p.disk.pages.length :=
  nodup_length_le h.nodup h.lt'

theorem entIn_none (k : K) : EntIn none none k := ⟨by simp, by simp⟩

theorem HoldsG.fuel {p : Pager K V} {n : Nat} {t : BT K V n} (h : HoldsG g δ ld id p t) : n < p.disk.pages.length + 1 := by
  have h1 := depth_lt h.ok
  have h2 := h.wf.length_le
  omega

theorem length_ins_absent {l : List (K × V)} {k : K} {v : V} (hs : SL.Sorted l) (h : SL.find k l = none) :
    (SL.ins k v l).length = l.length + 1 := by
  have := SL.length_ins (k := k) (v := v) hs
  rw [h] at this
  simpa using this

theorem length_ins_present {l : List (K × V)} {k : K} {v : V} {o} (hs : SL.Sorted l) (h : SL.find k l = some o) :
    (SL.ins k v l).length = l.length := by
  have := SL.length_ins (k := k) (v := v) hs
  rw [h] at this
  simpa using this

/-- `insert` on the whole map. -/
theorem insert_holds (hld : 1 ≤ ld) (hid : 3 ≤ id) {key : K} {v : V} {p : Pager K V} {n : Nat} {t : BT K V n}
    (h : HoldsG g δ ld id p t) (hsafe : SL.find key t.toL = none ∨ Safe ld p.disk key) :
    ∃ p' m, ∃ t' : BT K V m, insert p key v = some (p', SL.find key t.toL) ∧ HoldsG g δ ld id p' t' ∧
      t'.toL = SL.ins key v t.toL := by
  have hw : WfG g ld id p (t.pages ++ []) := by simpa using h.wf
  obtain ⟨lp, ln, path, hsearch, p1, s1, hleaf, hs1, hcase⟩ :=
    insert_sub (v := v) hld hid hw h.rep h.ok (entIn_none key) hsafe
  have hs := hsearch (p.disk.pages.length + 1) [] h.fuel
  rw [← h.root, List.append_nil] at hs
  have hsr : search p key = some (lp, .leaf ln, path) := hs
  have hsort := ok_sorted h.ok
  cases hf : SL.find key t.toL with
  | some o =>
    have hs1' := hs1 (by rw [hf]; simp)
    subst hs1'
    rcases hcase with ⟨p', t', hup, hd⟩ | ⟨hn, _⟩
    · have := hup []
      rw [insertUp_none] at this
      cases this
      refine ⟨p1, n, t', ?_, ⟨by simpa using hd.wf, by rw [hd.root, h.root, hd.pg], hd.rep, hd.ok,
        hd.rootOk h.rootOk, ?_⟩, hd.toL⟩
      · rw [insert, hsr]
        simp only [hleaf, hf]
      · rw [hd.len, h.drift, hd.toL, length_ins_present hsort hf]
    · rw [hf] at hn; cases hn
  | none =>
    rcases hcase with ⟨p', t', hup, hd⟩ | ⟨_, p', t1, t2, k, hup, hd⟩
    · have := hup []
      rw [List.append_nil] at this
      refine ⟨p'.setLen (p'.md.len + 1), n, t', ?_, ⟨by simpa using hd.wf.setLen _, ?_, ?_, hd.ok,
        hd.rootOk h.rootOk, ?_⟩, hd.toL⟩
      · rw [insert, hsr]
        simp only [hleaf, hf, this]
      · show p'.md.root = _
        rw [hd.root, h.root, hd.pg]
      · exact repT_frame (d := p'.disk) (fun _ _ => rfl) hd.rep
      · show p'.md.len + 1 + δ = _
        rw [hd.len, hd.toL, length_ins_absent hsort hf, ← h.drift]
        omega
    · have h1 := hup []
      rw [List.append_nil] at h1
      obtain ⟨p2, q, c2, w2, b2, n2, r2, f2⟩ := hd.wf.alloc (.internal (encInt id [k] [t1.pg, t2.pg]))
      have hup2 : insertUp p' t.pg [] (some (k, t2.pg)) = some (p2.setRoot q) := by
        obtain ⟨j, rfl⟩ : ∃ j, id = j + 1 := ⟨id - 1, by omega⟩
        have hdeg := hd.wf.ideg
        have e : (⟨1, some k :: List.replicate j none, t.pg :: t2.pg :: List.replicate j 0⟩ : INode K) =
            encInt (j + 1) [k] [t1.pg, t2.pg] := by
          simp [encInt, pad, hd.pg]
        rw [insertUp]
        simp only [hdeg, INode.new, List.replicate_succ, e, c2]
      refine ⟨(p2.setRoot q).setLen (p2.md.len + 1), n + 1, BT.node q [k] [t1, t2], ?_, ⟨?_, rfl, ?_, ?_, ?_, ?_⟩, ?_⟩
      · rw [insert, hsr]
        simp only [hleaf, hf, h1, hup2]
        rfl
      · exact ((w2.setRoot q).setLen _).perm (by perm_pages)
      · refine ⟨b2, below_node.2 ⟨?_, ?_, trivial⟩⟩
        · exact repT_frame (d := p'.disk) (fun i hi => f2 i (by simp [hi])) hd.rep1
        · exact repT_frame (d := p'.disk) (fun i hi => f2 i (by simp [hi])) hd.rep2
      · exact ok_node.2 ⟨by simp; omega, hd.sep, hd.ok1, hd.ok2⟩
      · exact rootOk_node.2 (by simp)
      · show p2.md.len + 1 + δ = _
        have e : (BT.node q [k] [t1, t2]).toL = SL.ins key v t.toL := by rw [← hd.toL]; simp
        rw [e, n2, hd.len, length_ins_absent (v := v) hsort hf, ← h.drift]
        omega
      · simp [← hd.toL]

end Verif.Bp
