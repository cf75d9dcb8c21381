/- The remaining operations of the map, and the simulation by sorted lists.  Proof machinery. -/
import Verif.Bp.Remove

namespace Verif.Bp

open Verif.Spec

variable {K V : Type} [LinearOrder K] {ld id : Nat} {g : Bool} {δ : Nat}

/-! ### Leaves -/

/-- The leaves from left to right, with their pages. -/
def BT.leaves : {n : Nat} → BT K V n → List (Nat × List (K × V))
  | 0, (t : BLeaf K V) => [(t.pg, t.es)]
  | n + 1, (t : BNode K (BT K V n)) => t.cs.flatMap BT.leaves

@[simp] theorem BT.leaves_leaf (p : Nat) (es : List (K × V)) : (BT.leaf p es).leaves = [(p, es)] := rfl
@[simp] theorem BT.leaves_node {n} (p : Nat) (ks : List K) (cs : List (BT K V n)) :
    (BT.node p ks cs).leaves = cs.flatMap BT.leaves := rfl

theorem BT.leaves_toL : ∀ {n : Nat} (t : BT K V n), t.leaves.flatMap Prod.snd = t.toL := by
  intro n
  induction n with
  | zero => intro t; obtain ⟨p, es, rfl⟩ := t.leaf_cases; simp
  | succ n ih =>
    intro t
    obtain ⟨p, ks, cs, rfl⟩ := t.node_cases
    rw [BT.leaves_node, BT.toL_node, List.flatMap_assoc]
    congr 1
    funext c
    exact ih c

/-- The page of the next leaf in a list of leaves. -/
def nextLeaf : List (Nat × List (K × V)) → Option Nat → Option Nat
  | [], nxt => nxt
  | (p, _) :: _, _ => some p

/-- The pages hold the leaves, linked in this order. -/
def LChain (ld : Nat) (d : Disk K V) : List (Nat × List (K × V)) → Option Nat → Prop
  | [], _ => True
  | (p, es) :: l, nxt => AtPage d p (.leaf (encLeaf ld es (nextLeaf l nxt))) ∧ LChain ld d l nxt

theorem nextLeaf_append (a b : List (Nat × List (K × V))) (nxt) :
    nextLeaf (a ++ b) nxt = nextLeaf a (nextLeaf b nxt) := by
  cases a <;> rfl

theorem lchain_append {d : Disk K V} {a b : List (Nat × List (K × V))} {nxt} :
    LChain ld d (a ++ b) nxt ↔ LChain ld d a (nextLeaf b nxt) ∧ LChain ld d b nxt := by
  induction a with
  | nil => simp [LChain]
  | cons e a ih =>
    obtain ⟨p, es⟩ := e
    simp only [List.cons_append, LChain, ih, nextLeaf_append, and_assoc]

theorem leaves_first : ∀ {n : Nat} {t : BT K V n} {lo hi}, Ok ld id t lo hi → ∀ nxt, nextLeaf t.leaves nxt = some t.first := by
  intro n
  induction n with
  | zero => intro t lo hi _ nxt; obtain ⟨p, es, rfl⟩ := t.leaf_cases; rfl
  | succ n ih =>
    intro t lo hi h nxt
    obtain ⟨p, ks, cs, rfl⟩ := t.node_cases
    obtain ⟨-, ho⟩ := ok_node.1 h
    cases cs with
    | nil => exact absurd rfl (ordL_ne ho)
    | cons c cs =>
      have hc : ∃ lo hi, OkC ld id c lo hi := by
        cases ks with
        | nil =>
          cases cs with
          | nil => exact ⟨_, _, ordL_nil.1 ho⟩
          | cons d cs => have := ordL_length ho; simp at this
        | cons k ks => exact ⟨_, _, (ordL_cons.1 ho).2.1⟩
      obtain ⟨lo, hi, hc⟩ := hc
      rw [BT.leaves_node, List.flatMap_cons, nextLeaf_append, BT.first_node]
      exact ih hc.2 _

theorem ordL_all {C : Type} {P : C → Option K → Option K → Prop} {ks} {cs : List C} {lo hi}
    (h : OrdL P ks cs lo hi) : ∀ c ∈ cs, ∃ lo hi, P c lo hi := by
  induction ks generalizing cs lo with
  | nil =>
    match cs, h with
    | [c], h => intro x hx; simp at hx; subst hx; exact ⟨_, _, h⟩
  | cons k ks ih =>
    match cs, h with
    | c :: cs, h =>
      intro x hx
      rcases List.mem_cons.1 hx with rfl | hx
      · exact ⟨_, _, h.2.1⟩
      · exact ih h.2.2 x hx

theorem lchain_of_rep {d : Disk K V} : ∀ {n : Nat} {t : BT K V n} {lo hi nxt}, Ok ld id t lo hi → RepT ld id d t nxt →
    LChain ld d t.leaves nxt := by
  intro n
  induction n with
  | zero =>
    intro t lo hi nxt hok hr
    obtain ⟨p, es, rfl⟩ := t.leaf_cases
    exact ⟨hr.1, trivial⟩
  | succ n ih =>
    intro t lo hi nxt hok hr
    obtain ⟨p, ks, cs, rfl⟩ := t.node_cases
    obtain ⟨-, ho⟩ := ok_node.1 hok
    have hall := ordL_all ho
    have hlk := below_node.1 hr.2
    clear ho hr hok
    rw [BT.leaves_node]
    induction cs with
    | nil => trivial
    | cons c cs ih2 =>
      rw [List.flatMap_cons, lchain_append]
      obtain ⟨lo, hi, hc⟩ := hall c (by simp)
      refine ⟨?_, ih2 (fun x hx => hall x (by simp [hx])) hlk.2⟩
      have h1 := ih hc.2 hlk.1
      have : nextOf cs nxt = nextLeaf (cs.flatMap BT.leaves) nxt := by
        cases cs with
        | nil => rfl
        | cons e cs =>
          obtain ⟨lo, hi, he⟩ := hall e (by simp)
          rw [List.flatMap_cons, nextLeaf_append, leaves_first he.2]
          rfl
      rw [← this]
      exact h1

/-- Leaves below the root are not empty. -/
theorem leaves_half : ∀ {n : Nat} {t : BT K V n} {lo hi}, Ok ld id t lo hi → MinOcc ld id t ∨ n ≠ 0 →
    ∀ l ∈ t.leaves, (ld + 1) / 2 ≤ l.2.length := by
  intro n
  induction n with
  | zero =>
    intro t lo hi hok h l hl
    obtain ⟨p, es, rfl⟩ := t.leaf_cases
    simp at hl
    subst hl
    rcases h with h | h
    · exact h
    · exact absurd rfl h
  | succ n ih =>
    intro t lo hi hok h l hl
    obtain ⟨p, ks, cs, rfl⟩ := t.node_cases
    obtain ⟨-, ho⟩ := ok_node.1 hok
    rw [BT.leaves_node, List.mem_flatMap] at hl
    obtain ⟨c, hc, hl⟩ := hl
    obtain ⟨lo, hi, hok⟩ := ordL_all ho c hc
    exact ih hok.2 (Or.inl hok.1) l hl

theorem leaves_le : ∀ {n : Nat} {t : BT K V n} {lo hi}, Ok ld id t lo hi → ∀ l ∈ t.leaves, l.2.length ≤ ld := by
  intro n
  induction n with
  | zero =>
    intro t lo hi hok l hl
    obtain ⟨p, es, rfl⟩ := t.leaf_cases
    simp at hl
    subst hl
    exact (ok_leaf.1 hok).2.2
  | succ n ih =>
    intro t lo hi hok l hl
    obtain ⟨p, ks, cs, rfl⟩ := t.node_cases
    obtain ⟨-, ho⟩ := ok_node.1 hok
    rw [BT.leaves_node, List.mem_flatMap] at hl
    obtain ⟨c, hc, hl⟩ := hl
    obtain ⟨lo, hi, hok⟩ := ordL_all ho c hc
    exact ih hok.2 l hl

theorem leaves_pages : ∀ {n : Nat} (t : BT K V n), (t.leaves.map Prod.fst).Sublist t.pages := by
  intro n
  induction n with
  | zero => intro t; obtain ⟨p, es, rfl⟩ := t.leaf_cases; simp
  | succ n ih =>
    intro t
    obtain ⟨p, ks, cs, rfl⟩ := t.node_cases
    rw [BT.leaves_node, BT.pages_node]
    refine List.Sublist.cons _ ?_
    induction cs with
    | nil => simp
    | cons c cs ih2 =>
      simp only [List.flatMap_cons, List.map_append]
      exact (ih c).append ih2

/-! ### get -/

theorem get_holds (hld : 1 ≤ ld) (hid : 1 ≤ id) {key : K} {p : Pager K V} {n : Nat} {t : BT K V n} (h : HoldsG g δ ld id p t) :
    get p key = some (SL.abs t.toL key) := by
  obtain ⟨lp, es, x, path, h1, h2, h3, h4, h5⟩ := search_sub hid h.rep h.ok (entIn_none key)
  have hs := h1 (p.disk.pages.length + 1) [] h.fuel
  rw [← h.root, List.append_nil] at hs
  have hsr : search p key = some (lp, .leaf (encLeaf ld es x), path) := hs
  rw [get, hsr, SL.abs, h2]
  obtain ⟨el, er, a1, a2, a3, a4, rfl | ⟨o, rfl⟩⟩ := split_entries key h3
  · simp only [search_encLeaf_none hld h4 a1 a2]
    rw [SL.find_append, SL.find_of_lt_all a1, SL.find_of_all_lt a2]
    rfl
  · simp only [search_encLeaf_some h4 a1 a2]
    have : (encLeaf ld (el ++ (key, o) :: er) x).entries[el.length]? = some (some (key, o)) := by
      simp only [encLeaf]
      rw [pad_get_lt (by simp)]
      simp
    rw [this, SL.find_mid_eq h3]
    try rfl

/-! ### min and max -/

theorem leftmost_sub {p : Pager K V} : ∀ {n : Nat} {t : BT K V n} {lo hi nxt}, RepT ld id p.disk t nxt → Ok ld id t lo hi →
    ∃ pg es l, t.leaves = (pg, es) :: l ∧ ∀ f, n < f → leftmost p f t.pg = some (encLeaf ld es (nextLeaf l nxt)) := by
  intro n
  induction n with
  | zero =>
    intro t lo hi nxt hr hok
    obtain ⟨pg, es, rfl⟩ := t.leaf_cases
    refine ⟨pg, es, [], rfl, fun f hf => ?_⟩
    obtain ⟨f, rfl⟩ : ∃ g, f = g + 1 := ⟨f - 1, by omega⟩
    have h1 : AtPage p.disk pg _ := hr.1
    rw [BT.pg_leaf, leftmost, getPage_eq h1]
    rfl
  | succ n ih =>
    intro t lo hi nxt hr hok
    obtain ⟨pg, ks, cs, rfl⟩ := t.node_cases
    have hch := lchain_of_rep hok hr
    obtain ⟨-, ho⟩ := ok_node.1 hok
    cases cs with
    | nil => exact absurd rfl (ordL_ne ho)
    | cons c cs =>
      obtain ⟨lo, hi, hc⟩ := ordL_all ho c (by simp)
      have hlk := below_node.1 hr.2
      obtain ⟨pg', es, l, h1, h2⟩ := ih hlk.1 hc.2
      have e : (BT.node pg ks (c :: cs)).leaves = (pg', es) :: (l ++ cs.flatMap BT.leaves) := by simp [h1]
      refine ⟨pg', es, l ++ cs.flatMap BT.leaves, e, fun f hf => ?_⟩
      obtain ⟨f, rfl⟩ : ∃ g, f = g + 1 := ⟨f - 1, by omega⟩
      have hat : AtPage p.disk pg _ := hr.1
      have hptr : (encInt id ks ((c :: cs).map BT.pg)).ptrs[0]? = some c.pg := by simp [encInt, pad]
      rw [BT.pg_node, leftmost, getPage_eq hat]
      simp only [BT.rootNode_node, hptr]
      rw [h2 f (by omega)]
      have h3 := (lchain_of_rep hc.2 hlk.1)
      rw [h1] at h3
      rw [e] at hch
      have h4 := h3.1
      have h5 := hch.1
      rw [AtPage] at h4 h5
      rw [h4] at h5
      simpa using h5

theorem rightmost_sub {p : Pager K V} : ∀ {n : Nat} {t : BT K V n} {lo hi nxt}, RepT ld id p.disk t nxt → Ok ld id t lo hi →
    ∃ pg es l, t.leaves = l ++ [(pg, es)] ∧ ∀ f, n < f → rightmost p f t.pg = some (encLeaf ld es nxt) := by
  intro n
  induction n with
  | zero =>
    intro t lo hi nxt hr hok
    obtain ⟨pg, es, rfl⟩ := t.leaf_cases
    refine ⟨pg, es, [], rfl, fun f hf => ?_⟩
    obtain ⟨f, rfl⟩ : ∃ g, f = g + 1 := ⟨f - 1, by omega⟩
    have h1 : AtPage p.disk pg _ := hr.1
    rw [BT.pg_leaf, rightmost, getPage_eq h1]
    rfl
  | succ n ih =>
    intro t lo hi nxt hr hok
    obtain ⟨pg, ks, cs, rfl⟩ := t.node_cases
    obtain ⟨-, ho⟩ := ok_node.1 hok
    rcases snoc_cases cs with rfl | ⟨cs, c, rfl⟩
    · exact absurd rfl (ordL_ne ho)
    · obtain ⟨lo, hi, hc⟩ := ordL_all ho c (by simp)
      have hlk := linked_append.1 (below_node.1 hr.2)
      obtain ⟨pg', es, l, h1, h2⟩ := ih hlk.2.1 hc.2
      refine ⟨pg', es, cs.flatMap BT.leaves ++ l, by simp [h1], fun f hf => ?_⟩
      obtain ⟨f, rfl⟩ : ∃ g, f = g + 1 := ⟨f - 1, by omega⟩
      have hat : AtPage p.disk pg _ := hr.1
      have hlen := ordL_length ho
      have hptr : (encInt id ks ((cs ++ [c]).map BT.pg)).ptrs[ks.length]? = some c.pg := by
        have := ptrs_encInt (id := id) (ks := ks) (pl := cs.map BT.pg) (q := c.pg) (pr := [])
        rw [List.map_append]
        simp at hlen
        rw [List.length_map, hlen] at this
        exact this
      rw [BT.pg_node, rightmost, getPage_eq hat]
      simp only [BT.rootNode_node, len_encInt, hptr]
      exact h2 f (by omega)

theorem min_holds (hld : 1 ≤ ld) {p : Pager K V} {n : Nat} {t : BT K V n} (h : HoldsG g δ ld id p t) :
    min p = some (t.toL.head?.map Prod.fst) := by
  obtain ⟨pg, es, l, h1, h2⟩ := leftmost_sub h.rep h.ok
  rw [min, h.root, h2 _ h.fuel]
  have htoL := BT.leaves_toL t
  rw [h1, List.flatMap_cons] at htoL
  rw [← htoL]
  cases es with
  | cons e es => simp [encLeaf, pad]
  | nil =>
    have h0 : n = 0 := by
      by_contra hn
      have := leaves_half h.ok (Or.inr hn) (pg, []) (by simp [h1])
      simp at this; omega
    subst h0
    obtain ⟨pg', es', rfl⟩ := t.leaf_cases
    simp at h1
    obtain ⟨⟨_, rfl⟩, rfl⟩ := h1
    obtain ⟨j, rfl⟩ : ∃ j, ld = j + 1 := ⟨ld - 1, by omega⟩
    simp [encLeaf, pad, List.replicate_succ]

theorem max_holds (hld : 1 ≤ ld) {p : Pager K V} {n : Nat} {t : BT K V n} (h : HoldsG g δ ld id p t) :
    max p = some (t.toL.getLast?.map Prod.fst) := by
  obtain ⟨pg, es, l, h1, h2⟩ := rightmost_sub h.rep h.ok
  rw [max, h.root, h2 _ h.fuel]
  have htoL := BT.leaves_toL t
  rw [h1, List.flatMap_append] at htoL
  simp only [List.flatMap_cons, List.flatMap_nil, List.append_nil] at htoL
  rw [← htoL]
  rcases snoc_cases es with rfl | ⟨es, e, rfl⟩
  · have h0 : n = 0 := by
      by_contra hn
      have := leaves_half h.ok (Or.inr hn) (pg, []) (by simp [h1])
      simp at this; omega
    subst h0
    obtain ⟨pg', es', rfl⟩ := t.leaf_cases
    have : l = [] := by
      have := congrArg List.length h1
      simp at this
      exact this
    subst this
    simp [len_encLeaf]
  · have hg : (encLeaf ld (es ++ [e]) none).entries[es.length]? = some (some e) := by
      simp only [encLeaf]
      rw [pad_get_lt (by simp)]
      simp
    simp [len_encLeaf, hg]

/-! ### Iteration -/

theorem drain_chain {p : Pager K V} : ∀ (l : List (Nat × List (K × V))) (pre es : List (K × V)) (ents : List (Option (K × V))) (f : Nat),
    LChain ld p.disk l none → (∀ x ∈ l, x.2 ≠ []) → (∀ x ∈ l, x.2.length ≤ ld) →
    ents.drop pre.length = pad (ld - pre.length) none (es.map some) → ents.length = ld → pre.length + es.length ≤ ld →
    es.length + (l.flatMap Prod.snd).length < f →
    Iter.drain p f ⟨⟨pre.length + es.length, ents, nextLeaf l none⟩, pre.length⟩ = some (es ++ l.flatMap Prod.snd) := by
  intro l
  induction l with
  | nil =>
    intro pre es
    induction es generalizing pre with
    | nil =>
      intro ents f _ _ _ hd hl hle hf
      obtain ⟨f, rfl⟩ : ∃ g, f = g + 1 := ⟨f - 1, by omega⟩
      simp [Iter.drain, Iter.next, nextLeaf]
    | cons e es ih =>
      intro ents f hch hne hle' hd hl hle hf
      obtain ⟨f, rfl⟩ : ∃ g, f = g + 1 := ⟨f - 1, by omega⟩
      have hg : ents[pre.length]? = some (some e) := by
        have := congrArg (fun x => x[0]?) hd
        simp [pad] at this
        exact this
      rw [Iter.drain, Iter.next]
      simp only [List.length_cons]
      rw [if_neg (by omega), Iter.take]
      simp only [hg]
      have := ih (pre ++ [e]) (ents.set pre.length none) f hch hne hle' ?_ (by simpa using hl) (by simp at hle ⊢; omega)
        (by simp at hf ⊢; omega)
      · simp only [List.length_append, List.length_cons, List.length_nil, Nat.zero_add] at this
        have e2 : pre.length + 1 + es.length = pre.length + (es.length + 1) := by omega
        rw [e2] at this
        rw [this]
        simp
      · have := congrArg (List.drop 1) hd
        rw [List.drop_drop] at this
        simp [pad] at this hle
        simp only [List.length_append, List.length_cons, List.length_nil, Nat.zero_add]
        rw [List.drop_set_of_lt (by omega), this]
        simp [pad]
        omega
  | cons x l ihl =>
    obtain ⟨q, xs⟩ := x
    intro pre es
    induction es generalizing pre with
    | nil =>
      intro ents f hch hne hle' hd hl hle hf
      obtain ⟨f, rfl⟩ : ∃ g, f = g + 1 := ⟨f - 1, by omega⟩
      have hxs := hne (q, xs) (by simp)
      have hxl := hle' (q, xs) (by simp)
      cases xs with
      | nil => exact absurd rfl hxs
      | cons y ys =>
        rw [Iter.drain, Iter.next]
        simp only [List.length_nil, Nat.add_zero, Nat.le_refl, if_true]
        have hnl : nextLeaf ((q, y :: ys) :: l) none = some q := rfl
        simp only [hnl, getPage_eq hch.1, Iter.take]
        have hg : (encLeaf ld (y :: ys) (nextLeaf l none)).entries[0]? = some (some y) := by simp [encLeaf, pad]
        simp only [hg]
        have hxl : ys.length + 1 ≤ ld := hxl
        have := ihl [y] ys (((encLeaf ld (y :: ys) (nextLeaf l none)).entries).set 0 none) f hch.2 (fun x hx => hne x (by simp [hx]))
          (fun x hx => hle' x (by simp [hx])) (by simp [encLeaf, pad]; omega) (by simp [encLeaf, pad]; omega)
          (by simp; omega) (by simp at hf ⊢; omega)
        simp only [List.length_cons, List.length_nil, Nat.zero_add] at this
        have e2 : (encLeaf ld (y :: ys) (nextLeaf l none)).len = 1 + ys.length := by simp [len_encLeaf]; omega
        have e3 : (encLeaf ld (y :: ys) (nextLeaf l none)).next = nextLeaf l none := rfl
        rw [e2, e3, Nat.zero_add, this]
        simp
    | cons e es ih =>
      intro ents f hch hne hle' hd hl hle hf
      obtain ⟨f, rfl⟩ : ∃ g, f = g + 1 := ⟨f - 1, by omega⟩
      have hg : ents[pre.length]? = some (some e) := by
        have := congrArg (fun x => x[0]?) hd
        simp [pad] at this
        exact this
      rw [Iter.drain, Iter.next]
      simp only [List.length_cons]
      rw [if_neg (by omega), Iter.take]
      simp only [hg]
      have := ih (pre ++ [e]) (ents.set pre.length none) f hch hne hle' ?_ (by simpa using hl) (by simp at hle ⊢; omega)
        (by simp at hf ⊢; omega)
      · simp only [List.length_append, List.length_cons, List.length_nil, Nat.zero_add] at this
        have e2 : pre.length + 1 + es.length = pre.length + (es.length + 1) := by omega
        rw [e2] at this
        rw [this]
        simp
      · have := congrArg (List.drop 1) hd
        rw [List.drop_drop] at this
        simp [pad] at this hle
        simp only [List.length_append, List.length_cons, List.length_nil, Nat.zero_add]
        rw [List.drop_set_of_lt (by omega), this]
        simp [pad]
        omega

theorem flatMap_length_le {l : List (Nat × List (K × V))} {b : Nat} (h : ∀ x ∈ l, x.2.length ≤ b) :
    (l.flatMap Prod.snd).length ≤ l.length * b := by
  induction l with
  | nil => simp
  | cons x l ih =>
    have h1 := h x (by simp)
    have h2 := ih fun y hy => h y (by simp [hy])
    simp only [List.flatMap_cons, List.length_append, List.length_cons]
    rw [Nat.succ_mul]
    omega

theorem toList_holds (hld : 1 ≤ ld) {p : Pager K V} {n : Nat} {t : BT K V n} (h : HoldsG g δ ld id p t) :
    toList p = some t.toL := by
  obtain ⟨pg, es, l, h1, h2⟩ := leftmost_sub h.rep h.ok
  have htoL := BT.leaves_toL t
  have hle := leaves_le h.ok
  have hch := lchain_of_rep h.ok h.rep
  have hcount : (t.leaves.flatMap Prod.snd).length ≤ p.disk.pages.length * ld := by
    refine le_trans (flatMap_length_le hle) (Nat.mul_le_mul_right _ ?_)
    have := (leaves_pages t).length_le
    have := h.wf.length_le
    simp at *
    omega
  rw [toList, iterNew, h.root, h2 _ h.fuel, h.wf.ldeg]
  simp only [Option.map_some]
  have hne : ∀ x ∈ l, x.2 ≠ [] := by
    intro x hx
    have hn : n ≠ 0 := by
      rintro rfl
      obtain ⟨pg', es', rfl⟩ := t.leaf_cases
      simp at h1
      rw [h1.2] at hx
      simp at hx
    have := leaves_half h.ok (Or.inr hn) x (by simp [h1, hx])
    intro h0
    rw [h0] at this
    simp at this; omega
  rw [h1] at hch hcount htoL hle
  have hes : es.length ≤ ld := hle (pg, es) (by simp)
  have := drain_chain l [] es (encLeaf ld es (nextLeaf l none)).entries (p.disk.pages.length * ld + 1) hch.2 hne
    (fun x hx => hle x (by simp [hx])) rfl (by simp [encLeaf, pad]; omega) (by simpa using hes)
    (by simp only [List.flatMap_cons, List.length_append] at hcount; omega)
  simp only [List.length_nil, Nat.zero_add] at this
  rw [← htoL, List.flatMap_cons]
  exact this

/-! ### new, clear, reopening -/

theorem holds_new (ld id : Nat) : Holds ld id (new ld id : Pager K V) (BT.leaf 0 []) := by
  refine ⟨Wf.mk rfl rfl rfl rfl ⟨[], rfl, by simp [new, Pager.new]⟩, rfl, ⟨?_, trivial⟩, ok_leaf.2 ⟨List.Pairwise.nil, by simp, by simp⟩, trivial, rfl⟩
  simp [AtPage, new, Pager.new, LNode.new, encLeaf, pad]

theorem clear_holds {p : Pager K V} {n : Nat} {t : BT K V n} (h : HoldsG g δ ld id p t) :
    ∃ p', p.clear = some p' ∧ Holds ld id p' (BT.leaf 0 [] : BT K V 0) := by
  have hlen : 0 < p.disk.pages.length := by
    have := h.wf.lt (t.pg_mem)
    omega
  have e1 : (p.disk.pages.take 1 ++ List.replicate (1 - p.disk.pages.length) none).length = 1 := by
    simp; omega
  refine ⟨_, by rw [Pager.clear, Pager.writeNode, if_pos]; simp only [Pager.writeHdr, Pager.setFileLen, Pager.put, e1]; decide, ?_⟩
  refine ⟨Wf.mk rfl ?_ h.wf.ldeg h.wf.ideg ⟨[], rfl, by simp [Pager.put, Pager.writeHdr, Pager.setFileLen]⟩, rfl, ⟨?_, trivial⟩,
    ok_leaf.2 ⟨List.Pairwise.nil, by simp, by simp⟩, trivial, rfl⟩
  · simp only [Pager.put, Pager.writeHdr, Pager.setFileLen, List.length_set, e1]
  · simp only [Pager.put, Pager.writeHdr, Pager.setFileLen, AtPage, BT.pg_leaf, BT.rootNode_leaf]
    rw [List.getElem?_set_self (by rw [e1]; decide)]
    simp [LNode.new, encLeaf, pad, h.wf.ldeg]

theorem reopen_eq {p : Pager K V} {live} (h : Wf ld id p live) :
    (Pager.openFile p.disk).md = p.md ∧ (Pager.openFile p.disk).disk = p.disk := ⟨h.hdr, rfl⟩

theorem holds_reopen {p : Pager K V} {n : Nat} {t : BT K V n} (h : Holds ld id p t) : Holds ld id (Pager.openFile p.disk) t := by
  have e : (Pager.openFile p.disk).md = p.md := h.wf.hdr
  obtain ⟨fl, h1, h2⟩ := h.wf.free
  refine ⟨Wf.mk rfl ?_ (by rw [e]; exact h.wf.ldeg) (by rw [e]; exact h.wf.ideg) ⟨fl, ?_, ?_⟩, by rw [e]; exact h.root, h.rep, h.ok, h.rootOk, by rw [e]; exact h.len⟩
  · rw [e]; exact h.wf.pages
  · rw [e]; exact h1
  · rw [e]; exact h2

end Verif.Bp
