/- Ghost trees: what the pages of a B+ tree file represent, and the invariants.  Proof machinery. -/
import Mathlib.Data.List.Nodup
import Mathlib.Data.List.Perm.Subperm
import Mathlib.Tactic.Tauto
import Verif.Bp.Model
import Verif.Bp.NodeLemmas

namespace Verif.Bp

variable {K V : Type}

/-- A leaf with its page number. -/
structure BLeaf (K V : Type) where
  pg : Nat
  es : List (K × V)

/-- An internal node with its page number. -/
structure BNode (K C : Type) where
  pg : Nat
  ks : List K
  cs : List C

/-- A tree whose leaves are all at depth `n`; every node carries its page number. -/
def BT (K V : Type) : Nat → Type
  | 0 => BLeaf K V
  | n + 1 => BNode K (BT K V n)

namespace BT

def leaf (pg : Nat) (es : List (K × V)) : BT K V 0 := BLeaf.mk pg es

def node {n : Nat} (pg : Nat) (ks : List K) (cs : List (BT K V n)) : BT K V (n + 1) := BNode.mk pg ks cs

theorem leaf_cases (t : BT K V 0) : ∃ pg es, t = leaf pg es := ⟨BLeaf.pg t, BLeaf.es t, rfl⟩

theorem node_cases {n : Nat} (t : BT K V (n + 1)) : ∃ pg ks cs, t = node pg ks cs :=
  ⟨BNode.pg t, BNode.ks t, BNode.cs t, rfl⟩

def pg : {n : Nat} → BT K V n → Nat
  | 0, (t : BLeaf K V) => t.pg
  | n + 1, (t : BNode K (BT K V n)) => t.pg

/-- The entries from left to right. -/
def toL : {n : Nat} → BT K V n → List (K × V)
  | 0, (t : BLeaf K V) => t.es
  | n + 1, (t : BNode K (BT K V n)) => t.cs.flatMap toL

/-- All page numbers. -/
def pages : {n : Nat} → BT K V n → List Nat
  | 0, (t : BLeaf K V) => [t.pg]
  | n + 1, (t : BNode K (BT K V n)) => t.pg :: t.cs.flatMap pages

/-- The page of the leftmost leaf. -/
def first : {n : Nat} → BT K V n → Nat
  | 0, (t : BLeaf K V) => t.pg
  | n + 1, (t : BNode K (BT K V n)) => (t.cs.head?.map first).getD 0

/-- The node stored in the page of the root of the tree. -/
def rootNode (ld id : Nat) (nxt : Option Nat) : {n : Nat} → BT K V n → Node K V
  | 0, (t : BLeaf K V) => .leaf (encLeaf ld t.es nxt)
  | n + 1, (t : BNode K (BT K V n)) => .internal (encInt id t.ks (t.cs.map pg))

@[simp] theorem pg_leaf (p : Nat) (es : List (K × V)) : (BT.leaf p es).pg = p := rfl
@[simp] theorem pg_node {n} (p : Nat) (ks : List K) (cs : List (BT K V n)) : (BT.node p ks cs).pg = p := rfl
@[simp] theorem toL_leaf (p : Nat) (es : List (K × V)) : (BT.leaf p es).toL = es := rfl
@[simp] theorem toL_node {n} (p : Nat) (ks : List K) (cs : List (BT K V n)) :
    (BT.node p ks cs).toL = cs.flatMap toL := rfl
@[simp] theorem pages_leaf (p : Nat) (es : List (K × V)) : (BT.leaf p es).pages = [p] := rfl
@[simp] theorem pages_node {n} (p : Nat) (ks : List K) (cs : List (BT K V n)) :
    (BT.node p ks cs).pages = p :: cs.flatMap pages := rfl
@[simp] theorem first_leaf (p : Nat) (es : List (K × V)) : (BT.leaf p es).first = p := rfl
@[simp] theorem first_node {n} (p : Nat) (ks : List K) (c : BT K V n) (cs : List (BT K V n)) :
    (BT.node p ks (c :: cs)).first = c.first := rfl
@[simp] theorem rootNode_leaf (ld id nxt) (p : Nat) (es : List (K × V)) :
    (BT.leaf p es).rootNode ld id nxt = .leaf (encLeaf ld es nxt) := rfl
@[simp] theorem rootNode_node {n} (ld id nxt) (p : Nat) (ks : List K) (cs : List (BT K V n)) :
    (BT.node p ks cs).rootNode ld id nxt = .internal (encInt id ks (cs.map pg)) := rfl

theorem pg_mem {n : Nat} (t : BT K V n) : t.pg ∈ t.pages := by
  cases n with
  | zero => obtain ⟨p, es, rfl⟩ := t.leaf_cases; simp
  | succ n => obtain ⟨p, ks, cs, rfl⟩ := t.node_cases; simp

end BT

/-! ### Pages -/

def AtPage (d : Disk K V) (i : Nat) (n : Node K V) : Prop := d.pages[i]? = some (some n)

theorem getPage_eq {p : Pager K V} {i : Nat} {n} (h : AtPage p.disk i n) : p.getPage i = some n := by
  rw [AtPage] at h
  simp [Pager.getPage, h]

/-- The page of the first leaf of the next tree in a list. -/
def nextOf {n : Nat} : List (BT K V n) → Option Nat → Option Nat
  | [], nxt => nxt
  | c :: _, _ => some c.first

@[simp] theorem nextOf_nil {n : Nat} (nxt) : nextOf ([] : List (BT K V n)) nxt = nxt := rfl
@[simp] theorem nextOf_cons {n : Nat} (c : BT K V n) (cs nxt) : nextOf (c :: cs) nxt = some c.first := rfl

def Linked {n : Nat} (P : BT K V n → Option Nat → Prop) : List (BT K V n) → Option Nat → Prop
  | [], _ => True
  | c :: cs, nxt => P c (nextOf cs nxt) ∧ Linked P cs nxt

theorem linked_append {n : Nat} {P : BT K V n → Option Nat → Prop} {a b : List (BT K V n)} {nxt} :
    Linked P (a ++ b) nxt ↔ Linked P a (nextOf b nxt) ∧ Linked P b nxt := by
  induction a with
  | nil => simp [Linked]
  | cons c a ih =>
    have : nextOf (a ++ b) nxt = nextOf a (nextOf b nxt) := by cases a <;> rfl
    simp only [List.cons_append, Linked, ih, this, and_assoc]

theorem linked_mono {n : Nat} {P Q : BT K V n → Option Nat → Prop} {a : List (BT K V n)} {nxt}
    (h : ∀ c ∈ a, ∀ x, P c x → Q c x) (hl : Linked P a nxt) : Linked Q a nxt := by
  induction a with
  | nil => trivial
  | cons c a ih => exact ⟨h c (by simp) _ hl.1, ih (fun c hc => h c (by simp [hc])) hl.2⟩

/-- The pages below the root hold the tree; `nxt` is the leaf after its last leaf. -/
def Below (ld id : Nat) (d : Disk K V) : {n : Nat} → BT K V n → Option Nat → Prop
  | 0, _, _ => True
  | n + 1, (t : BNode K (BT K V n)), nxt =>
    Linked (fun c x => AtPage d c.pg (c.rootNode ld id x) ∧ Below ld id d c x) t.cs nxt

/-- The pages hold the tree. -/
def RepT (ld id : Nat) (d : Disk K V) {n : Nat} (t : BT K V n) (nxt : Option Nat) : Prop :=
  AtPage d t.pg (t.rootNode ld id nxt) ∧ Below ld id d t nxt

theorem below_leaf {ld id : Nat} {d : Disk K V} {p es nxt} : Below ld id d (BT.leaf p es) nxt := by
  trivial

theorem below_node {ld id n : Nat} {d : Disk K V} {p ks} {cs : List (BT K V n)} {nxt} :
    Below ld id d (BT.node p ks cs) nxt ↔ Linked (RepT ld id d) cs nxt := by
  exact Iff.rfl

theorem repT_frame {ld id : Nat} {d d' : Disk K V} : ∀ {n : Nat} {t : BT K V n} {nxt},
    (∀ i ∈ t.pages, d'.pages[i]? = d.pages[i]?) → RepT ld id d t nxt → RepT ld id d' t nxt := by
  intro n
  induction n with
  | zero =>
    intro t nxt h hr
    obtain ⟨p, es, rfl⟩ := t.leaf_cases; exact ⟨by rw [AtPage, h _ (BT.pg_mem _)]; exact hr.1, below_leaf⟩
  | succ n ih =>
    intro t nxt h hr
    obtain ⟨p, ks, cs, rfl⟩ := t.node_cases
    · refine ⟨by rw [AtPage, h _ (BT.pg_mem _)]; exact hr.1, ?_⟩
      have := below_node.1 hr.2
      refine below_node.2 (linked_mono (fun c hc x hx => ih (fun i hi => h i ?_) hx) this)
      simp only [BT.pages_node, List.mem_cons, List.mem_flatMap]
      exact Or.inr ⟨c, hc, hi⟩

theorem linked_frame {ld id n : Nat} {d d' : Disk K V} {cs : List (BT K V n)} {nxt}
    (h : ∀ i ∈ cs.flatMap BT.pages, d'.pages[i]? = d.pages[i]?) (hr : Linked (RepT ld id d) cs nxt) :
    Linked (RepT ld id d') cs nxt :=
  linked_mono (fun c hc _ hx => repT_frame (fun i hi => h i (List.mem_flatMap.2 ⟨c, hc, hi⟩)) hx) hr

theorem below_frame {ld id n : Nat} {d d' : Disk K V} {t : BT K V (n + 1)} {nxt}
    (h : ∀ i ∈ t.pages, i ≠ t.pg → d'.pages[i]? = d.pages[i]?) (hnd : t.pages.Nodup)
    (hr : Below ld id d t nxt) : Below ld id d' t nxt := by
  obtain ⟨p, ks, cs, rfl⟩ := t.node_cases
  · refine below_node.2 (linked_frame (fun i hi => h i (by simp only [BT.pages_node, List.mem_cons]; exact Or.inr hi) ?_)
      (below_node.1 hr))
    rw [BT.pages_node, List.nodup_cons] at hnd
    intro e
    subst e
    exact hnd.1 hi

/-! ### Order -/

section order
variable [LinearOrder K]

def EntIn (lo hi : Option K) (k : K) : Prop := (∀ a ∈ lo, a ≤ k) ∧ ∀ b ∈ hi, k < b

def SepIn (lo hi : Option K) (k : K) : Prop := (∀ a ∈ lo, a < k) ∧ ∀ b ∈ hi, k < b

def lowB : List K → Option K → Option K
  | [], lo => lo
  | k :: ks, _ => lowB ks (some k)

def hiB : List K → Option K → Option K
  | [], hi => hi
  | k :: _, _ => some k

@[simp] theorem hiB_cons (k : K) (ks hi) : hiB (k :: ks) hi = some k := rfl
@[simp] theorem hiB_nil (hi : Option K) : hiB [] hi = hi := rfl

theorem lowB_snoc (ks : List K) (k : K) (lo) : lowB (ks ++ [k]) lo = some k := by
  induction ks generalizing lo with
  | nil => rfl
  | cons a ks ih => exact ih _

/-- Separators and children alternate, every child within its separators. -/
def OrdL {C : Type} (P : C → Option K → Option K → Prop) : List K → List C → Option K → Option K → Prop
  | [], [c], lo, hi => P c lo hi
  | k :: ks, c :: cs, lo, hi => SepIn lo hi k ∧ P c lo (some k) ∧ OrdL P ks cs (some k) hi
  | _, _, _, _ => False

theorem ordL_nil {C : Type} {P : C → Option K → Option K → Prop} {c : C} {lo hi} :
    OrdL P [] [c] lo hi ↔ P c lo hi := Iff.rfl

theorem ordL_cons {C : Type} {P : C → Option K → Option K → Prop} {k ks} {c : C} {cs lo hi} :
    OrdL P (k :: ks) (c :: cs) lo hi ↔ SepIn lo hi k ∧ P c lo (some k) ∧ OrdL P ks cs (some k) hi := Iff.rfl

theorem ordL_length {C : Type} {P : C → Option K → Option K → Prop} {ks} {cs : List C} {lo hi}
    (h : OrdL P ks cs lo hi) : cs.length = ks.length + 1 := by
  induction ks generalizing cs lo with
  | nil =>
    match cs, h with
    | [c], _ => rfl
  | cons k ks ih =>
    match cs, h with
    | c :: cs, h => simp [ih h.2.2]

theorem SepIn.trans_left {lo : Option K} {s : K} {hi : Option K} {k : K} (h : SepIn lo hi s) (h' : SepIn (some s) hi k) :
    SepIn lo hi k := ⟨fun a ha => lt_trans (h.1 a ha) (h'.1 s rfl), h'.2⟩

/-- Joining two nodes with a separator. -/
theorem ordL_join {C : Type} {P : C → Option K → Option K → Prop} {ks kr k} {cs cr : List C} {lo hi}
    (hlen : cs.length = ks.length + 1) :
    OrdL P (ks ++ k :: kr) (cs ++ cr) lo hi ↔
      OrdL P ks cs lo (some k) ∧ SepIn lo hi k ∧ OrdL P kr cr (some k) hi := by
  induction ks generalizing cs lo with
  | nil =>
    match cs, hlen with
    | [c], _ =>
      simp only [List.nil_append, List.cons_append, ordL_cons, ordL_nil]
      tauto
  | cons s ks ih =>
    match cs, hlen with
    | c :: cs, hlen =>
      simp only [List.cons_append, ordL_cons]
      rw [ih (by simpa using hlen)]
      constructor
      · rintro ⟨h1, h2, h3, h4, h5⟩
        exact ⟨⟨⟨h1.1, fun b hb => by cases hb; exact h4.1 s rfl⟩, h2, h3⟩, h1.trans_left h4, h5⟩
      · rintro ⟨⟨h1, h2, h3⟩, h4, h5⟩
        have hs := h1.2 k rfl
        exact ⟨⟨h1.1, fun b hb => lt_trans hs (h4.2 b hb)⟩, h2, h3, ⟨fun a ha => by cases ha; exact hs, h4.2⟩, h5⟩

/-- A part of a node can be taken out and replaced by another one with the same bounds. -/
theorem ordL_ctx {C : Type} {P : C → Option K → Option K → Prop} {kl ks kr} {cl cs cr : List C} {lo hi}
    (hl : cl.length = kl.length) (hm : cs.length = ks.length + 1)
    (h : OrdL P (kl ++ ks ++ kr) (cl ++ cs ++ cr) lo hi) :
    OrdL P ks cs (lowB kl lo) (hiB kr hi) ∧
    ∀ ks2 cs2, OrdL P ks2 cs2 (lowB kl lo) (hiB kr hi) →
      OrdL P (kl ++ ks2 ++ kr) (cl ++ cs2 ++ cr) lo hi := by
  induction kl generalizing cl lo with
  | nil =>
    cases cl with
    | cons => simp at hl
    | nil =>
      simp only [List.nil_append, lowB] at h ⊢
      cases kr with
      | nil =>
        have hl := ordL_length h
        have : cr = [] := by
          apply List.eq_nil_of_length_eq_zero
          simp at hl; omega
        subst this
        simpa using h
      | cons k kr =>
        obtain ⟨h1, h2, h3⟩ := (ordL_join hm).1 h
        exact ⟨h1, fun ks2 cs2 h2' => (ordL_join (ordL_length h2')).2 ⟨h2', h2, h3⟩⟩
  | cons k kl ih =>
    cases cl with
    | nil => simp at hl
    | cons c cl =>
      simp only [List.cons_append, ordL_cons] at h ⊢
      obtain ⟨h1, h2⟩ := ih (by simpa using hl) h.2.2
      exact ⟨h1, fun ks2 cs2 h3 => ⟨h.1, h.2.1, h2 _ _ h3⟩⟩

theorem EntIn.weaken {lo hi lo' hi' : Option K} {k : K} (h : EntIn lo hi k)
    (h1 : ∀ a ∈ lo', ∃ b ∈ lo, a ≤ b) (h2 : ∀ a ∈ hi', ∃ b ∈ hi, b ≤ a) : EntIn lo' hi' k := by
  refine ⟨fun a ha => ?_, fun a ha => ?_⟩
  · obtain ⟨b, hb, hab⟩ := h1 a ha
    exact le_trans hab (h.1 b hb)
  · obtain ⟨b, hb, hab⟩ := h2 a ha
    exact lt_of_lt_of_le (h.2 b hb) hab

theorem ordL_mem {C : Type} {P : C → Option K → Option K → Prop} {f : C → List (K × V)}
    (hP : ∀ c lo hi, P c lo hi → ∀ e ∈ f c, EntIn lo hi e.1) {ks} {cs : List C} {lo hi}
    (h : OrdL P ks cs lo hi) : ∀ e ∈ cs.flatMap f, EntIn lo hi e.1 := by
  induction ks generalizing cs lo with
  | nil =>
    match cs, h with
    | [c], h => simpa using hP c lo hi h
  | cons k ks ih =>
    match cs, h with
    | c :: cs, h =>
      intro e he
      simp only [List.flatMap_cons, List.mem_append] at he
      rcases he with he | he
      · exact (hP _ _ _ h.2.1 e he).weaken (fun a ha => ⟨a, ha, le_refl _⟩) fun a ha => ⟨k, rfl, le_of_lt (h.1.2 a ha)⟩
      · exact (ih h.2.2 e he).weaken (fun a ha => ⟨k, rfl, le_of_lt (h.1.1 a ha)⟩) fun a ha => ⟨a, ha, le_refl _⟩

theorem ordL_sorted {C : Type} {P : C → Option K → Option K → Prop} {f : C → List (K × V)}
    (hP : ∀ c lo hi, P c lo hi → ∀ e ∈ f c, EntIn lo hi e.1) (hS : ∀ c lo hi, P c lo hi → SL.Sorted (f c))
    {ks} {cs : List C} {lo hi} (h : OrdL P ks cs lo hi) : SL.Sorted (cs.flatMap f) := by
  induction ks generalizing cs lo with
  | nil =>
    match cs, h with
    | [c], h => simpa using hS c lo hi h
  | cons k ks ih =>
    match cs, h with
    | c :: cs, h =>
      rw [List.flatMap_cons, SL.sorted_append]
      refine ⟨hS _ _ _ h.2.1, ih h.2.2, fun a ha b hb => ?_⟩
      exact lt_of_lt_of_le ((hP _ _ _ h.2.1 a ha).2 k rfl) ((ordL_mem hP h.2.2 b hb).1 k rfl)

theorem ordL_keys {C : Type} {P : C → Option K → Option K → Prop} {ks} {cs : List C} {lo hi}
    (h : OrdL P ks cs lo hi) : ks.Pairwise (· < ·) ∧ ∀ k ∈ ks, SepIn lo hi k := by
  induction ks generalizing cs lo with
  | nil => simp
  | cons k ks ih =>
    match cs, h with
    | c :: cs, h =>
      obtain ⟨h1, h2⟩ := ih h.2.2
      refine ⟨List.pairwise_cons.2 ⟨fun a ha => (h2 a ha).1 k rfl, h1⟩, fun a ha => ?_⟩
      rcases List.mem_cons.1 ha with rfl | ha
      · exact h.1
      · exact h.1.trans_left (h2 a ha)

theorem ordL_left {C : Type} {P : C → Option K → Option K → Prop} {f : C → List (K × V)}
    (hP : ∀ c lo hi, P c lo hi → ∀ e ∈ f c, EntIn lo hi e.1) {kl kr} {cl cr : List C} {lo hi}
    (hl : cl.length = kl.length) (h : OrdL P (kl ++ kr) (cl ++ cr) lo hi) :
    ∀ e ∈ cl.flatMap f, ∃ b ∈ lowB kl lo, e.1 < b := by
  induction kl generalizing cl lo with
  | nil =>
    have : cl = [] := List.eq_nil_of_length_eq_zero (by simpa using hl)
    subst this; simp
  | cons k kl ih =>
    cases cl with
    | nil => simp at hl
    | cons c cl =>
      simp only [List.cons_append, ordL_cons] at h
      intro e he
      simp only [List.flatMap_cons, List.mem_append] at he
      rcases he with he | he
      · have h1 := (hP _ _ _ h.2.1 e he).2 k rfl
        have : ∀ (kl : List K) (k : K), (k :: kl).Pairwise (· < ·) → ∃ b ∈ lowB kl (some k), k ≤ b := by
          intro kl
          induction kl with
          | nil => intro k _; exact ⟨k, rfl, le_refl _⟩
          | cons a kl ih =>
            intro k hk
            rw [List.pairwise_cons] at hk
            obtain ⟨b, hb, hab⟩ := ih a hk.2
            exact ⟨b, hb, le_trans (le_of_lt (hk.1 a (by simp))) hab⟩
        have hpk := (ordL_keys (P := P) (ks := k :: (kl ++ kr)) (cs := c :: (cl ++ cr)) h).1
        rw [← List.cons_append, List.pairwise_append] at hpk
        obtain ⟨b, hb, hkb⟩ := this kl k hpk.1
        exact ⟨b, hb, lt_of_lt_of_le h1 hkb⟩
      · exact ih (by simpa using hl) h.2.2 e he

theorem ordL_right {C : Type} {P : C → Option K → Option K → Prop} {f : C → List (K × V)}
    (hP : ∀ c lo hi, P c lo hi → ∀ e ∈ f c, EntIn lo hi e.1) {kl kr} {cl cr : List C} {lo hi}
    (hl : cl.length = kl.length + 1) (h : OrdL P (kl ++ kr) (cl ++ cr) lo hi) :
    ∀ e ∈ cr.flatMap f, ∃ b ∈ hiB kr hi, b ≤ e.1 := by
  cases kr with
  | nil =>
    have := ordL_length h
    have : cr = [] := List.eq_nil_of_length_eq_zero (by simp at this; omega)
    subst this; simp
  | cons k kr =>
    obtain ⟨_, _, h3⟩ := (ordL_join hl).1 h
    intro e he
    exact ⟨k, rfl, (ordL_mem hP h3 e he).1 k rfl⟩

/-- At least half full. -/
def MinOcc (ld id : Nat) : {n : Nat} → BT K V n → Prop
  | 0, (t : BLeaf K V) => (ld + 1) / 2 ≤ t.es.length
  | n + 1, (t : BNode K (BT K V n)) => (id + 1) / 2 ≤ t.ks.length + 1

/-- Order of the keys, capacities, and half-fullness below the root. -/
def Ok (ld id : Nat) : {n : Nat} → BT K V n → Option K → Option K → Prop
  | 0, (t : BLeaf K V), lo, hi => SL.Sorted t.es ∧ (∀ e ∈ t.es, EntIn lo hi e.1) ∧ t.es.length ≤ ld
  | n + 1, (t : BNode K (BT K V n)), lo, hi =>
    t.ks.length ≤ id ∧ OrdL (fun c lo hi => MinOcc ld id c ∧ Ok ld id c lo hi) t.ks t.cs lo hi

/-- A child: half full and `Ok`. -/
def OkC (ld id : Nat) {n : Nat} (c : BT K V n) (lo hi : Option K) : Prop := MinOcc ld id c ∧ Ok ld id c lo hi

theorem ok_leaf {ld id : Nat} {p} {es : List (K × V)} {lo hi} :
    Ok ld id (BT.leaf p es) lo hi ↔ SL.Sorted es ∧ (∀ e ∈ es, EntIn lo hi e.1) ∧ es.length ≤ ld := by
  exact Iff.rfl

theorem ok_node {ld id n : Nat} {p ks} {cs : List (BT K V n)} {lo hi} :
    Ok ld id (BT.node p ks cs) lo hi ↔ ks.length ≤ id ∧ OrdL (OkC ld id) ks cs lo hi := by
  exact Iff.rfl

theorem ok_mem {ld id : Nat} : ∀ {n : Nat} {t : BT K V n} {lo hi}, Ok ld id t lo hi → ∀ e ∈ t.toL, EntIn lo hi e.1 := by
  intro n
  induction n with
  | zero =>
    intro t lo hi h
    obtain ⟨p, es, rfl⟩ := t.leaf_cases; rw [BT.toL_leaf]; exact (ok_leaf.1 h).2.1
  | succ n ih =>
    intro t lo hi h
    obtain ⟨p, ks, cs, rfl⟩ := t.node_cases
    · rw [BT.toL_node]
      exact ordL_mem (fun c lo hi hc => ih hc.2) (ok_node.1 h).2

theorem ok_sorted {ld id : Nat} : ∀ {n : Nat} {t : BT K V n} {lo hi}, Ok ld id t lo hi → SL.Sorted t.toL := by
  intro n
  induction n with
  | zero =>
    intro t lo hi h
    obtain ⟨p, es, rfl⟩ := t.leaf_cases; rw [BT.toL_leaf]; exact (ok_leaf.1 h).1
  | succ n ih =>
    intro t lo hi h
    obtain ⟨p, ks, cs, rfl⟩ := t.node_cases
    · rw [BT.toL_node]
      exact ordL_sorted (fun c lo hi hc => ok_mem hc.2) (fun c lo hi hc => ih hc.2) (ok_node.1 h).2

theorem okC_mem {ld id n : Nat} (c : BT K V n) (lo hi) (h : OkC ld id c lo hi) : ∀ e ∈ c.toL, EntIn lo hi e.1 :=
  ok_mem h.2

end order

/-! ### The pager -/

/-- The free list. -/
def FreeChain (d : Disk K V) : List Nat → Option Nat → Prop
  | [], o => o = none
  | f :: fl, o => o = some f ∧ ∃ nx, AtPage d f (.free nx) ∧ FreeChain d fl nx

/-- The file is consistent and the pages in use are those of `live`.  Without `strict` the header may be out of date,
pages may have been lost and the file may be too short to hold some of those. -/
structure WfG (strict : Bool) (ld id : Nat) (p : Pager K V) (live : List Nat) : Prop where
  sync : strict = true → p.disk.hdr = p.md ∧ p.disk.pages.length = p.md.pages
  ldeg : p.md.leafDeg = ld
  ideg : p.md.intDeg = id
  le : p.disk.pages.length ≤ p.md.pages
  lt' : ∀ i ∈ live, i < p.disk.pages.length
  chain : ∃ fl lost, FreeChain p.disk fl p.md.free ∧ (live ++ fl ++ lost).Perm (List.range p.md.pages) ∧
    (strict = true → lost = [])

/-- The file is consistent, the pages in use are those of `live` and all others are in the free list. -/
abbrev Wf (ld id : Nat) (p : Pager K V) (live : List Nat) : Prop := WfG true ld id p live

theorem freeChain_frame {d d' : Disk K V} {fl o} (h : ∀ i ∈ fl, d'.pages[i]? = d.pages[i]?) (hf : FreeChain d fl o) :
    FreeChain d' fl o := by
  induction fl generalizing o with
  | nil => exact hf
  | cons f fl ih =>
    obtain ⟨h1, nx, h2, h3⟩ := hf
    exact ⟨h1, nx, by rw [AtPage, h f (by simp)]; exact h2, ih (fun i hi => h i (by simp [hi])) h3⟩

variable {ld id : Nat} {g : Bool}

theorem WfG.hdr {p : Pager K V} {l : List Nat} (h : WfG true ld id p l) : p.disk.hdr = p.md := (h.sync rfl).1

theorem WfG.pages {p : Pager K V} {l : List Nat} (h : WfG true ld id p l) : p.disk.pages.length = p.md.pages := (h.sync rfl).2

theorem WfG.free {p : Pager K V} {l : List Nat} (h : WfG true ld id p l) :
    ∃ fl, FreeChain p.disk fl p.md.free ∧ (l ++ fl).Perm (List.range p.md.pages) := by
  obtain ⟨fl, lost, h1, h2, h3⟩ := h.chain
  exact ⟨fl, h1, by simpa [h3 rfl] using h2⟩

theorem Wf.mk {p : Pager K V} {l : List Nat} (h1 : p.disk.hdr = p.md) (h2 : p.disk.pages.length = p.md.pages)
    (h3 : p.md.leafDeg = ld) (h4 : p.md.intDeg = id)
    (h5 : ∃ fl, FreeChain p.disk fl p.md.free ∧ (l ++ fl).Perm (List.range p.md.pages)) : Wf ld id p l := by
  obtain ⟨fl, a, b⟩ := h5
  refine ⟨fun _ => ⟨h1, h2⟩, h3, h4, h2.le, fun i hi => ?_, fl, [], a, by simpa using b, fun _ => rfl⟩
  rw [h2]
  simpa using b.subset (a := i) (by simp [hi])

/-- Less is known when the errors are ignored. -/
theorem WfG.weaken {p : Pager K V} {l : List Nat} (h : WfG g ld id p l) : WfG false ld id p l := by
  obtain ⟨fl, lost, h1, h2, -⟩ := h.chain
  exact ⟨by simp, h.ldeg, h.ideg, h.le, h.lt', fl, lost, h1, h2, by simp⟩

theorem WfG.perm {p : Pager K V} {l l' : List Nat} (h : WfG g ld id p l) (hp : l.Perm l') : WfG g ld id p l' := by
  obtain ⟨fl, lost, h1, h2, h3⟩ := h.chain
  exact ⟨h.sync, h.ldeg, h.ideg, h.le, fun i hi => h.lt' i (hp.mem_iff.2 hi), fl, lost, h1,
    ((hp.symm.append_right fl).append_right lost).trans h2, h3⟩

theorem WfG.nodup {p : Pager K V} {l : List Nat} (h : WfG g ld id p l) : l.Nodup := by
  obtain ⟨fl, lost, h1, h2, -⟩ := h.chain
  exact (List.nodup_append.1 (List.nodup_append.1 (h2.nodup_iff.2 List.nodup_range)).1).1

theorem WfG.lt {p : Pager K V} {l : List Nat} (h : WfG g ld id p l) {i} (hi : i ∈ l) : i < p.disk.pages.length := h.lt' i hi

/-- The pages of the free list are others than those in use. -/
theorem WfG.apart {l fl lost : List Nat} {m : Nat} (h : (l ++ fl ++ lost).Perm (List.range m)) {i j : Nat} (hi : i ∈ l) (hj : j ∈ fl) : i ≠ j :=
  (List.nodup_append.1 (List.nodup_append.1 (h.nodup_iff.2 List.nodup_range)).1).2.2 i hi j hj

theorem WfG.write {p : Pager K V} {l : List Nat} (h : WfG g ld id p l) {i} (hi : i ∈ l) (n : Node K V) :
    ∃ p', p.writeNode i n = some p' ∧ WfG g ld id p' l ∧ AtPage p'.disk i n ∧ p'.md = p.md ∧
      ∀ j, j ≠ i → p'.disk.pages[j]? = p.disk.pages[j]? := by
  have hlt := h.lt hi
  refine ⟨p.put { p.disk with pages := p.disk.pages.set i (some n) }, by rw [Pager.writeNode, if_pos hlt], ?_, ?_, rfl, ?_⟩
  · obtain ⟨fl, lost, h1, h2, h3⟩ := h.chain
    refine ⟨fun e => ⟨(h.sync e).1, by simpa [Pager.put] using (h.sync e).2⟩, h.ldeg, h.ideg, by simpa [Pager.put] using h.le,
      by simpa [Pager.put] using h.lt', fl, lost, ?_, h2, h3⟩
    refine freeChain_frame (fun j hj => ?_) h1
    simp [Pager.put, List.getElem?_set_ne (WfG.apart h2 hi hj)]
  · simp [AtPage, Pager.put, hlt]
  · intro j hj
    simp [Pager.put, List.getElem?_set_ne (Ne.symm hj)]

theorem WfG.setLen {p : Pager K V} {l : List Nat} (h : WfG g ld id p l) (n : Nat) : WfG g ld id (p.setLen n) l := by
  obtain ⟨fl, lost, h1, h2, h3⟩ := h.chain
  exact ⟨fun e => ⟨rfl, (h.sync e).2⟩, h.ldeg, h.ideg, h.le, h.lt', fl, lost,
    freeChain_frame (d := p.disk) (o := p.md.free) (fun _ _ => rfl) h1, h2, h3⟩

theorem WfG.setRoot {p : Pager K V} {l : List Nat} (h : WfG g ld id p l) (r : Nat) : WfG g ld id (p.setRoot r) l := by
  obtain ⟨fl, lost, h1, h2, h3⟩ := h.chain
  exact ⟨fun e => ⟨rfl, (h.sync e).2⟩, h.ldeg, h.ideg, h.le, h.lt', fl, lost,
    freeChain_frame (d := p.disk) (o := p.md.free) (fun _ _ => rfl) h1, h2, h3⟩

theorem WfG.dealloc {p : Pager K V} {l : List Nat} {i : Nat} (h : WfG g ld id p (i :: l)) :
    ∃ p', p.deallocate i = some p' ∧ WfG g ld id p' l ∧ p'.md = { p.md with free := some i } ∧
      ∀ j, j ≠ i → p'.disk.pages[j]? = p.disk.pages[j]? := by
  obtain ⟨p1, e1, w1, a1, m1, f1⟩ := h.write (i := i) (by simp) (.free p.md.free)
  refine ⟨Pager.writeHdr { p1 with md := { p1.md with free := some i } }, by simp [Pager.deallocate, e1], ?_,
    by simp [Pager.writeHdr, Pager.put, m1], f1⟩
  obtain ⟨fl, lost, h1, h2, h3⟩ := h.chain
  refine ⟨fun e => ⟨rfl, (w1.sync e).2⟩, w1.ldeg, w1.ideg, w1.le, fun j hj => w1.lt' j (by simp [hj]), i :: fl, lost,
    ⟨rfl, p.md.free, a1, ?_⟩, ?_, h3⟩
  · refine freeChain_frame (fun j hj => f1 j ?_) h1
    exact fun e => WfG.apart h2 (List.mem_cons_self) hj e.symm
  · have : p1.md.pages = p.md.pages := by rw [m1]
    show (l ++ i :: fl ++ lost).Perm (List.range p1.md.pages)
    rw [this]
    exact (List.perm_middle.append_right lost).trans h2

/-- The page that is taken from the free list or added to the file. -/
theorem WfG.alloc {p : Pager K V} {l : List Nat} (h : WfG g ld id p l) (n : Node K V) :
    ∃ p' q, p.allocate n = some (p', q) ∧ WfG g ld id p' (q :: l) ∧ AtPage p'.disk q n ∧
      p'.md.len = p.md.len ∧ p'.md.root = p.md.root ∧
      ∀ j ∈ l, p'.disk.pages[j]? = p.disk.pages[j]? := by
  obtain ⟨fl, lost, h1, h2, h3⟩ := h.chain
  cases hf : p.md.free with
  | none =>
    have hfl : fl = [] := by
      cases fl with
      | nil => rfl
      | cons f fl => rw [hf] at h1; exact absurd h1.1 (by simp)
    subst hfl
    have hp := h.le
    let p0 : Pager K V := { p with md := { p.md with pages := p.md.pages + 1 } }
    let p1 := p0.setFileLen (p.md.pages + 1)
    let d := p.disk.pages ++ List.replicate (p.md.pages - p.disk.pages.length) none
    have hd : d.length = p.md.pages := by simp only [d, List.length_append, List.length_replicate]; omega
    have e1 : p1.disk.pages = d ++ [none] := by
      have a : p.disk.pages.take (p.md.pages + 1) = p.disk.pages := List.take_of_length_le (by omega)
      have b : p.md.pages + 1 - p.disk.pages.length = (p.md.pages - p.disk.pages.length) + 1 := by omega
      simp [p1, p0, d, Pager.setFileLen, Pager.put, a, b, List.replicate_succ']
    have e2 : p1.writeNode p.md.pages n = some (p1.put { p1.disk with pages := d ++ [some n] }) := by
      rw [Pager.writeNode, if_pos (by rw [e1]; simp; omega), e1, ← hd]
      simp
    refine ⟨(p1.put { p1.disk with pages := d ++ [some n] }).writeHdr, p.md.pages, ?_, ?_, ?_, rfl, rfl, ?_⟩
    · rw [Pager.allocate, hf]
      show (match p1.writeNode (p.md.pages + 1 - 1) n with
        | none => none
        | some p => some (p.writeHdr, p.md.pages - 1)) = _
      rw [Nat.add_sub_cancel, e2]
      rfl
    · have hl : (d ++ [some n]).length = p.md.pages + 1 := by simp [hd]
      refine ⟨fun _ => ⟨rfl, hl⟩, h.ldeg, h.ideg, hl.le, fun i hi => ?_, [], lost, hf, ?_, h3⟩
      · show i < (d ++ [some n]).length
        rw [hl]
        rcases List.mem_cons.1 hi with rfl | hi
        · omega
        · have := h.lt' i hi; omega
      · show (p.md.pages :: l ++ [] ++ lost).Perm (List.range (p.md.pages + 1))
        rw [List.range_succ]
        simp only [List.append_nil, List.cons_append] at h2 ⊢
        exact (List.Perm.cons _ h2).trans (List.perm_append_comm (l₁ := [p.md.pages]))
    · show (d ++ [some n])[p.md.pages]? = _
      rw [← hd]; simp
    · intro j hj
      have := h.lt hj
      show (d ++ [some n])[j]? = _
      rw [List.getElem?_append_left (by omega), List.getElem?_append_left this]
  | some f =>
    cases fl with
    | nil => rw [hf] at h1; exact absurd h1 (by simp [FreeChain])
    | cons f' fl =>
      rw [hf] at h1
      obtain ⟨h4, nx, h5, h6⟩ := h1
      simp at h4
      subst h4
      have hnd := (List.nodup_append.1 (List.nodup_append.1 (h2.nodup_iff.2 List.nodup_range)).1).2.1
      have hfl : f < p.disk.pages.length := (List.getElem?_eq_some_iff.1 h5).1
      have hne : ∀ j ∈ l, f ≠ j := fun j hj e => WfG.apart h2 hj List.mem_cons_self e.symm
      have hne2 : ∀ j ∈ fl, f ≠ j := by
        intro j hj e
        subst e
        exact (List.nodup_cons.1 hnd).1 hj
      refine ⟨Pager.writeHdr { p.put { p.disk with pages := p.disk.pages.set f (some n) } with
        md := { p.md with free := nx } }, f, ?_, ?_, ?_, rfl, rfl, ?_⟩
      · rw [Pager.allocate, hf]
        simp only [getPage_eq h5, Pager.writeNode, if_pos hfl]
        rfl
      · have hl : (p.disk.pages.set f (some n)).length = p.disk.pages.length := List.length_set
        refine ⟨fun e => ⟨rfl, hl.trans (h.sync e).2⟩, h.ldeg, h.ideg, hl.trans_le h.le, fun i hi => ?_, fl, lost, ?_, ?_, h3⟩
        · show i < (p.disk.pages.set f (some n)).length
          rw [hl]
          rcases List.mem_cons.1 hi with rfl | hi
          · exact hfl
          · exact h.lt' i hi
        · refine freeChain_frame (fun j hj => ?_) h6
          show (p.disk.pages.set f (some n))[j]? = _
          rw [List.getElem?_set_ne (hne2 j hj)]
        · exact (List.perm_middle.symm.append_right lost).trans h2
      · show (p.disk.pages.set f (some n))[f]? = _
        simp [hfl]
      · intro j hj
        show (p.disk.pages.set f (some n))[j]? = _
        rw [List.getElem?_set_ne (hne j hj)]

end Verif.Bp
