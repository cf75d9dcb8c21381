/- The height of a `TreapList` over all orders of the drawn priorities.  Documentation claim: treap/list.rs:12-17
"By randomly generating priorities, the expected height of the tree is proportional to the logarithm of the
number of keys", and index operations take `O(log N)` time. -/
import Verif.Treap.ListProps
import Verif.Treap.Height

namespace Verif.Treap.Implicit

open Verif.Bst Verif.Spec Verif.SL Verif.Perms

variable {V : Type}

/-! ### Vocabulary -/

/-- What one call does to the list of insertions that are still in the list: each insertion is named by its
number (the first one is 0), and the names stand in list order.  `none`: the call panics. -/
def slotStep (n : Nat) (G : List Nat) : SeqOp V → Option (Nat × List Nat)
  | .insert i _ => if i ≤ G.length then some (n + 1, G.take i ++ n :: G.drop i) else none
  | .pushFront _ => some (n + 1, n :: G)
  | .pushBack _ => some (n + 1, G ++ [n])
  | .remove i => if i < G.length then some (n, G.take i ++ G.drop (i + 1)) else none
  | .popFront => if 0 < G.length then some (n, G.drop 1) else none
  | .popBack => if 0 < G.length then some (n, G.take (G.length - 1)) else none
  | .index i => if i < G.length then some (n, G) else none
  | .clear => some (n, [])
  | .get _ | .getMut _ _ | .len | .isEmpty | .iter _ | .iterMut _ => some (n, G)

/-- The number of insertions made and the names of those still in the list after a history. -/
def slots : Nat → List Nat → List (SeqOp V) → Option (Nat × List Nat)
  | n, G, [] => some (n, G)
  | n, G, op :: ops => do
    let (n', G') ← slotStep n G op
    slots n' G' ops

/-- Does the call draw a number (treap/list.rs:78)? -/
def draws : SeqOp V → Nat
  | .insert _ _ | .pushFront _ | .pushBack _ => 1
  | _ => 0

/-- The list after the history `ops`, the `i`-th insertion drawing `P i`; `n` is the number of insertions made
before. -/
def runList (P : Nat → Nat) : Nat → TreapList V → List (SeqOp V) → Option (TreapList V)
  | _, s, [] => some s
  | n, s, op :: ops => do
    let (s', _) ← step s op (P n)
    runList P (n + draws op) s' ops

/-- The list after the history `ops` with draws `qs`. -/
def afterList (ops : List (SeqOp V)) (qs : List Nat) : Option (TreapList V) :=
  runList (fun i => qs.getD i 0) 0 TreapList.new ops

/-- The height of the tree after the history `ops` with draws `qs`. -/
def listHeight (ops : List (SeqOp V)) (qs : List Nat) : Nat :=
  ((afterList ops qs).map fun s => depth s.tree).getD 0

/-! ### The operations do not look at the values -/

/-- The priorities, in order. -/
def prios (t : ITree V) : List Nat := (keyPrios t).map (·.2)

/-- Every value replaced by the priority of its node. -/
def relabel : ITree V → ITree Nat
  | .nil => .nil
  | .node a l k _ r => .node a (relabel l) k a.prio (relabel r)

theorem vals_relabel (t : ITree V) : vals (relabel t) = prios t := by
  induction t with
  | nil => rfl
  | node a l k v r ihl ihr => simp [relabel, ihl, ihr, prios, keyPrios]

theorem len_relabel (t : ITree V) : len (relabel t) = len t := by cases t <;> rfl

theorem relabel_mk (p : Nat) (l r : ITree V) (k : Unit) (v : V) :
    relabel (mk p l k v r) = mk p (relabel l) k p (relabel r) := by
  simp [mk, relabel, len_relabel]

theorem wf_relabel {b : Nat} {t : ITree V} (h : Wf b t) : Wf b (relabel t) := by
  induction t generalizing b with
  | nil => trivial
  | node a l k v r ihl ihr =>
    obtain ⟨h1, h2, h3, h4⟩ := h
    exact ⟨h1, by rw [len_relabel, len_relabel]; exact h2, ihl h3, ihr h4⟩

theorem relabel_merge (l r : ITree V) : relabel (merge l r) = merge (relabel l) (relabel r) := by
  induction l generalizing r with
  | nil => rfl
  | node a ll k v lr ihl ihr =>
    induction r with
    | nil => rfl
    | node b rl x w rr jhl jhr =>
      have e1 : relabel (.node a ll k v lr) = .node a (relabel ll) k a.prio (relabel lr) := rfl
      have e2 : relabel (.node b rl x w rr) = .node b (relabel rl) x b.prio (relabel rr) := rfl
      rw [merge_node_node, e1, e2, merge_node_node]
      split
      · rw [relabel_mk, ihr, e2]
      · rw [relabel_mk, jhl, e1]

theorem key_relabel (l : ITree V) : implicitKey (relabel l) = implicitKey l := by
  simp [implicitKey, len_relabel]

theorem relabel_split (li : Bool) (i : Nat) (t : ITree V) :
    split li i (relabel t) = (relabel (split li i t).1, relabel (split li i t).2) := by
  induction t generalizing i with
  | nil => rfl
  | node a l k v r ihl ihr =>
    simp only [relabel, split, key_relabel]
    by_cases hc : i < implicitKey l ∨ i = implicitKey l ∧ li = true
    · rw [if_pos hc, if_pos hc]; simp only [ihl, relabel_mk]
    · rw [if_neg hc, if_neg hc]; simp only [ihr, relabel_mk]

theorem relabel_insert (i p : Nat) (v : V) (t : ITree V) :
    insert i p p (relabel t) = (insert i p v t).map relabel := by
  unfold insert
  rw [len_relabel]
  split
  · rw [relabel_split]
    simp only [Option.map_some, relabel_merge]
    rfl
  · rfl

theorem relabel_remove (i : Nat) (t : ITree V) :
    (remove i (relabel t)).map (·.1) = (remove i t).map fun q => relabel q.1 := by
  induction t generalizing i with
  | nil => rfl
  | node a l k v r ihl ihr =>
    simp only [relabel, remove, key_relabel]
    by_cases h0 : 1 ≤ i ∧ i ≤ a.len
    · rw [if_pos h0, if_pos h0]
      by_cases h1 : i < implicitKey l
      · rw [if_pos h1, if_pos h1]
        have := ihl i
        cases e : remove i (relabel l) <;> cases e' : remove i l <;> rw [e, e'] at this
        · rfl
        · cases this
        · cases this
        · simp only [Option.map_some, Option.some.injEq] at this
          simp [this, relabel_mk]
      · rw [if_neg h1, if_neg h1]
        by_cases h2 : implicitKey l < i
        · rw [if_pos h2, if_pos h2]
          have := ihr (i - (implicitKey l))
          cases e : remove (i - (implicitKey l)) (relabel r) <;> cases e' : remove (i - (implicitKey l)) r <;>
            rw [e, e'] at this
          · rfl
          · cases this
          · cases this
          · simp only [Option.map_some, Option.some.injEq] at this
            simp [this, relabel_mk]
        · rw [if_neg h2, if_neg h2]; simp [relabel_merge]
    · rw [if_neg h0, if_neg h0]; rfl

theorem relabel_getMut (f : V → V) (i : Nat) (t : ITree V) : relabel (getMut f i t).2 = relabel t := by
  induction t generalizing i with
  | nil => rfl
  | node a l k v r ihl ihr =>
    simp only [getMut]
    split
    · simp [relabel, ihl]
    · split
      · simp [relabel, ihr]
      · rfl

theorem relabel_writeAt (f : V → V) (t : ITree V) (p : Path) : relabel (t.writeAt f p) = relabel t := by
  induction t generalizing p with
  | nil => cases p <;> rfl
  | node a l k v r ihl ihr =>
    cases p with
    | nil => rfl
    | cons d p => cases d <;> simp [Tree.writeAt, relabel, ihl, ihr]

theorem relabel_runWrite (fs : List (V → V)) (t : ITree V) (it : IterMut) :
    relabel (IterMut.runWrite fs t it).2.1 = relabel t := by
  induction fs generalizing t it with
  | nil => rfl
  | cons f fs ih =>
    simp only [IterMut.runWrite, IterMut.stepWrite]
    cases it.next t with
    | mk o it' =>
      cases o with
      | none => exact ih t it'
      | some p => exact (ih _ it').trans (relabel_writeAt f t p)

/-! ### The priorities after a call -/

theorem length_prios {b : Nat} {t : ITree V} (h : Wf b t) : (prios t).length = len t := by
  rw [← vals_relabel, ← len_vals (wf_relabel h), len_relabel]

theorem length_vals (t : ITree V) : (vals t).length = (prios t).length := by
  induction t with
  | nil => rfl
  | node a l k v r ihl ihr =>
    simp only [prios, keyPrios, vals_node, List.length_append, List.length_cons, List.map_append,
      List.map_cons] at *
    omega

theorem insert_prios {b : Nat} (i p : Nat) (v : V) (t : ITree V) (h : Wf b t) :
    (i ≤ (prios t).length → ∃ t' b', insert (i + 1) p v t = some t' ∧
        prios t' = (prios t).take i ++ p :: (prios t).drop i ∧ Wf b' t') ∧
      (¬ i ≤ (prios t).length → insert (i + 1) p v t = none) := by
  have h1 := insert_spec i p v t h
  rw [length_vals] at h1
  refine ⟨fun hi => ?_, h1.2⟩
  obtain ⟨t', b', e, _, hw⟩ := h1.1 hi
  refine ⟨t', b', e, ?_, hw⟩
  have h2 := (insert_spec i p p (relabel t) (wf_relabel h)).1 (by rw [vals_relabel]; exact hi)
  obtain ⟨u, b'', e2, e3, _⟩ := h2
  rw [relabel_insert (i + 1) p v t, e] at e2
  simp only [Option.map_some, Option.some.injEq] at e2
  rw [← e2, vals_relabel, vals_relabel] at e3
  exact e3

theorem remove_prios {b : Nat} (i : Nat) (t : ITree V) (h : Wf b t) :
    (i < (prios t).length → ∃ t' v, remove (i + 1) t = some (t', v) ∧
        prios t' = (prios t).take i ++ (prios t).drop (i + 1) ∧ Wf b t') ∧
      (¬ i < (prios t).length → remove (i + 1) t = none) := by
  have h1 := remove_spec i t h
  constructor
  · intro hi
    have hi' : i < (vals t).length := by rw [length_vals]; exact hi
    obtain ⟨t', e, _, hw⟩ := h1.1 _ (List.getElem?_eq_getElem hi')
    refine ⟨t', _, e, ?_, hw⟩
    have hi2 : i < (vals (relabel t)).length := by rw [vals_relabel]; exact hi
    obtain ⟨u, e2, e3, _⟩ := (remove_spec i (relabel t) (wf_relabel h)).1 _ (List.getElem?_eq_getElem hi2)
    have := relabel_remove (i + 1) t
    rw [e, e2] at this
    simp only [Option.map_some, Option.some.injEq] at this
    rw [this, vals_relabel, vals_relabel] at e3
    exact e3
  · intro hi
    exact h1.2 (by rw [List.getElem?_eq_none_iff, length_vals]; omega)

theorem prios_of_relabel {s t : ITree V} (h : relabel s = relabel t) : prios s = prios t := by
  rw [← vals_relabel, h, vals_relabel]

/-- The tree holds the priorities drawn by the insertions that are still in the list, in list order. -/
def LInv (P : Nat → Nat) (G : List Nat) (t : ITree V) : Prop := (∃ b, Wf b t) ∧ prios t = G.map P

theorem step_inv (P : Nat → Nat) (n : Nat) (G : List Nat) (s : TreapList V) (op : SeqOp V)
    (h : LInv P G s.tree) :
    (∀ n' G', slotStep n G op = some (n', G') → n' = n + draws op ∧ ∃ s' r, step s op (P n) = some (s', r) ∧
      LInv P G' s'.tree) ∧ (slotStep n G op = none → step s op (P n) = none) := by
  obtain ⟨⟨b, hb⟩, hG⟩ := h
  have hlen : (prios s.tree).length = G.length := by rw [hG, List.length_map]
  have hl : len s.tree = G.length := by rw [← length_prios hb, hlen]
  have hins : ∀ i v, (i ≤ G.length → ∃ s' r, s.insert i v (P n) = some (s', r) ∧
      LInv P (G.take i ++ n :: G.drop i) s'.tree) ∧ (¬ i ≤ G.length → s.insert i v (P n) = none) := by
    intro i v
    have h1 := insert_prios i (P n) v s.tree hb
    rw [hlen] at h1
    constructor
    · intro hi
      obtain ⟨t', b', e, e2, hw⟩ := h1.1 hi
      exact ⟨⟨t'⟩, .unit, by simp [TreapList.insert, e], ⟨b', hw⟩, by simp [e2, hG]⟩
    · intro hi
      simp [TreapList.insert, h1.2 hi]
  have hrem : ∀ i, (i < G.length → ∃ s' r, s.remove i = some (s', r) ∧
      LInv P (G.take i ++ G.drop (i + 1)) s'.tree) ∧ (¬ i < G.length → s.remove i = none) := by
    intro i
    have h1 := remove_prios i s.tree hb
    rw [hlen] at h1
    constructor
    · intro hi
      obtain ⟨t', v, e, e2, hw⟩ := h1.1 hi
      exact ⟨⟨t'⟩, .val v, by simp [TreapList.remove, e], ⟨b, hw⟩, by simp [e2, hG]⟩
    · intro hi
      simp [TreapList.remove, h1.2 hi]
  cases op with
  | insert i v =>
    simp only [slotStep]
    split
    · rename_i hi
      refine ⟨?_, by simp⟩
      rintro n' G' e
      simp only [Option.some.injEq, Prod.mk.injEq] at e
      obtain ⟨rfl, rfl⟩ := e
      exact ⟨rfl, (hins i v).1 hi⟩
    · rename_i hi
      exact ⟨by simp, fun _ => (hins i v).2 hi⟩
  | pushFront v =>
    refine ⟨?_, by simp [slotStep]⟩
    rintro n' G' e
    simp only [slotStep, Option.some.injEq, Prod.mk.injEq] at e
    obtain ⟨rfl, rfl⟩ := e
    exact ⟨rfl, by simpa [step] using (hins 0 v).1 (Nat.zero_le _)⟩
  | pushBack v =>
    refine ⟨?_, by simp [slotStep]⟩
    rintro n' G' e
    simp only [slotStep, Option.some.injEq, Prod.mk.injEq] at e
    obtain ⟨rfl, rfl⟩ := e
    refine ⟨rfl, ?_⟩
    simp only [step, hl]
    simpa using (hins G.length v).1 (le_refl _)
  | remove i =>
    simp only [slotStep]
    split
    · rename_i hi
      refine ⟨?_, by simp⟩
      rintro n' G' e
      simp only [Option.some.injEq, Prod.mk.injEq] at e
      obtain ⟨rfl, rfl⟩ := e
      exact ⟨rfl, (hrem i).1 hi⟩
    · rename_i hi
      exact ⟨by simp, fun _ => (hrem i).2 hi⟩
  | popFront =>
    simp only [slotStep]
    split
    · rename_i hi
      refine ⟨?_, by simp⟩
      rintro n' G' e
      simp only [Option.some.injEq, Prod.mk.injEq] at e
      obtain ⟨rfl, rfl⟩ := e
      exact ⟨rfl, by simpa [step] using (hrem 0).1 hi⟩
    · rename_i hi
      exact ⟨by simp, fun _ => (hrem 0).2 hi⟩
  | popBack =>
    simp only [slotStep, step, hl]
    split
    · rename_i hi
      refine ⟨?_, by simp⟩
      rintro n' G' e
      simp only [Option.some.injEq, Prod.mk.injEq] at e
      obtain ⟨rfl, rfl⟩ := e
      refine ⟨rfl, ?_⟩
      have h1 := (hrem (G.length - 1)).1 (by omega)
      have e1 : decr G.length = some (G.length - 1) := by
        cases hg : G.length with
        | zero => omega
        | succ m => rfl
      rw [e1]
      rw [show G.length - 1 + 1 = G.length by omega, List.drop_length, List.append_nil] at h1
      exact h1
    · rename_i hi
      refine ⟨by simp, fun _ => ?_⟩
      rw [show G.length = 0 by omega]; rfl
  | index i =>
    simp only [slotStep, step, get_spec i s.tree hb]
    split
    · rename_i hi
      refine ⟨?_, by simp⟩
      rintro n' G' e
      simp only [Option.some.injEq, Prod.mk.injEq] at e
      obtain ⟨rfl, rfl⟩ := e
      have hi' : i < (vals s.tree).length := by rw [length_vals, hlen]; exact hi
      exact ⟨rfl, s, _, by rw [List.getElem?_eq_getElem hi']; rfl, ⟨b, hb⟩, hG⟩
    · rename_i hi
      refine ⟨by simp, fun _ => ?_⟩
      rw [List.getElem?_eq_none_iff.2 (by rw [length_vals, hlen]; omega)]; rfl
  | clear =>
    refine ⟨?_, by simp [slotStep]⟩
    rintro n' G' e
    simp only [slotStep, Option.some.injEq, Prod.mk.injEq] at e
    obtain ⟨rfl, rfl⟩ := e
    exact ⟨rfl, ⟨.nil⟩, _, rfl, ⟨0, trivial⟩, rfl⟩
  | getMut i f =>
    refine ⟨?_, by simp [slotStep]⟩
    rintro n' G' e
    simp only [slotStep, Option.some.injEq, Prod.mk.injEq] at e
    obtain ⟨rfl, rfl⟩ := e
    refine ⟨rfl, ⟨(getMut f (i + 1) s.tree).2⟩, _, rfl, ⟨b, (getMut_spec f i s.tree hb).2.2⟩, ?_⟩
    exact (prios_of_relabel (relabel_getMut f (i + 1) s.tree)).trans hG
  | iterMut fs =>
    refine ⟨?_, by simp [slotStep]⟩
    rintro n' G' e
    simp only [slotStep, Option.some.injEq, Prod.mk.injEq] at e
    obtain ⟨rfl, rfl⟩ := e
    refine ⟨rfl, ⟨(IterMut.runWrite fs s.tree IterMut.start).2.1⟩, _, rfl, ⟨b, wf_runWrite fs s.tree _ hb⟩, ?_⟩
    exact (prios_of_relabel (relabel_runWrite fs s.tree _)).trans hG
  | get i =>
    refine ⟨?_, by simp [slotStep]⟩
    rintro n' G' e
    simp only [slotStep, Option.some.injEq, Prod.mk.injEq] at e
    obtain ⟨rfl, rfl⟩ := e
    exact ⟨rfl, s, _, rfl, ⟨b, hb⟩, hG⟩
  | len =>
    refine ⟨?_, by simp [slotStep]⟩
    rintro n' G' e
    simp only [slotStep, Option.some.injEq, Prod.mk.injEq] at e
    obtain ⟨rfl, rfl⟩ := e
    exact ⟨rfl, s, _, rfl, ⟨b, hb⟩, hG⟩
  | isEmpty =>
    refine ⟨?_, by simp [slotStep]⟩
    rintro n' G' e
    simp only [slotStep, Option.some.injEq, Prod.mk.injEq] at e
    obtain ⟨rfl, rfl⟩ := e
    exact ⟨rfl, s, _, rfl, ⟨b, hb⟩, hG⟩
  | iter m =>
    refine ⟨?_, by simp [slotStep]⟩
    rintro n' G' e
    simp only [slotStep, Option.some.injEq, Prod.mk.injEq] at e
    obtain ⟨rfl, rfl⟩ := e
    exact ⟨rfl, s, _, rfl, ⟨b, hb⟩, hG⟩

theorem run_inv (P : Nat → Nat) (ops : List (SeqOp V)) : ∀ (n : Nat) (G : List Nat) (s : TreapList V),
    LInv P G s.tree → (∀ n' G', slots n G ops = some (n', G') → ∃ s', runList P n s ops = some s' ∧
      LInv P G' s'.tree) ∧ (slots n G ops = none → runList P n s ops = none) := by
  induction ops with
  | nil =>
    intro n G s h
    refine ⟨?_, by simp [slots]⟩
    rintro n' G' e
    simp only [slots, Option.some.injEq, Prod.mk.injEq] at e
    obtain ⟨rfl, rfl⟩ := e
    exact ⟨s, rfl, h⟩
  | cons op ops ih =>
    intro n G s h
    obtain ⟨h1, h2⟩ := step_inv P n G s op h
    simp only [slots, runList]
    cases e : slotStep n G op with
    | none => rw [h2 e]; simp
    | some q =>
      obtain ⟨n₁, G₁⟩ := q
      obtain ⟨rfl, s', r, e2, h3⟩ := h1 n₁ G₁ e
      rw [e2]
      simpa using ih (n + draws op) G₁ s' h3

/-! ### Positions as keys -/

/-- The positions as keys, counted from `off`. -/
def positions : Nat → ITree V → TTree Nat V
  | _, .nil => .nil
  | off, .node a l _ v r => .node a (positions off l) (off + (prios l).length) v
      (positions (off + (prios l).length + 1) r)

theorem depth_positions (off : Nat) (t : ITree V) : depth (positions off t) = depth t := by
  induction t generalizing off with
  | nil => rfl
  | node a l k v r ihl ihr => simp [positions, depth, ihl, ihr]

theorem len_positions (off : Nat) (t : ITree V) : len (positions off t) = len t := by cases t <;> rfl

theorem wf_positions {b : Nat} (off : Nat) {t : ITree V} (h : Wf b t) : Wf b (positions off t) := by
  induction t generalizing b off with
  | nil => trivial
  | node a l k v r ihl ihr =>
    obtain ⟨h1, h2, h3, h4⟩ := h
    exact ⟨h1, by rw [len_positions, len_positions]; exact h2, ihl _ h3, ihr _ h4⟩

theorem prios_node (a : Ann) (l r : ITree V) (k : Unit) (v : V) :
    prios (.node a l k v r) = prios l ++ a.prio :: prios r := by simp [prios, keyPrios]

theorem kp_positions (off : Nat) (t : ITree V) :
    keyPrios (positions off t) = ((prios t).zipIdx off).map Prod.swap := by
  induction t generalizing off with
  | nil => rfl
  | node a l k v r ihl ihr =>
    rw [positions, keyPrios_node, ihl, ihr, prios_node, List.zipIdx_append, List.map_append,
      List.zipIdx_cons, List.map_cons]
    rfl

theorem sorted_positions (off : Nat) (t : ITree V) : Sorted (positions off t).toList := by
  have h : ((positions off t).toList.map (·.1)).Pairwise (· < ·) := by
    rw [← keyPrios_keys, kp_positions, List.map_map]
    have e : ((prios t).zipIdx off).map ((fun x : Nat × Nat => x.1) ∘ Prod.swap) =
        List.range' off (prios t).length := by
      apply List.ext_getElem <;> simp
    rw [e]
    exact List.pairwise_lt_range'
  rw [List.pairwise_map] at h
  exact h

/-! ### Theorems -/

/-- **C54, lists: same panics, same length.** A history panics under some draws iff it panics in `slots`, which
does not depend on the draws, and `slots` has as many names as the list has elements. -/
theorem C54_list_total (ops : List (SeqOp V)) (qs : List Nat) :
    (∀ n G, slots 0 [] ops = some (n, G) → ∃ s, afterList ops qs = some s ∧
      listHeight ops qs = depth s.tree ∧ len s.tree = G.length ∧ (vals s.tree).length = G.length) ∧
    (slots 0 [] ops = none → afterList ops qs = none) := by
  obtain ⟨h1, h2⟩ := run_inv (fun i => qs.getD i 0) ops 0 [] (TreapList.new : TreapList V)
    ⟨⟨0, trivial⟩, rfl⟩
  refine ⟨fun n G e => ?_, h2⟩
  obtain ⟨s, e1, ⟨b, hb⟩, hG⟩ := h1 n G e
  have e2 : afterList ops qs = some s := e1
  have e3 : (prios s.tree).length = G.length := by rw [hG, List.length_map]
  refine ⟨s, e2, by unfold listHeight; rw [e2]; rfl, ?_, ?_⟩
  · rw [← length_prios hb, e3]
  · rw [length_vals, e3]

theorem slots_sub (ops : List (SeqOp V)) : ∀ n (G : List Nat) n' G', (∀ i ∈ G, i < n) → G.Nodup →
    slots n G ops = some (n', G') → (∀ i ∈ G', i < n') ∧ G'.Nodup := by
  induction ops with
  | nil =>
    rintro n G n' G' h hd e
    simp only [slots, Option.some.injEq, Prod.mk.injEq] at e
    obtain ⟨rfl, rfl⟩ := e
    exact ⟨h, hd⟩
  | cons op ops ih =>
    intro n G n' G' h hd e
    simp only [slots] at e
    cases e1 : slotStep n G op with
    | none => rw [e1] at e; cases e
    | some q =>
      obtain ⟨n₁, G₁⟩ := q
      rw [e1] at e
      refine ih n₁ G₁ n' G' ?_ ?_ e
      all_goals
        have hn : n ∉ G := fun hm => absurd (h n hm) (lt_irrefl _)
        have hsub : ∀ i, List.Sublist (G.take i ++ G.drop (i + 1)) G := by
          intro i
          conv_rhs => rw [← List.take_append_drop i G]
          exact List.Sublist.append_left (List.drop_sublist_drop_left G (Nat.le_succ i)) _
        have hp : ∀ i, List.Perm (G.take i ++ n :: G.drop i) (n :: G) := by
          intro i
          refine List.perm_middle.trans (List.Perm.cons n ?_)
          rw [List.take_append_drop]
        have hh : ∀ i ∈ n :: G, i < n + 1 := by
          intro i hi
          rcases List.mem_cons.1 hi with rfl | hi
          · omega
          · have := h i hi; omega
        have hc : (n :: G).Nodup := List.nodup_cons.2 ⟨hn, hd⟩
        have hpb : List.Perm (G ++ [n]) (n :: G) := List.perm_append_singleton n G
      · cases op <;> simp only [slotStep] at e1 <;>
          (try split at e1) <;> (try (cases e1; done)) <;>
          simp only [Option.some.injEq, Prod.mk.injEq] at e1 <;> obtain ⟨rfl, rfl⟩ := e1
        · exact fun i hi => hh i ((hp _).mem_iff.1 hi)
        · exact fun i hi => h i ((hsub _).subset hi)
        · exact hh
        · exact fun i hi => hh i (hpb.mem_iff.1 hi)
        · exact fun i hi => h i (List.mem_of_mem_drop hi)
        · exact fun i hi => h i (List.mem_of_mem_take hi)
        · exact h
        · exact h
        · exact h
        · exact h
        · exact h
        · simp
        · exact h
        · exact h
      · cases op <;> simp only [slotStep] at e1 <;>
          (try split at e1) <;> (try (cases e1; done)) <;>
          simp only [Option.some.injEq, Prod.mk.injEq] at e1 <;> obtain ⟨rfl, rfl⟩ := e1
        · exact (hp _).nodup_iff.2 hc
        · exact hd.sublist (hsub _)
        · exact hc
        · exact hpb.nodup_iff.2 hc
        · exact hd.sublist (List.drop_sublist _ _)
        · exact hd.sublist (List.take_sublist _ _)
        · exact hd
        · exact hd
        · exact hd
        · exact hd
        · exact hd
        · simp
        · exact hd
        · exact hd

theorem listHeight_orders (ops : List (SeqOp V)) (n : Nat) (G : List Nat)
    (hs : slots 0 [] ops = some (n, G)) (ps : List Nat) (hp : ps.Nodup) (hl : ps.length = n) :
    ∃ ord : List Nat → List Nat, (ps.permutations.map ord).Perm (List.range n).permutations ∧
      ∀ qs ∈ ps.permutations, listHeight ops qs =
        orderHeight (fun i => G.idxOf i) ((ord qs).filter fun i => decide (i ∈ G)) := by
  obtain ⟨hlt, hnd⟩ := slots_sub ops 0 [] n G (by simp) (by simp) hs
  obtain ⟨ord, h1, h2⟩ := orders (List.range n) ps List.nodup_range hp (by simp [hl])
    (fun qs i => qs.getD i 0) (fun qs h => by
      rw [List.length_range] at h
      apply List.ext_getElem
      · simp [h]
      · intro i h1 h2; simp [h2])
  refine ⟨ord, h2, fun qs hq => ?_⟩
  obtain ⟨g1, g2⟩ := h1 qs hq
  obtain ⟨h3, _⟩ := run_inv (fun i => qs.getD i 0) ops 0 [] (TreapList.new : TreapList V)
    ⟨⟨0, trivial⟩, rfl⟩
  obtain ⟨s, e1, ⟨b, hb⟩, hG⟩ := h3 n G hs
  have e2 : afterList ops qs = some s := e1
  have hr : listHeight ops qs = depth s.tree := by unfold listHeight; rw [e2]; rfl
  rw [hr, ← depth_positions 0]
  have hmem : ∀ j q, (j, q) ∈ keyPrios (positions 0 s.tree) ↔ (prios s.tree)[j]? = some q := by
    intro j q
    rw [kp_positions, List.mem_map]
    constructor
    · rintro ⟨⟨x, y⟩, hx, e⟩
      simp only [Prod.swap, Prod.mk.injEq] at e
      obtain ⟨rfl, rfl⟩ := e
      exact List.mem_zipIdx_iff_getElem?.1 hx
    · intro h
      exact ⟨(q, j), List.mem_zipIdx_iff_getElem?.2 h, rfl⟩
  refine depth_eq (fun i => G.idxOf i) (fun i => qs.getD i 0) _ _ (wf_positions 0 hb)
    (sorted_positions 0 _) (g2.filter _) ?_ ?_
  · rintro ⟨j, q⟩ he
    rw [hmem, hG, List.getElem?_map] at he
    cases hj : G[j]? with
    | none => rw [hj] at he; cases he
    | some i =>
      rw [hj] at he
      simp only [Option.map_some, Option.some.injEq] at he
      obtain ⟨hjl, hji⟩ := List.getElem?_eq_some_iff.1 hj
      have hiG : i ∈ G := hji ▸ List.getElem_mem hjl
      refine ⟨i, ?_, ?_, he⟩
      · simp [g1.mem_iff, hiG, hlt i hiG]
      · show G.idxOf i = j
        rw [← hji]; exact hnd.idxOf_getElem j hjl
  · intro i hi
    simp only [List.mem_filter, decide_eq_true_eq] at hi
    refine ⟨qs.getD i 0, ?_, le_refl _⟩
    rw [hmem, hG, List.getElem?_map, List.getElem?_idxOf hi.2]
    rfl

/-- **C54, lists: expected height.** Take any history of calls on a new `TreapList` that does not panic and any
distinct numbers, one per insertion.  Over all orders in which they can be drawn, the average height of the tree
is at most three times the binary logarithm (rounded up) of the length plus two. -/
theorem C54_list_expected_height (ops : List (SeqOp V)) (n : Nat) (G : List Nat)
    (hs : slots 0 [] ops = some (n, G)) (ps : List Nat) (hp : ps.Nodup) (hl : ps.length = n) :
    (ps.permutations.map fun qs => 2 ^ listHeight ops qs).sum ≤
        ps.permutations.length * (G.length + 3).choose 3 ∧
    (ps.permutations.map (listHeight ops)).sum ≤
      ps.permutations.length * (3 * Nat.clog 2 (G.length + 2)) := by
  have key : (ps.permutations.map fun qs => 2 ^ listHeight ops qs).sum ≤
      ps.permutations.length * (G.length + 3).choose 3 := by
    obtain ⟨ord, h1, h2⟩ := listHeight_orders ops n G hs ps hp hl
    have e1 : (ps.permutations.map fun qs => 2 ^ listHeight ops qs) =
        (ps.permutations.map ord).map fun l => 2 ^ orderHeight (fun i => G.idxOf i)
          (l.filter fun x => decide (x ∈ G)) := by
      rw [List.map_map]
      exact List.map_congr_left fun qs hq => by rw [h2 qs hq]; rfl
    rw [e1, (h1.map _).sum_eq]
    refine le_trans (sum_two_pow (fun i => G.idxOf i) _ _ List.nodup_range rfl _) ?_
    rw [List.length_permutations, hl, List.length_range]
    refine Nat.mul_le_mul_left _ (Nat.choose_le_choose 3 (Nat.add_le_add_right ?_ 3))
    rw [List.countP_eq_length_filter]
    refine (List.subperm_of_subset (List.nodup_range.filter _) ?_).length_le
    intro x hx
    simpa using (List.mem_filter.1 hx).2
  exact ⟨key, sum_le_of_two_pow _ _ _ _ (choose_le_pow _) key⟩

/-! ### Instances -/

/-- A history with an insertion in the middle, a removal and a write. -/
def sampleListOps : List (SeqOp Nat) :=
  [.pushBack 1, .pushBack 2, .pushFront 0, .insert 2 7, .remove 1, .getMut 1 (· + 1), .popBack, .pushBack 5]

example : slots 0 [] sampleListOps = some (5, [2, 3, 4]) ∧ [8, 3, 5, 1, 9].Nodup ∧
    listHeight sampleListOps [8, 3, 5, 1, 9] = 3 ∧ listHeight sampleListOps [8, 3, 1, 9, 5] = 2 := by decide

example : slots 0 [] ([.pushBack 1, .remove 1] : List (SeqOp Nat)) = none := by decide

end Verif.Treap.Implicit
