/- The height of a `TreapMap` over all orders of the drawn priorities.  Documentation claim: treap/map.rs:14-15
"By randomly generating priorities, the expected height of the tree is proportional to the logarithm of the
number of keys". -/
import Verif.Treap.Props
import Verif.Spec.TreeShape
import Verif.Lib.Perms
import Mathlib.Data.Nat.Log
import Mathlib.Algebra.BigOperators.Ring.List
import Mathlib.Tactic.Tauto

namespace Verif.Treap

open Verif.Bst Verif.Spec Verif.SL Verif.Perms

variable {K V : Type} [LinearOrder K]

/-! ### Vocabulary -/

/-- A history in which the `i`-th call of `insert` draws the number `P i` (treap/map.rs:81); the other calls
draw nothing. -/
def assign (P : Nat → Nat) : Nat → List (MapOp K V) → List (MapOp K V × Nat)
  | _, [] => []
  | n, .insert k v :: ops => (.insert k v, P n) :: assign P (n + 1) ops
  | n, op :: ops => (op, 0) :: assign P n ops

/-- The history `ops` in which the calls of `insert` draw the numbers of the list `qs`, in this order. -/
def withDraws (qs : List Nat) (ops : List (MapOp K V)) : List (MapOp K V × Nat) :=
  assign (fun i => qs.getD i 0) 0 ops

/-- The keys given to the calls of `insert`. -/
def inserted : List (MapOp K V) → List K
  | [] => []
  | .insert k _ :: ops => k :: inserted ops
  | _ :: ops => inserted ops

/-- The calls of `insert` (key and number of the call) whose key has not been removed since. -/
def live : Nat → List (K × Nat) → List (MapOp K V) → List (K × Nat)
  | _, L, [] => L
  | n, L, .insert k _ :: ops => live (n + 1) ((k, n) :: L) ops
  | n, L, .remove k :: ops => live n (L.filter fun e => e.1 ≠ k) ops
  | n, _, .clear :: ops => live n [] ops
  | n, L, _ :: ops => live n L ops

/-- How many calls of `insert` concern a key that has not been removed since.  This is the size of the map
if no call overwrote a value (`C54_live_eq_len`). -/
def liveInserts (ops : List (MapOp K V)) : Nat := (live 0 [] ops).length

/-- The map after the history `ops` with draws `qs`. -/
def after (ops : List (MapOp K V)) (qs : List Nat) : Option (TreapMap K V) :=
  ((impl K V).run TreapMap.new (withDraws qs ops)).map (·.1)

/-- The height of the tree after the history `ops` with draws `qs` (no history fails: `C54_total`). -/
def heightAfter (ops : List (MapOp K V)) (qs : List Nat) : Nat :=
  ((after ops qs).map fun s => depth s.tree).getD 0

/-- The number of keys `get(&k)` compares with after the history `ops` with draws `qs`. -/
def getCostAfter (k : K) (ops : List (MapOp K V)) (qs : List Nat) : Nat :=
  ((after ops qs).map fun s => searchCost s.tree k).getD 0

/-! ### Keys and priorities under the operations -/

section

omit [LinearOrder K]

theorem keyPrios_mk (p : Nat) (l : TTree K V) (k : K) (v : V) (r : TTree K V) :
    keyPrios (mk p l k v r) = keyPrios l ++ (k, p) :: keyPrios r := rfl

theorem keyPrios_node (a : Ann) (l : TTree K V) (k : K) (v : V) (r : TTree K V) :
    keyPrios (.node a l k v r) = keyPrios l ++ (k, a.prio) :: keyPrios r := rfl

theorem keyPrios_merge (l r : TTree K V) : keyPrios (merge l r) = keyPrios l ++ keyPrios r := by
  induction l generalizing r with
  | nil => simp [keyPrios]
  | node a ll k v lr ihl ihr =>
    induction r with
    | nil => simp [keyPrios]
    | node b rl x w rr jhl jhr =>
      rw [merge_node_node]
      split
      · simp [keyPrios_mk, keyPrios_node, ihr]
      · simp [keyPrios_mk, keyPrios_node, jhl]

theorem key_mem {t : TTree K V} {e : K × Nat} (h : e ∈ keyPrios t) : ∃ v, (e.1, v) ∈ t.toList := by
  have h1 : e.1 ∈ (keyPrios t).map (·.1) := List.mem_map_of_mem h
  rw [keyPrios_keys] at h1
  obtain ⟨x, hx, e1⟩ := List.mem_map.1 h1
  exact ⟨x.2, by rw [← e1]; exact hx⟩

theorem mem_key {t : TTree K V} {x : K × V} (h : x ∈ t.toList) : ∃ q, (x.1, q) ∈ keyPrios t := by
  have h1 : x.1 ∈ t.toList.map (·.1) := List.mem_map_of_mem h
  rw [← keyPrios_keys] at h1
  obtain ⟨e, he, e1⟩ := List.mem_map.1 h1
  exact ⟨e.2, by rw [← e1]; exact he⟩

end

theorem kp_sorted {a : Ann} {l r : TTree K V} {k : K} {v : V}
    (hs : Sorted (Bst.Tree.node a l k v r).toList) : Sorted l.toList ∧ Sorted r.toList ∧
      (∀ e ∈ keyPrios l, e.1 < k) ∧ (∀ e ∈ keyPrios r, k < e.1) := by
  rw [Tree.toList_node] at hs
  obtain ⟨s1, s2, s3, s4⟩ := sorted_mid.1 hs
  refine ⟨s1, s2, fun e he => ?_, fun e he => ?_⟩
  · obtain ⟨v, hv⟩ := key_mem he; exact s3 _ hv
  · obtain ⟨v, hv⟩ := key_mem he; exact s4 _ hv

theorem prop_left {A B L c R n : Prop} (ih : (A ∨ B) ↔ (L ∧ n)) (hR : R → n) (hc : c → n) :
    (A ∨ B ∨ c ∨ R) ↔ (L ∨ c ∨ R) ∧ n := by tauto

theorem prop_right {A B L c R n : Prop} (ih : (A ∨ B) ↔ (R ∧ n)) (hL : L → n) (hc : c → n) :
    ((L ∨ c ∨ A) ∨ B) ↔ (L ∨ c ∨ R) ∧ n := by tauto

theorem prop_left' {A L c R n : Prop} (ih : A ↔ (L ∧ n)) (hR : R → n) (hc : c → n) :
    (A ∨ c ∨ R) ↔ (L ∨ c ∨ R) ∧ n := by tauto

theorem prop_right' {A L c R n : Prop} (ih : A ↔ (R ∧ n)) (hL : L → n) (hc : c → n) :
    (L ∨ c ∨ A) ↔ (L ∨ c ∨ R) ∧ n := by tauto

theorem prop_mid {L c R n : Prop} (hL : L → n) (hR : R → n) (hc : n → ¬ c) :
    (L ∨ R) ↔ (L ∨ c ∨ R) ∧ n := by tauto

theorem mem_split (key : K) (t : TTree K V) (hs : Sorted t.toList) (e : K × Nat) :
    (e ∈ keyPrios (split key t).1 ∨ e ∈ keyPrios (split key t).2.2) ↔ e ∈ keyPrios t ∧ e.1 ≠ key := by
  induction t with
  | nil => simp [split, keyPrios]
  | node a l k v r ihl ihr =>
    obtain ⟨s1, s2, s3, s4⟩ := kp_sorted hs
    have ihl := ihl s1
    have ihr := ihr s2
    have a3 := s3 e
    have a4 := s4 e
    unfold split
    split
    · rename_i hk
      simp only [keyPrios_mk, keyPrios_node, List.mem_append, List.mem_cons]
      have n4 : e ∈ keyPrios r → e.1 ≠ key := fun h => (lt_trans hk (a4 h)).ne'
      have n0 : e = (k, a.prio) → e.1 ≠ key := by rintro rfl; exact hk.ne'
      exact prop_left ihl n4 n0
    · split
      · rename_i hk
        simp only [keyPrios_mk, keyPrios_node, List.mem_append, List.mem_cons]
        have n3 : e ∈ keyPrios l → e.1 ≠ key := fun h => (lt_trans (a3 h) hk).ne
        have n0 : e = (k, a.prio) → e.1 ≠ key := by rintro rfl; exact hk.ne
        exact prop_right ihr n3 n0
      · rename_i h1 h2
        have : k = key := le_antisymm (not_lt.1 h1) (not_lt.1 h2)
        subst this
        simp only [keyPrios_node, List.mem_append, List.mem_cons]
        have n3 : e ∈ keyPrios l → e.1 ≠ k := fun h => (a3 h).ne
        have n4 : e ∈ keyPrios r → e.1 ≠ k := fun h => (a4 h).ne'
        have n0 : e.1 ≠ k → e ≠ (k, a.prio) := by rintro h rfl; exact h rfl
        exact prop_mid n3 n4 n0

theorem insert_kp {b p : Nat} {key : K} {v : V} {t : TTree K V} (hw : Wf b t) (hs : Sorted t.toList) :
    (∀ e ∈ keyPrios (insert p key v t).1, e ∈ keyPrios t ∨ e = (key, p)) ∧
    (∀ e ∈ keyPrios t, ∃ q, (e.1, q) ∈ keyPrios (insert p key v t).1 ∧ e.2 ≤ q) ∧
    (∃ q, (key, q) ∈ keyPrios (insert p key v t).1 ∧ p ≤ q) := by
  induction t generalizing b with
  | nil => simp [insert, keyPrios]
  | node a l k w r ihl ihr =>
    obtain ⟨s1, s2, s3, s4⟩ := kp_sorted hs
    have hw' := hw
    rw [wf_node] at hw'
    obtain ⟨w1, w2, w3, w4⟩ := hw'
    unfold insert
    split
    · rename_i hp
      split
      · obtain ⟨i1, i2, i3⟩ := ihl w3 s1
        simp only [keyPrios_mk, keyPrios_node, List.mem_append, List.mem_cons]
        refine ⟨?_, ?_, ?_⟩
        · rintro e (he | rfl | he)
          · rcases i1 e he with h | h <;> tauto
          · tauto
          · tauto
        · rintro e (he | rfl | he)
          · obtain ⟨q, h1, h2⟩ := i2 e he; exact ⟨q, .inl h1, h2⟩
          · exact ⟨a.prio, by simp, le_refl _⟩
          · exact ⟨e.2, .inr (.inr he), le_refl _⟩
        · obtain ⟨q, h1, h2⟩ := i3; exact ⟨q, .inl h1, h2⟩
      · split
        · obtain ⟨i1, i2, i3⟩ := ihr w4 s2
          simp only [keyPrios_mk, keyPrios_node, List.mem_append, List.mem_cons]
          refine ⟨?_, ?_, ?_⟩
          · rintro e (he | rfl | he)
            · tauto
            · tauto
            · rcases i1 e he with h | h <;> tauto
          · rintro e (he | rfl | he)
            · exact ⟨e.2, .inl he, le_refl _⟩
            · exact ⟨a.prio, by simp, le_refl _⟩
            · obtain ⟨q, h1, h2⟩ := i2 e he; exact ⟨q, .inr (.inr h1), h2⟩
          · obtain ⟨q, h1, h2⟩ := i3; exact ⟨q, .inr (.inr h1), h2⟩
        · rename_i h1 h2
          have : k = key := le_antisymm (not_lt.1 h1) (not_lt.1 h2)
          subst this
          simp only [keyPrios_node, List.mem_append, List.mem_cons]
          refine ⟨fun e he => .inl he, fun e he => ⟨e.2, he, le_refl _⟩, a.prio, by simp, hp⟩
    · rename_i hp
      have hm := mem_split key _ hs
      simp only [insertAbove, keyPrios_mk]
      refine ⟨?_, ?_, ?_⟩
      · intro e he
        rw [List.mem_append, List.mem_cons] at he
        rcases he with he | rfl | he
        · exact .inl ((hm e).1 (.inl he)).1
        · exact .inr rfl
        · exact .inl ((hm e).1 (.inr he)).1
      · intro e he
        by_cases hk : e.1 = key
        · refine ⟨p, by rw [hk]; simp, ?_⟩
          have := wf_of_heapOrdered_aux (b := a.prio) (heapOrdered_of_wf hw).1 (by simp [rootPrio]) e he
          omega
        · refine ⟨e.2, ?_, le_refl _⟩
          rw [List.mem_append, List.mem_cons]
          rcases (hm e).2 ⟨he, hk⟩ with h | h
          · exact .inl h
          · exact .inr (.inr h)
      · exact ⟨p, by simp, le_refl _⟩

theorem remove_kp (key : K) (t : TTree K V) (hs : Sorted t.toList) (e : K × Nat) :
    e ∈ keyPrios (remove key t).1 ↔ e ∈ keyPrios t ∧ e.1 ≠ key := by
  induction t with
  | nil => simp [remove, keyPrios]
  | node a l k v r ihl ihr =>
    obtain ⟨s1, s2, s3, s4⟩ := kp_sorted hs
    have ihl := ihl s1
    have ihr := ihr s2
    have a3 := s3 e
    have a4 := s4 e
    unfold remove
    split
    · rename_i hk
      simp only [keyPrios_mk, keyPrios_node, List.mem_append, List.mem_cons]
      have n4 : e ∈ keyPrios r → e.1 ≠ key := fun h => (lt_trans hk (a4 h)).ne'
      have n0 : e = (k, a.prio) → e.1 ≠ key := by rintro rfl; exact hk.ne'
      exact prop_left' ihl n4 n0
    · split
      · rename_i hk
        simp only [keyPrios_mk, keyPrios_node, List.mem_append, List.mem_cons]
        have n3 : e ∈ keyPrios l → e.1 ≠ key := fun h => (lt_trans (a3 h) hk).ne
        have n0 : e = (k, a.prio) → e.1 ≠ key := by rintro rfl; exact hk.ne
        exact prop_right' ihr n3 n0
      · rename_i h1 h2
        have : k = key := le_antisymm (not_lt.1 h1) (not_lt.1 h2)
        subst this
        simp only [keyPrios_merge, keyPrios_node, List.mem_append, List.mem_cons]
        have n3 : e ∈ keyPrios l → e.1 ≠ k := fun h => (a3 h).ne
        have n4 : e ∈ keyPrios r → e.1 ≠ k := fun h => (a4 h).ne'
        have n0 : e.1 ≠ k → e ≠ (k, a.prio) := by rintro h rfl; exact h rfl
        exact prop_mid n3 n4 n0

theorem getMut_kp (key : K) (f : V → V) (t : TTree K V) : keyPrios (t.getMut key f).2 = keyPrios t := by
  induction t with
  | nil => simp [Tree.getMut]
  | node a l k v r ihl ihr =>
    unfold Tree.getMut
    split
    · simp [keyPrios_node, ihl]
    · split
      · simp [keyPrios_node, ihr]
      · simp [keyPrios_node]

/-! ### The height is that of the order of the live draws -/

theorem depth_eq {ι : Type} (κ : ι → K) (π : ι → Nat) {b : Nat} (t : TTree K V) (L : List ι) (hw : Wf b t)
    (hs : Sorted t.toList) (hL : L.Pairwise fun x y => π y < π x)
    (h1 : ∀ e ∈ keyPrios t, ∃ i ∈ L, κ i = e.1 ∧ π i = e.2)
    (h2 : ∀ i ∈ L, ∃ q, (κ i, q) ∈ keyPrios t ∧ π i ≤ q) : depth t = orderHeight κ L := by
  induction t generalizing L b with
  | nil =>
    cases L with
    | nil => rw [orderHeight_nil]; rfl
    | cons y L => obtain ⟨q, h, _⟩ := h2 y (by simp); simp [keyPrios] at h
  | node a l k v r ihl ihr =>
    cases L with
    | nil => obtain ⟨i, h, _⟩ := h1 (k, a.prio) (by simp [keyPrios]); simp at h
    | cons y L =>
      obtain ⟨s1, s2, s3, s4⟩ := kp_sorted hs
      have ho := (heapOrdered_of_wf hw).1
      have hw' := hw
      rw [wf_node] at hw'
      obtain ⟨w1, w2, w3, w4⟩ := hw'
      rw [List.pairwise_cons] at hL
      obtain ⟨hy, hL⟩ := hL
      have hky : κ y = k := by
        obtain ⟨q, g1, g2⟩ := h2 y (by simp)
        have g3 := wf_of_heapOrdered_aux (b := a.prio) ho (by simp [rootPrio]) _ g1
        obtain ⟨i, i1, i2, i3⟩ := h1 (k, a.prio) (by simp [keyPrios])
        rcases List.mem_cons.1 i1 with rfl | i1
        · exact i2
        · have := hy i i1
          simp only at g3 i3
          omega
      rw [depth, orderHeight_cons, Nat.add_comm]
      have el := ihl (L.filter fun z => decide (κ z < κ y)) w3 s1 (hL.filter _) ?_ ?_
      have er := ihr (L.filter fun z => decide (κ y < κ z)) w4 s2 (hL.filter _) ?_ ?_
      · rw [el, er]
      · intro e he
        obtain ⟨i, i1, i2, i3⟩ := h1 e (by simp [keyPrios, he])
        have := s4 e he
        rcases List.mem_cons.1 i1 with rfl | i1
        · rw [← i2, hky] at this; exact absurd this (lt_irrefl _)
        · exact ⟨i, by simp [i1, hky, i2, this], i2, i3⟩
      · intro i hi
        simp only [List.mem_filter, decide_eq_true_eq, hky] at hi
        obtain ⟨q, g1, g2⟩ := h2 i (by simp [hi.1])
        refine ⟨q, ?_, g2⟩
        rw [keyPrios_node, List.mem_append, List.mem_cons] at g1
        rcases g1 with g | g | g
        · exact absurd (s3 _ g) (lt_asymm hi.2)
        · rw [Prod.mk.injEq] at g; rw [g.1] at hi; exact absurd hi.2 (lt_irrefl _)
        · exact g
      · intro e he
        obtain ⟨i, i1, i2, i3⟩ := h1 e (by simp [keyPrios, he])
        have := s3 e he
        rcases List.mem_cons.1 i1 with rfl | i1
        · rw [← i2, hky] at this; exact absurd this (lt_irrefl _)
        · exact ⟨i, by simp [i1, hky, i2, this], i2, i3⟩
      · intro i hi
        simp only [List.mem_filter, decide_eq_true_eq, hky] at hi
        obtain ⟨q, g1, g2⟩ := h2 i (by simp [hi.1])
        refine ⟨q, ?_, g2⟩
        rw [keyPrios_node, List.mem_append, List.mem_cons] at g1
        rcases g1 with g | g | g
        · exact g
        · rw [Prod.mk.injEq] at g; rw [g.1] at hi; exact absurd hi.2 (lt_irrefl _)
        · exact absurd (s4 _ g) (lt_asymm hi.2)

/-- The tree `t` holds, for every key with a live call, the largest number drawn by such a call. -/
structure Inv (P : Nat → Nat) (G : List (K × Nat)) (t : TTree K V) : Prop where
  sorted : Sorted t.toList
  wf : ∃ b, Wf b t
  mem : ∀ e ∈ keyPrios t, ∃ i, (e.1, i) ∈ G ∧ P i = e.2
  le : ∀ x ∈ G, ∃ q, (x.1, q) ∈ keyPrios t ∧ P x.2 ≤ q

/-- The run of a history (`MapImpl.run`), with the types spelled out. -/
def runT (s : TreapMap K V) (ops : List (MapOp K V × Nat)) :
    Option (TreapMap K V × List (MapOp K V × MapRes K V)) := (impl K V).run s ops

theorem run_cons {s s₁ : TreapMap K V} {op : MapOp K V} {d : Nat} {r : MapRes K V}
    {ops : List (MapOp K V × Nat)} (h : step s op d = some (s₁, r)) :
    runT s ((op, d) :: ops) = (runT s₁ ops).map fun q => (q.1, (op, r) :: q.2) := by
  have h' : (impl K V).step s op d = some (s₁, r) := h
  unfold runT
  show ((impl K V).step s op d).bind _ = _
  rw [h']
  show ((impl K V).run s₁ ops).bind _ = _
  cases (impl K V).run s₁ ops <;> rfl

theorem inv_run (P : Nat → Nat) (ops : List (MapOp K V)) : ∀ (n : Nat) (G : List (K × Nat))
    (s : TreapMap K V), Inv P G s.tree → ∃ s' h, runT s (assign P n ops) = some (s', h) ∧
      Inv P (live n G ops) s'.tree := by
  induction ops with
  | nil => intro n G s h; exact ⟨s, [], rfl, h⟩
  | cons op ops ih =>
    intro n G s h
    have go : ∀ s₁ r G', step s op 0 = some (s₁, r) → Inv P G' s₁.tree → ∃ s' h,
        runT s ((op, 0) :: assign P n ops) = some (s', h) ∧ Inv P (live n G' ops) s'.tree := by
      intro s₁ r G' hr hI
      obtain ⟨s', h', e, hi⟩ := ih n G' s₁ hI
      exact ⟨s', (op, r) :: h', by rw [run_cons hr, e]; rfl, hi⟩
    have same : ∀ r, step s op 0 = some (s, r) → ∃ s' h, runT s ((op, 0) :: assign P n ops) =
        some (s', h) ∧ Inv P (live n G ops) s'.tree := fun r hr => go s r G hr h
    obtain ⟨hs, ⟨b, hb⟩, hm, hl⟩ := h
    cases op with
    | insert k v =>
      obtain ⟨i1, i2, i3⟩ := insert_kp (p := P n) (key := k) (v := v) hb hs
      have hI : Inv P ((k, n) :: G) (⟨(insert (P n) k v s.tree).1⟩ : TreapMap K V).tree := by
        refine ⟨?_, ⟨max b (P n), wf_insert (le_max_right _ _) (hb.mono (le_max_left _ _))⟩, ?_, ?_⟩
        · show Sorted (insert (P n) k v s.tree).1.toList
          rw [(insert_spec (P n) k v s.tree hs).1]
          exact sorted_ins hs
        · intro e he
          rcases i1 e he with h | rfl
          · obtain ⟨i, g1, g2⟩ := hm e h; exact ⟨i, List.mem_cons_of_mem _ g1, g2⟩
          · exact ⟨n, by simp, rfl⟩
        · intro x hx
          rcases List.mem_cons.1 hx with rfl | hx
          · exact i3
          · obtain ⟨q, g1, g2⟩ := hl x hx
            obtain ⟨q', g3, g4⟩ := i2 _ g1
            exact ⟨q', g3, le_trans g2 g4⟩
      obtain ⟨s', h', e, hi⟩ := ih (n + 1) _ _ hI
      exact ⟨s', _, by rw [assign, run_cons (s₁ := ⟨(insert (P n) k v s.tree).1⟩) rfl, e]; rfl, hi⟩
    | remove k =>
      have hk := remove_kp k s.tree hs
      have hI : Inv P (G.filter fun e => e.1 ≠ k) (⟨(remove k s.tree).1⟩ : TreapMap K V).tree := by
        refine ⟨?_, ⟨b, wf_remove hb⟩, ?_, ?_⟩
        · show Sorted (remove k s.tree).1.toList
          rw [(remove_spec k s.tree hs).1]
          exact sorted_del hs
        · intro e he
          obtain ⟨g1, g2⟩ := (hk e).1 he
          obtain ⟨i, g3, g4⟩ := hm e g1
          exact ⟨i, by simp [g3, g2], g4⟩
        · intro x hx
          simp only [ne_eq, List.mem_filter, decide_eq_true_eq, decide_not, Bool.not_eq_eq_eq_not,
            Bool.not_true, decide_eq_false_iff_not] at hx
          obtain ⟨q, g1, g2⟩ := hl x hx.1
          exact ⟨q, (hk _).2 ⟨g1, hx.2⟩, g2⟩
      exact go _ _ _ rfl hI
    | getMut k f =>
      have hI : Inv P G (⟨(s.tree.getMut k f).2⟩ : TreapMap K V).tree := by
        refine ⟨?_, ⟨b, (wf_getMut hb).1⟩, ?_, ?_⟩
        · show Sorted (s.tree.getMut k f).2.toList
          rw [Tree.getMut_snd _ _ _ hs]
          exact sorted_next hs (.getMut k f)
        · show ∀ e ∈ keyPrios (s.tree.getMut k f).2, _
          rw [getMut_kp]; exact hm
        · show ∀ x ∈ G, ∃ q, (x.1, q) ∈ keyPrios (s.tree.getMut k f).2 ∧ _
          rw [getMut_kp]; exact hl
      exact go _ _ _ rfl hI
    | clear =>
      have hI : Inv P [] (⟨.nil⟩ : TreapMap K V).tree :=
        ⟨by simp [Sorted], ⟨0, trivial⟩, by simp [keyPrios], by simp⟩
      exact go _ _ _ rfl hI
    | get k => exact same _ rfl
    | containsKey k => exact same _ rfl
    | floor k => exact same _ rfl
    | ceil k => exact same _ rfl
    | min => exact same _ rfl
    | max => exact same _ rfl
    | len => exact same _ rfl
    | isEmpty => exact same _ rfl
    | iter => exact same _ rfl

theorem live_sub (ops : List (MapOp K V)) : ∀ n (G T : List (K × Nat)), G ⊆ T →
    live n G ops ⊆ T ++ (inserted ops).zipIdx n := by
  induction ops with
  | nil => intro n G T h; simpa [live, inserted] using h
  | cons op ops ih =>
    intro n G T h
    cases op with
    | insert k v =>
      have := ih (n + 1) ((k, n) :: G) (T ++ [(k, n)]) (by
        intro x hx
        rcases List.mem_cons.1 hx with rfl | hx
        · simp
        · simp [h hx])
      simpa [live, inserted, List.zipIdx_cons] using this
    | remove k => exact ih n _ T (fun x hx => h (List.mem_of_mem_filter hx))
    | clear => exact ih n _ T (by simp)
    | _ => exact ih n _ T h

theorem zipIdx_map (l : List K) (qs : List Nat) (h : qs.length = l.length) :
    l.zipIdx.map (fun x => qs.getD x.2 0) = qs := by
  apply List.ext_getElem
  · simp [h]
  · intro i h1 h2
    simp [h2]

omit [LinearOrder K] in
theorem nodup_zipIdx (l : List K) : l.zipIdx.Nodup := by
  apply List.Nodup.of_map (fun x : K × Nat => x.2)
  have : l.zipIdx.map (fun x => x.2) = List.range l.length := by
    apply List.ext_getElem <;> simp
  rw [this]
  exact List.nodup_range

/-- What a history does to the height: there is a list of the insert calls (one for every way to give out
the draws, each order once) whose live part determines the height. -/
theorem height_orders (ops : List (MapOp K V)) (ps : List Nat) (hp : ps.Nodup)
    (hl : ps.length = (inserted ops).length) :
    ∃ ord : List Nat → List (K × Nat), (ps.permutations.map ord).Perm (inserted ops).zipIdx.permutations ∧
      ∀ qs ∈ ps.permutations, heightAfter ops qs =
        orderHeight (fun x : K × Nat => x.1) ((ord qs).filter fun x => decide (x ∈ live 0 [] ops)) := by
  have hT : ((inserted ops).zipIdx).Nodup := nodup_zipIdx _
  obtain ⟨ord, h1, h2⟩ := orders (inserted ops).zipIdx ps hT hp (by simp [hl])
    (fun qs x => qs.getD x.2 0) (fun qs h => zipIdx_map _ qs (by simpa using h))
  refine ⟨ord, h2, fun qs hq => ?_⟩
  obtain ⟨g1, g2⟩ := h1 qs hq
  obtain ⟨s, h, e, hi⟩ := inv_run (fun i => qs.getD i 0) ops 0 [] (TreapMap.new : TreapMap K V)
    ⟨by simp [Sorted, TreapMap.new], ⟨0, trivial⟩, by simp [TreapMap.new, keyPrios], by simp⟩
  have hr : heightAfter ops qs = depth s.tree := by
    have : after ops qs = some s := by
      show (runT TreapMap.new (assign (fun i => qs.getD i 0) 0 ops)).map (·.1) = some s
      rw [e]; rfl
    unfold heightAfter
    rw [this]; rfl
  obtain ⟨b, hb⟩ := hi.wf
  have hsub : live 0 [] ops ⊆ (inserted ops).zipIdx := by
    simpa using live_sub ops 0 [] [] (by simp)
  rw [hr]
  refine depth_eq (fun x : K × Nat => x.1) (fun x => qs.getD x.2 0) s.tree _ hb hi.sorted
    (g2.filter _) ?_ ?_
  · intro e he
    obtain ⟨i, i1, i2⟩ := hi.mem e he
    exact ⟨(e.1, i), by simp [i1, g1.mem_iff, hsub i1], rfl, i2⟩
  · intro x hx
    simp only [List.mem_filter, decide_eq_true_eq] at hx
    exact hi.le x hx.2

/-! ### Theorems -/

/-- No history fails, whatever is drawn. -/
theorem C54_total (ops : List (MapOp K V)) (qs : List Nat) : ∃ s h,
    (impl K V).run TreapMap.new (withDraws qs ops) = some (s, h) ∧ after ops qs = some s ∧
      heightAfter ops qs = depth s.tree := by
  obtain ⟨s, h, e, _⟩ := inv_run (fun i => qs.getD i 0) ops 0 [] (TreapMap.new : TreapMap K V)
    ⟨by simp [Sorted, TreapMap.new], ⟨0, trivial⟩, by simp [TreapMap.new, keyPrios], by simp⟩
  have e1 : after ops qs = some s := by
    show (runT TreapMap.new (assign (fun i => qs.getD i 0) 0 ops)).map (·.1) = some s
    rw [e]; rfl
  exact ⟨s, h, e, e1, by unfold heightAfter; rw [e1]; rfl⟩

theorem sum_two_pow_height (ops : List (MapOp K V)) (ps : List Nat) (hp : ps.Nodup)
    (hl : ps.length = (inserted ops).length) :
    (ps.permutations.map fun qs => 2 ^ heightAfter ops qs).sum ≤
      ps.permutations.length * (liveInserts ops + 3).choose 3 := by
  obtain ⟨ord, h1, h2⟩ := height_orders ops ps hp hl
  have e1 : (ps.permutations.map fun qs => 2 ^ heightAfter ops qs) =
      (ps.permutations.map ord).map fun l => 2 ^ orderHeight (fun x : K × Nat => x.1)
        (l.filter fun x => decide (x ∈ live 0 [] ops)) := by
    rw [List.map_map]
    exact List.map_congr_left fun qs hq => by rw [h2 qs hq]; rfl
  have hT : ((inserted ops).zipIdx).Nodup := nodup_zipIdx _
  rw [e1, (h1.map _).sum_eq]
  refine le_trans (sum_two_pow (fun x : K × Nat => x.1) _ _ hT rfl _) ?_
  rw [List.length_permutations, hl, List.length_zipIdx]
  refine Nat.mul_le_mul_left _ (Nat.choose_le_choose 3 (Nat.add_le_add_right ?_ 3))
  rw [List.countP_eq_length_filter]
  refine (List.subperm_of_subset (hT.filter _) ?_).length_le
  intro x hx
  simpa using (List.mem_filter.1 hx).2

theorem choose_le_pow (m : Nat) : (m + 3).choose 3 ≤ 2 ^ (3 * Nat.clog 2 (m + 2)) := by
  have h1 : (m + 3).choose 3 ≤ (m + 2) ^ 3 := by
    induction m with
    | zero => decide
    | succ m ih =>
      rw [show m + 1 + 3 = (m + 3) + 1 by omega, Nat.choose_succ_succ' (m + 3) 2]
      have h2 : (m + 3).choose 2 = (m + 3) * (m + 2) / 2 := Nat.choose_two_right _
      have h3 : (m + 3) * (m + 2) / 2 ≤ (m + 3) * (m + 2) := Nat.div_le_self _ _
      rw [h2]
      simp only [Nat.reduceAdd]
      have : (m + 1 + 2) ^ 3 = (m + 2) ^ 3 + (3 * (m + 2) ^ 2 + 3 * (m + 2) + 1) := by ring
      nlinarith
  refine le_trans h1 ?_
  rw [Nat.mul_comm, Nat.pow_mul]
  exact Nat.pow_le_pow_left (Nat.le_pow_clog (by omega) _) 3

theorem sum_le_of_two_pow {β : Type} (l : List β) (f : β → Nat) (B c : Nat) (hB : B ≤ 2 ^ c)
    (h : (l.map fun x => 2 ^ f x).sum ≤ l.length * B) : (l.map f).sum ≤ l.length * c := by
  have h1 : ∀ x, f x * 2 ^ c + 2 ^ c ≤ 2 ^ f x + c * 2 ^ c := by
    intro x
    rcases le_total c (f x) with h | h
    · obtain ⟨d, hd⟩ := Nat.exists_eq_add_of_le h
      rw [hd, Nat.pow_add]
      have := Nat.succ_le_of_lt (Nat.lt_two_pow_self (n := d))
      have := Nat.mul_le_mul_left (2 ^ c) this
      nlinarith
    · obtain ⟨d, hd⟩ := Nat.exists_eq_add_of_le h
      rcases Nat.eq_zero_or_pos d with rfl | h0
      · rw [Nat.add_zero] at hd
        rw [← hd]; omega
      · have : (f x + 1) * 2 ^ c ≤ c * 2 ^ c := Nat.mul_le_mul_right _ (by omega)
        have := Nat.pow_pos (n := f x) (show 0 < 2 by decide)
        nlinarith
  have h2 : (l.map f).sum * 2 ^ c + l.length * 2 ^ c ≤
      (l.map fun x => 2 ^ f x).sum + l.length * (c * 2 ^ c) := by
    clear h
    induction l with
    | nil => simp
    | cons a l ih =>
      simp only [List.map_cons, List.sum_cons, List.length_cons]
      have := h1 a
      nlinarith
  have h3 : l.length * B ≤ l.length * 2 ^ c := Nat.mul_le_mul_left _ hB
  have h4 : (l.map f).sum * 2 ^ c ≤ (l.length * c) * 2 ^ c := by
    have : l.length * (c * 2 ^ c) = (l.length * c) * 2 ^ c := by ring
    omega
  exact Nat.le_of_mul_le_mul_right h4 (Nat.pow_pos (by decide))

/-- **C54, expected height.** Take any history and any distinct numbers, one per call of `insert`.  Over all
orders in which these numbers can be drawn, the average height of the tree is at most three times the binary
logarithm (rounded up) of `m + 2`, where `m` counts the insert calls whose key is still present. -/
theorem C54_treap_expected_height (ops : List (MapOp K V)) (ps : List Nat) (hp : ps.Nodup)
    (hl : ps.length = (inserted ops).length) :
    (ps.permutations.map (heightAfter ops)).sum ≤
      ps.permutations.length * (3 * Nat.clog 2 (liveInserts ops + 2)) :=
  sum_le_of_two_pow _ _ _ _ (choose_le_pow _) (sum_two_pow_height ops ps hp hl)

/-- **C54, tail.** The share of the orders that give a tree higher than that bound by `t` or more is at most
`1 / 2 ^ t`. -/
theorem C54_treap_height_tail (ops : List (MapOp K V)) (ps : List Nat) (hp : ps.Nodup)
    (hl : ps.length = (inserted ops).length) (t : Nat) :
    (ps.permutations.countP fun qs =>
        decide (3 * Nat.clog 2 (liveInserts ops + 2) + t ≤ heightAfter ops qs)) * 2 ^ t ≤
      ps.permutations.length := by
  have h := sum_two_pow_height ops ps hp hl
  have hc := choose_le_pow (liveInserts ops)
  have h1 : ∀ l : List (List Nat), (l.countP fun qs =>
      decide (3 * Nat.clog 2 (liveInserts ops + 2) + t ≤ heightAfter ops qs)) *
        2 ^ (3 * Nat.clog 2 (liveInserts ops + 2) + t) ≤
      (l.map fun qs => 2 ^ heightAfter ops qs).sum := by
    intro l
    induction l with
    | nil => simp
    | cons a l ih =>
      rw [List.countP_cons, List.map_cons, List.sum_cons]
      split
      · rename_i ha
        have := Nat.pow_le_pow_right (show 0 < 2 by decide) (of_decide_eq_true ha)
        rw [Nat.succ_mul]; omega
      · rw [Nat.add_zero]; exact le_trans ih (Nat.le_add_left _ _)
  have h2 := le_trans (h1 ps.permutations) (le_trans h (Nat.mul_le_mul_left _ hc))
  rw [Nat.pow_add, Nat.mul_comm (2 ^ (3 * _)), ← Nat.mul_assoc] at h2
  exact Nat.le_of_mul_le_mul_right h2 (Nat.pow_pos (by decide))

/-- **C54, lookups.** The same average bound for the number of keys a lookup compares with, for every key. -/
theorem C54_treap_expected_get (ops : List (MapOp K V)) (ps : List Nat) (hp : ps.Nodup)
    (hl : ps.length = (inserted ops).length) (k : K) :
    (ps.permutations.map (getCostAfter k ops)).sum ≤
      ps.permutations.length * (3 * Nat.clog 2 (liveInserts ops + 2)) := by
  refine le_trans (sum_le_sum fun qs _ => ?_) (C54_treap_expected_height ops ps hp hl)
  obtain ⟨s, h, _, e, e'⟩ := C54_total ops qs
  rw [e']; unfold getCostAfter; rw [e]
  exact searchCost_le_depth s.tree k

/-- If no call of `insert` overwrote a value, the live calls are as many as the keys in the map. -/
theorem live_len (P : Nat → Nat) (ops : List (MapOp K V)) : ∀ (n : Nat) (G : List (K × Nat))
    (s : TreapMap K V) (h : List (MapOp K V × MapRes K V)) (s' : TreapMap K V), Inv P G s.tree →
      (G.map (·.1)).Nodup → runT s (assign P n ops) = some (s', h) →
      (∀ k v r, (MapOp.insert k v, r) ∈ h → r = .pair none) → ((live n G ops).map (·.1)).Nodup := by
  induction ops with
  | nil => intro n G s h s' _ hG _ _; exact hG
  | cons op ops ih =>
    intro n G s h s' hI hG hr hf
    have one : ∀ (m : Nat) G' s₁ d r, Inv P G' s₁.tree → (G'.map (·.1)).Nodup → step s op d = some (s₁, r) →
        runT s ((op, d) :: assign P m ops) = some (s', h) → ((live m G' ops).map (·.1)).Nodup := by
      intro m G' s₁ d r hI' hG' hs₁ hr'
      rw [run_cons hs₁] at hr'
      cases e : runT s₁ (assign P m ops) with
      | none => rw [e] at hr'; cases hr'
      | some q =>
        rw [e] at hr'
        simp only [Option.map_some, Option.some.injEq, Prod.mk.injEq] at hr'
        obtain ⟨e1, e2⟩ := hr'
        refine ih m G' s₁ q.2 s' hI' hG' (by rw [e, ← e1]) fun k v r hm => hf k v r ?_
        rw [← e2]; exact List.mem_cons_of_mem _ hm
    have hI' := inv_run P [op] n G s hI
    obtain ⟨s₁, h₁, e₁, hI₁⟩ := hI'
    obtain ⟨hs, ⟨b, hb⟩, hm, hl⟩ := hI
    cases op with
    | insert k v =>
      have e₂ : s₁ = ⟨(insert (P n) k v s.tree).1⟩ := by
        rw [assign, run_cons (s₁ := ⟨(insert (P n) k v s.tree).1⟩) rfl] at e₁
        exact (Option.some.inj (congrArg (Option.map Prod.fst) e₁)).symm
      refine one (n + 1) _ _ _ _ (e₂ ▸ hI₁) ?_ rfl hr
      show ((k :: G.map (·.1))).Nodup
      refine List.nodup_cons.2 ⟨?_, hG⟩
      intro hk
      obtain ⟨x, hx, rfl⟩ := List.mem_map.1 hk
      obtain ⟨q, g1, _⟩ := hl x hx
      obtain ⟨w, hw⟩ := key_mem g1
      have hh : (MapOp.insert x.1 v, MapRes.pair (insert (P n) x.1 v s.tree).2) ∈ h := by
        have hr' := hr
        rw [assign, run_cons (s₁ := ⟨(insert (P n) x.1 v s.tree).1⟩) rfl] at hr'
        cases e : runT ⟨(insert (P n) x.1 v s.tree).1⟩ (assign P (n + 1) ops) with
        | none => rw [e] at hr'; cases hr'
        | some q =>
          rw [e] at hr'
          simp only [Option.map_some, Option.some.injEq, Prod.mk.injEq] at hr'
          rw [← hr'.2]; exact List.mem_cons_self
      have := hf _ _ _ hh
      rw [(insert_spec (P n) x.1 v s.tree hs).2, find_of_mem hs hw] at this
      cases this
    | remove k =>
      have e₂ : s₁ = ⟨(remove k s.tree).1⟩ := by
        rw [show assign P n [MapOp.remove k] = [((MapOp.remove k : MapOp K V), 0)] from rfl,
          run_cons (s₁ := ⟨(remove k s.tree).1⟩) rfl] at e₁
        exact (Option.some.inj (congrArg (Option.map Prod.fst) e₁)).symm
      exact one n _ _ _ _ (e₂ ▸ hI₁) (hG.sublist (List.filter_sublist.map _)) rfl hr
    | getMut k f =>
      have e₂ : s₁ = ⟨(s.tree.getMut k f).2⟩ := by
        rw [show assign P n [MapOp.getMut k f] = [((MapOp.getMut k f : MapOp K V), 0)] from rfl,
          run_cons (s₁ := ⟨(s.tree.getMut k f).2⟩) rfl] at e₁
        exact (Option.some.inj (congrArg (Option.map Prod.fst) e₁)).symm
      exact one n _ _ _ _ (e₂ ▸ hI₁) hG rfl hr
    | clear =>
      exact one n [] ⟨.nil⟩ _ _ ⟨by simp [Sorted], ⟨0, trivial⟩, by simp [keyPrios], by simp⟩
        (by simp) rfl hr
    | get k => exact one n G s _ _ ⟨hs, ⟨b, hb⟩, hm, hl⟩ hG rfl hr
    | containsKey k => exact one n G s _ _ ⟨hs, ⟨b, hb⟩, hm, hl⟩ hG rfl hr
    | floor k => exact one n G s _ _ ⟨hs, ⟨b, hb⟩, hm, hl⟩ hG rfl hr
    | ceil k => exact one n G s _ _ ⟨hs, ⟨b, hb⟩, hm, hl⟩ hG rfl hr
    | min => exact one n G s _ _ ⟨hs, ⟨b, hb⟩, hm, hl⟩ hG rfl hr
    | max => exact one n G s _ _ ⟨hs, ⟨b, hb⟩, hm, hl⟩ hG rfl hr
    | len => exact one n G s _ _ ⟨hs, ⟨b, hb⟩, hm, hl⟩ hG rfl hr
    | isEmpty => exact one n G s _ _ ⟨hs, ⟨b, hb⟩, hm, hl⟩ hG rfl hr
    | iter => exact one n G s _ _ ⟨hs, ⟨b, hb⟩, hm, hl⟩ hG rfl hr

/-- **C54, live calls.** If every call of `insert` returned `None`, that is, no value was overwritten, then
`liveInserts` is the number of keys in the map. -/
theorem C54_live_eq_len (ops : List (MapOp K V)) (qs : List Nat) {s : TreapMap K V}
    {h : List (MapOp K V × MapRes K V)}
    (hr : (impl K V).run TreapMap.new (withDraws qs ops) = some (s, h))
    (hf : ∀ k v r, (MapOp.insert k v, r) ∈ h → r = .pair none) : liveInserts ops = s.tree.toList.length := by
  have hI0 : Inv (fun i => qs.getD i 0) ([] : List (K × Nat)) (TreapMap.new : TreapMap K V).tree :=
    ⟨by simp [Sorted, TreapMap.new], ⟨0, trivial⟩, by simp [TreapMap.new, keyPrios], by simp⟩
  have hn := live_len (fun i => qs.getD i 0) ops 0 [] TreapMap.new h s hI0 (by simp) hr hf
  obtain ⟨s', h', e, hI⟩ := inv_run (fun i => qs.getD i 0) ops 0 [] TreapMap.new hI0
  have : s' = s := by
    have : some (s', h') = some (s, h) := e.symm.trans hr
    simp only [Option.some.injEq, Prod.mk.injEq] at this
    exact this.1
  subst this
  have hk : (s'.tree.toList.map (·.1)).Nodup := by
    have := hI.sorted
    unfold Sorted at this
    rw [List.Nodup, List.pairwise_map]
    exact this.imp fun h => h.ne
  have hp : ((live 0 [] ops).map (·.1)).Perm (s'.tree.toList.map (·.1)) := by
    refine (List.perm_ext_iff_of_nodup hn hk).2 fun k => ?_
    constructor
    · intro h
      obtain ⟨x, hx, rfl⟩ := List.mem_map.1 h
      obtain ⟨q, g, _⟩ := hI.le x hx
      obtain ⟨v, hv⟩ := key_mem g
      exact List.mem_map.2 ⟨_, hv, rfl⟩
    · intro h
      obtain ⟨x, hx, rfl⟩ := List.mem_map.1 h
      obtain ⟨q, g⟩ := mem_key hx
      obtain ⟨i, hi, _⟩ := hI.mem _ g
      exact List.mem_map.2 ⟨_, hi, rfl⟩
  have := hp.length_eq
  simpa [liveInserts] using this

/-! ### Overwriting a value can only raise the priority of its key

`insert` of a present key draws a number; if it is larger than the stored priority the node moves up with the
new one, otherwise the old one stays (treap/tree.rs:68-97).  A key written often therefore has a high
priority, and the average height is not bounded in terms of the number of keys. -/

/-- Key `i` is inserted `2 ^ i` times, for `i < n`. -/
def skewed : Nat → List (MapOp Nat Unit)
  | 0 => []
  | n + 1 => skewed n ++ List.replicate (2 ^ n) (.insert n ())

omit [LinearOrder K] in
theorem inserted_append (a b : List (MapOp K V)) : inserted (a ++ b) = inserted a ++ inserted b := by
  induction a with
  | nil => rfl
  | cons op a ih => cases op <;> simp [inserted, ih]

omit [LinearOrder K] in
theorem inserted_replicate (n : Nat) (k : K) (v : V) :
    inserted (List.replicate n (MapOp.insert k v)) = List.replicate n k := by
  induction n with
  | zero => rfl
  | succ n ih => simp [List.replicate_succ, inserted, ih]

theorem live_inserts (ops : List (MapOp K V)) (h : ∀ op ∈ ops, ∃ k v, op = .insert k v) :
    ∀ n (G : List (K × Nat)) x, (x ∈ G ∨ x ∈ (inserted ops).zipIdx n) → x ∈ live n G ops := by
  induction ops with
  | nil => intro n G x hx; simpa [inserted, live] using hx
  | cons op ops ih =>
    intro n G x hx
    obtain ⟨k, v, rfl⟩ := h op (by simp)
    refine ih (fun o ho => h o (by simp [ho])) (n + 1) ((k, n) :: G) x ?_
    rw [inserted, List.zipIdx_cons, List.mem_cons] at hx
    rw [List.mem_cons]
    rcases hx with h | h | h
    · exact .inl (.inr h)
    · exact .inl (.inl h)
    · exact .inr h

theorem skewed_inserts (n : Nat) : ∀ op ∈ skewed n, ∃ k v, op = .insert k v := by
  induction n with
  | zero => simp [skewed]
  | succ n ih =>
    intro op h
    rcases List.mem_append.1 h with h | h
    · exact ih op h
    · exact ⟨n, (), (List.mem_replicate.1 h).2⟩

theorem skewed_count (n i : Nat) : (inserted (skewed n)).countP (fun x => x == i) =
    if i < n then 2 ^ i else 0 := by
  induction n with
  | zero => simp [skewed, inserted]
  | succ n ih =>
    rw [skewed, inserted_append, List.countP_append, ih, inserted_replicate]
    by_cases h : n = i
    · subst h; simp [List.countP_replicate]
    · have : (n == i) = false := by simpa using h
      simp only [List.countP_replicate, this]
      have : (i < n + 1) ↔ i < n := by omega
      simp [this]

theorem skewed_lt (n : Nat) : ∀ k ∈ inserted (skewed n), k < n := by
  intro k hk
  by_contra h
  have := skewed_count n k
  rw [if_neg h, List.countP_eq_zero] at this
  exact this k hk (by simp)

theorem map_zipIdx_fst (l : List Nat) : l.zipIdx.map (fun x => x.1) = l := by
  apply List.ext_getElem <;> simp

/-- **C54 is false when values are overwritten.** There are histories after which the map has `n` keys and
the average height over all orders of the draws is at least `n / 2`. -/
theorem C54_overwrites_violated (n : Nat) (ps : List Nat) (hp : ps.Nodup)
    (hl : ps.length = (inserted (skewed n)).length) :
    ps.permutations.length * n ≤ 2 * (ps.permutations.map (heightAfter (skewed n))).sum ∧
      ∀ qs, ∃ s, after (skewed n) qs = some s ∧ s.tree.toList.length = n := by
  constructor
  · obtain ⟨ord, h1, h2⟩ := height_orders (skewed n) ps hp hl
    have e1 : (ps.permutations.map fun qs => 2 * heightAfter (skewed n) qs) =
        (ps.permutations.map ord).map fun l => 2 * orderHeight (fun x : Nat × Nat => x.1)
          (l.filter fun x => decide (x ∈ live 0 [] (skewed n))) := by
      rw [List.map_map]
      exact List.map_congr_left fun qs hq => by rw [h2 qs hq]; rfl
    have hT : ((inserted (skewed n)).zipIdx).Nodup := nodup_zipIdx _
    rw [← sum_mul, e1, (h1.map _).sum_eq, List.length_permutations, hl]
    have hall : ∀ x ∈ (inserted (skewed n)).zipIdx, decide (x ∈ live 0 [] (skewed n)) = true := by
      intro x hx
      simp [live_inserts (skewed n) (skewed_inserts n) 0 [] x (.inr hx)]
    refine sum_height_ge (fun x : Nat × Nat => x.1) _ _ hT (by simp) _ n ?_ ?_
    · intro i hi
      rw [List.filter_eq_self.2 hall]
      have := skewed_count n i
      rw [if_pos hi] at this
      rw [← this]
      conv_rhs => rw [← map_zipIdx_fst (inserted (skewed n))]
      rw [List.countP_map]
      rfl
    · intro x hx _
      apply skewed_lt n
      have := List.mem_map_of_mem (f := fun x : Nat × Nat => x.1) hx
      rwa [map_zipIdx_fst] at this
  · intro qs
    obtain ⟨s, h, e, hI⟩ := inv_run (fun i => qs.getD i 0) (skewed n) 0 [] (TreapMap.new : TreapMap Nat Unit)
      ⟨by simp [Sorted, TreapMap.new], ⟨0, trivial⟩, by simp [TreapMap.new, keyPrios], by simp⟩
    refine ⟨s, ?_, ?_⟩
    · show (runT TreapMap.new (assign (fun i => qs.getD i 0) 0 (skewed n))).map (·.1) = some s
      rw [e]; rfl
    · have hk : (s.tree.toList.map (·.1)).Nodup := by
        have := hI.sorted
        unfold Sorted at this
        rw [List.Nodup, List.pairwise_map]
        exact this.imp fun h => h.ne
      have hp : (s.tree.toList.map (·.1)).Perm (List.range n) := by
        refine (List.perm_ext_iff_of_nodup hk List.nodup_range).2 fun k => ?_
        rw [List.mem_range]
        constructor
        · intro h
          obtain ⟨x, hx, rfl⟩ := List.mem_map.1 h
          obtain ⟨q, g⟩ := mem_key hx
          obtain ⟨i, hi, _⟩ := hI.mem _ g
          have h3 : (x.1, i) ∈ (inserted (skewed n)).zipIdx := by
            simpa using live_sub (skewed n) 0 [] [] (by simp) hi
          have := List.mem_map_of_mem (f := fun x : Nat × Nat => x.1) h3
          rw [map_zipIdx_fst] at this
          exact skewed_lt n _ this
        · intro hkn
          have h1 := skewed_count n k
          rw [if_pos hkn] at h1
          have h2 : 0 < (inserted (skewed n)).countP (fun x => x == k) := by
            rw [h1]; exact Nat.pow_pos (by decide)
          obtain ⟨y, hy, hyk⟩ := List.countP_pos_iff.1 h2
          have hyk' : y = k := by simpa using hyk
          subst hyk'
          rw [← map_zipIdx_fst (inserted (skewed n))] at hy
          obtain ⟨z, hz, rfl⟩ := List.mem_map.1 hy
          obtain ⟨q, g, _⟩ := hI.le z (live_inserts (skewed n) (skewed_inserts n) 0 [] z (.inr hz))
          obtain ⟨v, hv⟩ := key_mem g
          exact List.mem_map.2 ⟨_, hv, rfl⟩
      have := hp.length_eq
      simpa using this

/-! ### Instances -/

/-- Four insertions of which one is undone, an overwriting one, a lookup. -/
def sampleOps : List (MapOp Nat Nat) :=
  [.insert 1 10, .insert 2 20, .insert 3 30, .remove 2, .get 1, .insert 3 31]

example : (inserted sampleOps) = [1, 2, 3, 3] ∧ liveInserts sampleOps = 3 ∧
    [7, 4, 9, 2].Nodup ∧ [7, 4, 9, 2].length = (inserted sampleOps).length := by decide

example : heightAfter sampleOps [7, 4, 9, 2] = 2 ∧
    heightAfter [.insert 1 0, .insert 2 0, .insert 3 0] [3, 2, 1] = 3 ∧
    heightAfter [.insert 1 0, .insert 2 0, .insert 3 0] [1, 3, 2] = 2 := by decide

/-- All six orders for three keys: four paths and two balanced trees. -/
example : ([[5, 6, 7], [5, 7, 6], [6, 5, 7], [6, 7, 5], [7, 5, 6], [7, 6, 5]].map
    (heightAfter [.insert 1 0, .insert 2 0, .insert 3 0])) = [3, 2, 3, 2, 3, 3] := by decide

/-- `C54_overwrites_violated` for three keys and seven draws. -/
example : inserted (skewed 3) = [0, 1, 1, 2, 2, 2, 2] := by decide

end Verif.Treap
