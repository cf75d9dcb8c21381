/-
C07, how bad it gets: removals from an `AvlMap` can leave a tree whose height is about the square root of twice the
number of its keys, so no bound that is logarithmic in the number of keys holds.

The history inserts the keys of a perfect tree level by level.  Then it removes inner keys, again and again: `remove`
replaces the removed entry by its successor, which `remove_min` takes out of the right subtree without a look at heights.
In this way the left subtree of every node that is a right child is emptied, and no recorded height changes, so that
nothing is ever rotated.
-/
import Verif.Avl.Props
import Mathlib.Tactic.Ring
import Mathlib.Tactic.Linarith
import Mathlib.Data.Nat.Log

namespace Verif.Avl

open Verif.Bst Verif.Spec
open Verif.SL (Sorted)

variable {K V : Type} [LinearOrder K]

/-! ### Removals that no recorded height notices -/

/-- `t'` arises from `t` by removals of keys that are there, none of which changes the recorded height of the root. -/
inductive Eaten : ATree K V → ATree K V → Prop where
  | refl (t : ATree K V) : Eaten t t
  | step {t t₁ t₂ : ATree K V} {k : K} {o : Option (K × V)} : (∃ e ∈ t.toList, e.1 = k) → remove t k = some (t₁, o) →
      height t₁ = height t → Eaten t₁ t₂ → Eaten t t₂

theorem Eaten.trans {a b c : ATree K V} (h : Eaten a b) (h' : Eaten b c) : Eaten a c := by
  induction h with
  | refl => exact h'
  | step h1 h2 h3 _ ih => exact .step h1 h2 h3 (ih h')

theorem remove_toList {t t₁ : ATree K V} {k : K} {o : Option (K × V)} (hs : Sorted t.toList)
    (h : remove t k = some (t₁, o)) : t₁.toList = SL.del k t.toList := by
  obtain ⟨t', h1, h2⟩ := remove_spec t k hs
  rw [h] at h1
  simp only [Option.some.injEq, Prod.mk.injEq] at h1
  rw [h1.1, h2]

theorem Eaten.sorted {a b : ATree K V} (h : Eaten a b) (hs : Sorted a.toList) : Sorted b.toList := by
  induction h with
  | refl => exact hs
  | step h1 h2 h3 _ ih => exact ih (by rw [remove_toList hs h2]; exact SL.sorted_del hs)

theorem Eaten.sub {a b : ATree K V} (h : Eaten a b) (hs : Sorted a.toList) : ∀ e ∈ b.toList, e ∈ a.toList := by
  induction h with
  | refl => exact fun _ h => h
  | step h1 h2 h3 _ ih =>
    intro e he
    have := ih (by rw [remove_toList hs h2]; exact SL.sorted_del hs) e he
    rw [remove_toList hs h2] at this
    exact (List.mem_filter.1 this).1

theorem Eaten.height {a b : ATree K V} (h : Eaten a b) : height b = height a := by
  induction h with
  | refl => rfl
  | step h1 h2 h3 _ ih => rw [ih, h3]

omit [LinearOrder K] in
theorem balance_near {h : Nat} {l r : ATree K V} {x : K} {v : V} (h1 : height l ≤ height r + 1)
    (h2 : height r ≤ height l + 1) : balance (.node h l x v r) = some (update l x v r) := by
  have h3 : ¬ nodeBalance l r > 1 := by unfold nodeBalance; omega
  have h4 : ¬ nodeBalance l r < -1 := by unfold nodeBalance; omega
  simp only [balance, if_neg h3, if_neg h4]

theorem sorted_update_left {l l' : ATree K V} {x : K} {v : V} {r : ATree K V} (hs : Sorted (update l x v r).toList)
    (hl : Sorted l'.toList) (hm : ∀ e ∈ l'.toList, e ∈ l.toList) : Sorted (update l' x v r).toList := by
  obtain ⟨_, s2, s3, s4⟩ := SL.sorted_mid.1 hs
  exact SL.sorted_mid.2 ⟨hl, s2, fun a ha => s3 a (hm a ha), s4⟩

theorem sorted_update_right {l : ATree K V} {x : K} {v : V} {r r' : ATree K V} (hs : Sorted (update l x v r).toList)
    (hr : Sorted r'.toList) (hm : ∀ e ∈ r'.toList, e ∈ r.toList) : Sorted (update l x v r').toList := by
  obtain ⟨s1, _, s3, s4⟩ := SL.sorted_mid.1 hs
  exact SL.sorted_mid.2 ⟨s1, hr, s3, fun a ha => s4 a (hm a ha)⟩

theorem eaten_left {l l' : ATree K V} (h : Eaten l l') : ∀ {x : K} {v : V} {r : ATree K V},
    Sorted (update l x v r).toList → height l ≤ height r + 1 → height r ≤ height l + 1 →
    Eaten (update l x v r) (update l' x v r) := by
  induction h with
  | refl => intros; exact .refl _
  | @step t t₁ t₂ k o h1 h2 h3 _ ih =>
    intro x v r hs n1 n2
    obtain ⟨s1, s2, s3, s4⟩ := SL.sorted_mid.1 hs
    obtain ⟨e, he, hk⟩ := h1
    have hlt : k < x := hk ▸ s3 e he
    have hd := remove_toList s1 h2
    refine .step (t₁ := update t₁ x v r) (k := k) (o := o) ⟨e, ?_, hk⟩ ?_ ?_
      (ih (sorted_update_left hs (by rw [hd]; exact SL.sorted_del s1) ?_) (by omega) (by omega))
    · simp only [update, Tree.toList_node, List.mem_append]; exact .inl he
    · simp only [update, remove, if_pos hlt, h2, Option.bind_eq_bind, Option.bind_some]
      rw [balance_near (by omega) (by omega)]
      rfl
    · simp only [update, height_node, h3]
    · rw [hd]; intro e he; exact (List.mem_filter.1 he).1

theorem eaten_right {r r' : ATree K V} (h : Eaten r r') : ∀ {x : K} {v : V} {l : ATree K V},
    Sorted (update l x v r).toList → height l ≤ height r + 1 → height r ≤ height l + 1 →
    Eaten (update l x v r) (update l x v r') := by
  induction h with
  | refl => intros; exact .refl _
  | @step t t₁ t₂ k o h1 h2 h3 _ ih =>
    intro x v l hs n1 n2
    obtain ⟨s1, s2, s3, s4⟩ := SL.sorted_mid.1 hs
    obtain ⟨e, he, hk⟩ := h1
    have hlt : x < k := hk ▸ s4 e he
    have hd := remove_toList s2 h2
    refine .step (t₁ := update l x v t₁) (k := k) (o := o) ⟨e, ?_, hk⟩ ?_ ?_
      (ih (sorted_update_right hs (by rw [hd]; exact SL.sorted_del s2) ?_) (by omega) (by omega))
    · simp only [update, Tree.toList_node, List.mem_append, List.mem_cons]; exact .inr (.inr he)
    · simp only [update, remove, if_neg (lt_asymm hlt), if_pos hlt, h2, Option.bind_eq_bind, Option.bind_some]
      rw [balance_near (by omega) (by omega)]
      rfl
    · simp only [update, height_node, h3]
    · rw [hd]; intro e he; exact (List.mem_filter.1 he).1

/-- Removing the key of a node over and over empties the left subtree of its right child. -/
theorem eaten_root (n : Nat) : ∀ {l a b : ATree K V} {x y : K} {v w : V} {hr : Nat}, a.size = n → l ≠ .nil →
    Sorted (update l x v (.node hr a y w b)).toList → height l ≤ hr + 1 → hr ≤ height l + 1 →
    ∃ x' v', Eaten (update l x v (.node hr a y w b)) (update l x' v' (.node hr .nil y w b)) := by
  induction n with
  | zero =>
    intro l a b x y v w hr ha _ _ _ _
    cases a with
    | nil => exact ⟨x, v, .refl _⟩
    | node => simp [Tree.size] at ha
  | succ n ih =>
    intro l a b x y v w hr ha hl hs n1 n2
    have hne : a ≠ .nil := by rintro rfl; simp [Tree.size] at ha
    obtain ⟨h', k, u, a', e1, e2⟩ := removeMin_spec a hne
    have hrm : removeMin (.node hr a y w b) = some ((h', k, u), .node hr a' y w b) := by
      cases a with
      | nil => exact absurd rfl hne
      | node => rw [removeMin, e1]; rfl
    have hrem : remove (update l x v (.node hr a y w b)) x = some (update l k u (.node hr a' y w b), some (x, v)) := by
      cases l with
      | nil => exact absurd rfl hl
      | node =>
        simp only [update, remove, lt_irrefl, if_false, joinChildren, combineSubtrees, hrm, Option.bind_eq_bind,
          Option.bind_some]
        simp only [pure, Option.bind_some]
        rw [balance_near (by simpa using n1) (by simpa using n2)]
        rfl
    have hs' : Sorted (update l k u (.node hr a' y w b)).toList := by
      rw [remove_toList hs hrem]; exact SL.sorted_del hs
    have hsz : a'.size = n := by
      have := congrArg List.length e2
      rw [← Tree.size_eq_length, List.length_cons, ← Tree.size_eq_length] at this
      omega
    obtain ⟨x', v', hE⟩ := ih hsz hl hs' n1 n2
    refine ⟨x', v', .step ⟨(x, v), ?_, rfl⟩ hrem rfl hE⟩
    simp [update]

/-! ### What is left -/

/-- A perfect tree with right heights. -/
inductive Perfect : Nat → ATree K V → Prop where
  | nil : Perfect 0 .nil
  | node {n : Nat} {l r : ATree K V} {x : K} {v : V} : Perfect n l → Perfect n r → Perfect (n + 1) (update l x v r)

/-- Nodes without left children. -/
inductive Chain : Nat → ATree K V → Prop where
  | nil : Chain 0 .nil
  | node {n : Nat} {r : ATree K V} {x : K} {v : V} : Chain n r → Chain (n + 1) (update .nil x v r)

/-- A chain of left children, each of which has a chain of right children. -/
inductive Comb : Nat → ATree K V → Prop where
  | nil : Comb 0 .nil
  | node {n : Nat} {l r : ATree K V} {x : K} {v : V} : Comb n l → Chain n r → Comb (n + 1) (update l x v r)

omit [LinearOrder K] in
theorem Perfect.height {n : Nat} {t : ATree K V} (h : Perfect n t) : height t = n := by
  induction h with
  | nil => rfl
  | node _ _ h1 h2 => simp only [update, height_node, h1, h2]; omega

omit [LinearOrder K] in
theorem Chain.size {n : Nat} {t : ATree K V} (h : Chain n t) : t.size = n := by
  induction h with
  | nil => rfl
  | node _ ih => simp only [update, Tree.size, ih]; omega

omit [LinearOrder K] in
theorem Comb.size {n : Nat} {t : ATree K V} (h : Comb n t) : 2 * t.size = n * (n + 1) := by
  induction h with
  | nil => rfl
  | node _ hr ih => simp only [update, Tree.size, hr.size]; linarith

theorem Comb.cost {n : Nat} {t : ATree K V} (h : Comb n t) : ∀ k : K, (∀ e ∈ t.toList, k < e.1) → searchCost t k = n := by
  induction h with
  | nil => intro k _; rfl
  | node _ hr ih =>
    intro k hk
    simp only [update, Tree.toList_node, List.mem_append, List.mem_cons] at hk
    simp only [update, searchCost]
    rw [if_pos (hk (_, _) (.inr (.inl rfl))), ih k fun e he => hk e (.inl he)]

/-- The right subtree of a node becomes a chain. -/
theorem eaten_chain (n : Nat) : ∀ {l r : ATree K V} {x : K} {v : V}, Perfect n r → (n ≠ 0 → l ≠ .nil) → height l = n →
    Sorted (update l x v r).toList →
    ∃ x' v' r', Eaten (update l x v r) (update l x' v' r') ∧ Chain n r' ∧ height r' = n := by
  induction n with
  | zero =>
    intro l r x v hr _ _ _
    cases hr
    exact ⟨x, v, _, .refl _, .nil, rfl⟩
  | succ n ih =>
    intro l r x v hr hl hh hs
    have hrh := hr.height
    cases hr with
    | @node _ a b y w ha hb =>
      have hs2 := (SL.sorted_mid.1 hs).2.1
      obtain ⟨y', w', b', e1, e2, e3⟩ := ih (l := a) (x := y) (v := w) hb (by
        intro h0 ha0; subst ha0; have := ha.height; simp [Avl.height] at this; omega) ha.height hs2
      have E1 := eaten_right e1 (x := x) (v := v) (l := l) hs (by omega) (by omega)
      have hs3 := E1.sorted hs
      have hh2 : max (Avl.height a) (Avl.height b') + 1 = n + 1 := by rw [ha.height, e3]; omega
      obtain ⟨x', v', E2⟩ := eaten_root a.size (l := l) (a := a) (b := b') (x := x) (y := y') (v := v) (w := w')
        (hr := max (Avl.height a) (Avl.height b') + 1) rfl (hl (by omega)) hs3 (by omega) (by omega)
      refine ⟨x', v', _, E1.trans E2, ?_, by simpa using hh2⟩
      have : (Bst.Tree.node (max (Avl.height a) (Avl.height b') + 1) .nil y' w' b' : ATree K V) = update .nil y' w' b' := by
        simp only [update]; rw [hh2, e3]; simp [Avl.height]
      rw [this]
      exact .node e2

/-- A perfect tree becomes a comb. -/
theorem eaten_comb {n : Nat} {t : ATree K V} (h : Perfect n t) : Sorted t.toList → ∃ t', Eaten t t' ∧ Comb n t' := by
  induction h with
  | nil => intro _; exact ⟨_, .refl _, .nil⟩
  | @node n l r x v hl hr ihl ihr =>
    intro hs
    obtain ⟨l', e1, e2⟩ := ihl (SL.sorted_mid.1 hs).1
    have E1 := eaten_left e1 (x := x) (v := v) (r := r) hs (by rw [hl.height, hr.height]; omega)
      (by rw [hl.height, hr.height]; omega)
    obtain ⟨x', v', r', e3, e4, -⟩ := eaten_chain n (l := l') (x := x) (v := v) hr (by
      intro h0 h1; subst h1; have := e1.height; rw [hl.height] at this; exact h0 this.symm)
      (e1.height.trans hl.height) (E1.sorted hs)
    exact ⟨_, E1.trans e3, .node e2 e4⟩

/-! ### Building a perfect tree -/

/-- The top `d` levels of the perfect tree with `H` levels and the keys `lo + 1, …, lo + 2 ^ H - 1`. -/
def top : Nat → Nat → Nat → ATree Nat Nat
  | 0, _, _ => .nil
  | _ + 1, 0, _ => .nil
  | d + 1, H + 1, lo => update (top d H lo) (lo + 2 ^ H) 0 (top d H (lo + 2 ^ H))

/-- The keys of level `d`. -/
def level : Nat → Nat → Nat → List Nat
  | _, 0, _ => []
  | 0, H + 1, lo => [lo + 2 ^ H]
  | d + 1, H + 1, lo => level d H lo ++ level d H (lo + 2 ^ H)

theorem level_range {d H lo k : Nat} (h : k ∈ level d H lo) : lo < k ∧ k < lo + 2 ^ H := by
  induction d generalizing H lo with
  | zero =>
    cases H with
    | zero => simp [level] at h
    | succ H =>
      simp only [level, List.mem_singleton] at h
      have := Nat.two_pow_pos H
      rw [pow_succ]; omega
  | succ d ih =>
    cases H with
    | zero => simp [level] at h
    | succ H =>
      simp only [level, List.mem_append] at h
      have := Nat.two_pow_pos H
      rw [pow_succ]
      rcases h with h | h <;> · have := ih h; omega

theorem top_perfect {d : Nat} : ∀ {H lo : Nat}, d ≤ H → Perfect d (top d H lo) := by
  induction d with
  | zero => intro H lo _; simp only [top]; exact .nil
  | succ d ih =>
    intro H lo h
    cases H with
    | zero => omega
    | succ H => exact .node (ih (by omega)) (ih (by omega))

/-- Inserting the new keys `ks` one after the other leads from `t` to `t'`, through trees of height `d` or `d + 1`. -/
def Grown (d : Nat) : List Nat → ATree Nat Nat → ATree Nat Nat → Prop
  | [], t, t' => t = t'
  | k :: ks, t, t' => ∃ t₁, insert t k 0 = some (t₁, none) ∧ (height t₁ = d ∨ height t₁ = d + 1) ∧ Grown d ks t₁ t'

theorem grown_append {d : Nat} : ∀ {ks ks' : List Nat} {a b c : ATree Nat Nat}, Grown d ks a b → Grown d ks' b c →
    Grown d (ks ++ ks') a c
  | [], _, _, _, _, h, h' => by cases h; exact h'
  | _ :: _, _, _, _, _, ⟨t, h1, h2, h3⟩, h' => ⟨t, h1, h2, grown_append h3 h'⟩

theorem grown_left {d x w : Nat} {r : ATree Nat Nat} (hr : height r = d ∨ height r = d + 1) : ∀ {ks : List Nat}
    {l l' : ATree Nat Nat}, Grown d ks l l' → (∀ k ∈ ks, k < x) → Grown (d + 1) ks (update l x w r) (update l' x w r)
  | [], _, _, h, _ => by cases h; rfl
  | k :: ks, l, l', ⟨t, h1, h2, h3⟩, hk => by
    refine ⟨update t x w r, ?_, ?_, grown_left hr h3 fun k h => hk k (by simp [h])⟩
    · simp only [update, insert, if_pos (hk k (by simp)), h1, Option.bind_eq_bind, Option.bind_some]
      rw [balance_near (by omega) (by omega)]
      rfl
    · simp only [update, height_node]; omega

theorem grown_right {d x w : Nat} {l : ATree Nat Nat} (hl : height l = d ∨ height l = d + 1) : ∀ {ks : List Nat}
    {r r' : ATree Nat Nat}, Grown d ks r r' → (∀ k ∈ ks, x < k) → Grown (d + 1) ks (update l x w r) (update l x w r')
  | [], _, _, h, _ => by cases h; rfl
  | k :: ks, r, r', ⟨t, h1, h2, h3⟩, hk => by
    have hx := hk k (by simp)
    refine ⟨update l x w t, ?_, ?_, grown_right hl h3 fun k h => hk k (by simp [h])⟩
    · simp only [update, insert, if_neg (lt_asymm hx), if_pos hx, h1, Option.bind_eq_bind, Option.bind_some]
      rw [balance_near (by omega) (by omega)]
      rfl
    · simp only [update, height_node]; omega

theorem grown_level {d : Nat} : ∀ {H lo : Nat}, d < H → Grown d (level d H lo) (top d H lo) (top (d + 1) H lo) := by
  induction d with
  | zero =>
    intro H lo h
    cases H with
    | zero => omega
    | succ H => exact ⟨newNode (lo + 2 ^ H) 0, rfl, .inr rfl, by simp [Grown, top, newNode, update, Avl.height]⟩
  | succ d ih =>
    intro H lo h
    cases H with
    | zero => omega
    | succ H =>
      have hd : d < H := by omega
      refine grown_append (b := update (top (d + 1) H lo) (lo + 2 ^ H) 0 (top d H (lo + 2 ^ H)))
        (grown_left (.inl (top_perfect hd.le).height) (ih hd) fun k hk => (level_range hk).2)
        (grown_right (.inr (top_perfect hd).height) (ih hd) fun k hk => (level_range hk).1)

/-! ### The history -/

/-- The calls `ops` lead from `s` to `s'`. -/
def Leads (s : AvlMap Nat Nat) (ops : List (MapOp Nat Nat)) (s' : AvlMap Nat Nat) : Prop :=
  ∃ h, (impl Nat Nat).run s (ops.map fun op => (op, ())) = some (s', h)

omit [LinearOrder K] in
theorem run_cons_iff {I : MapImpl K V} {s s' : I.State} {op : MapOp K V} {d : I.Draw} {ops : List (MapOp K V × I.Draw)}
    {h : List (MapOp K V × MapRes K V)} : I.run s ((op, d) :: ops) = some (s', h) ↔
    ∃ s₁ r h', I.step s op d = some (s₁, r) ∧ I.run s₁ ops = some (s', h') ∧ h = (op, r) :: h' := by
  simp only [MapImpl.run, Option.bind_eq_bind, Option.bind_eq_some_iff]
  constructor
  · rintro ⟨⟨s₁, r⟩, e1, ⟨s₂, h'⟩, e2, e3⟩
    simp only [pure, Option.some.injEq, Prod.mk.injEq] at e3
    obtain ⟨rfl, rfl⟩ := e3
    exact ⟨s₁, r, h', e1, e2, rfl⟩
  · rintro ⟨s₁, r, h', e1, e2, rfl⟩
    exact ⟨(s₁, r), e1, (s', h'), e2, rfl⟩

theorem Leads.append {a b c : AvlMap Nat Nat} {o o' : List (MapOp Nat Nat)} (h : Leads a o b) (h' : Leads b o' c) :
    Leads a (o ++ o') c := by
  induction o generalizing a with
  | nil =>
    obtain ⟨h, e⟩ := h
    have : a = b := by
      have := Option.some.inj e
      exact (Prod.mk.inj this).1
    rw [this]; exact h'
  | cons op o ih =>
    obtain ⟨h, e⟩ := h
    obtain ⟨a1, r, h1, e1, e2, -⟩ := run_cons_iff.1 e
    obtain ⟨h2, e4⟩ := ih ⟨h1, e2⟩
    exact ⟨_, run_cons_iff.2 ⟨a1, r, h2, e1, e4, rfl⟩⟩

theorem leads_one {a b : AvlMap Nat Nat} {op : MapOp Nat Nat} {r : MapRes Nat Nat} (h : step a op () = some (b, r)) :
    Leads a [op] b := ⟨_, run_cons_iff.2 ⟨b, r, [], h, rfl, rfl⟩⟩

/-- The state of a map with this tree. -/
def state (t : ATree Nat Nat) : AvlMap Nat Nat := ⟨t, t.size⟩

theorem leads_insert {t t₁ : ATree Nat Nat} {k : Nat} (hs : Sorted t.toList) (h : insert t k 0 = some (t₁, none)) :
    Leads (state t) [.insert k 0] (state t₁) ∧ Sorted t₁.toList := by
  obtain ⟨t', h1, h2⟩ := insert_spec t k 0 hs
  rw [h] at h1
  simp only [Option.some.injEq, Prod.mk.injEq] at h1
  obtain ⟨rfl, h3⟩ := h1
  refine ⟨leads_one (r := .pair none) ?_, by rw [h2]; exact SL.sorted_ins hs⟩
  have hl := SL.length_ins (k := k) (v := 0) hs
  rw [← h3, ← h2] at hl
  simp [step, AvlMap.insert, h, state, Tree.size_eq_length, hl]

theorem leads_remove {t t₁ : ATree Nat Nat} {k : Nat} {o : Option (Nat × Nat)} (hs : Sorted t.toList)
    (h : remove t k = some (t₁, o)) : Leads (state t) [.remove k] (state t₁) ∧ Sorted t₁.toList := by
  obtain ⟨t', h1, h2⟩ := remove_spec t k hs
  rw [h] at h1
  simp only [Option.some.injEq, Prod.mk.injEq] at h1
  obtain ⟨rfl, h3⟩ := h1
  refine ⟨leads_one (r := .pair o) ?_, by rw [h2]; exact SL.sorted_del hs⟩
  have hl := SL.length_del (k := k) hs
  rw [← h3, ← h2] at hl
  cases o with
  | none => simp at hl; simp [step, AvlMap.remove, h, state, Tree.size_eq_length, hl]
  | some e =>
    have hp := List.length_pos_of_mem (SL.find_some_mem h3.symm)
    obtain ⟨n, hn⟩ : ∃ n, t.toList.length = n + 1 := ⟨_, (Nat.succ_pred_eq_of_pos hp).symm⟩
    have hn' : t₁.toList.length = n := by simp at hl; omega
    simp [step, AvlMap.remove, h, state, Tree.size_eq_length, hn, hn', decr]

theorem leads_grown {d : Nat} : ∀ {ks : List Nat} {t t' : ATree Nat Nat}, Sorted t.toList → Grown d ks t t' →
    Leads (state t) (ks.map fun k => .insert k 0) (state t') ∧ Sorted t'.toList
  | [], t, t', hs, h => by cases h; exact ⟨⟨[], rfl⟩, hs⟩
  | k :: ks, t, t', hs, ⟨t₁, h1, h2, h3⟩ => by
    obtain ⟨k1, k2⟩ := leads_insert hs h1
    obtain ⟨k3, k4⟩ := leads_grown k2 h3
    exact ⟨k1.append k3, k4⟩

theorem leads_eaten {t t' : ATree Nat Nat} (h : Eaten t t') : Sorted t.toList →
    ∃ ks : List Nat, Leads (state t) (ks.map fun k => .remove k) (state t') := by
  induction h with
  | refl t => intro _; exact ⟨[], [], rfl⟩
  | step h1 h2 h3 _ ih =>
    intro hs
    obtain ⟨k1, k2⟩ := leads_remove hs h2
    obtain ⟨ks, k3⟩ := ih k2
    exact ⟨_ :: ks, k1.append k3⟩

theorem top_pos {d : Nat} : ∀ {H lo : Nat} {e : Nat × Nat}, e ∈ (top d H lo).toList → lo < e.1 := by
  induction d with
  | zero => intro H lo e h; simp [top] at h
  | succ d ih =>
    intro H lo e h
    cases H with
    | zero => simp [top] at h
    | succ H =>
      have := Nat.two_pow_pos H
      simp only [top, update, Tree.toList_node, List.mem_append, List.mem_cons] at h
      rcases h with h | rfl | h
      · exact ih h
      · simp
      · have := ih h; omega

theorem leads_top (H : Nat) : ∀ {d : Nat}, d ≤ H → ∃ ks : List Nat,
    Leads AvlMap.new (ks.map fun k => .insert k 0) (state (top d H 0)) ∧ Sorted (top d H 0).toList
  | 0, _ => ⟨[], ⟨[], by simp [top]; rfl⟩, by simp [top, SL.Sorted]⟩
  | d + 1, h => by
    obtain ⟨ks, h1, h2⟩ := leads_top H (d := d) (by omega)
    obtain ⟨k1, k2⟩ := leads_grown h2 (grown_level (lo := 0) (by omega : d < H))
    exact ⟨ks ++ level d H 0, by rw [List.map_append]; exact h1.append k1, k2⟩

/-- **C07 fails, by how much**: for every `h` there are keys to insert and then keys to remove that leave a map with
`h (h + 1) / 2` keys in which the search for some key compares with `h` keys. -/
theorem C07_avl_decay (h : Nat) : ∃ (is rs : List Nat) (s : AvlMap Nat Nat),
    Leads AvlMap.new (is.map (fun k => .insert k 0) ++ rs.map fun k => .remove k) s ∧
    2 * s.len = h * (h + 1) ∧ (∀ k, s.tree.get k ≠ none → 0 < k) ∧ searchCost s.tree 0 = h := by
  obtain ⟨is, h1, h2⟩ := leads_top h (le_refl h)
  obtain ⟨t, h3, h4⟩ := eaten_comb (top_perfect (le_refl h) : Perfect h (top h h 0)) h2
  obtain ⟨rs, h5⟩ := leads_eaten h3 h2
  have hpos : ∀ e ∈ t.toList, 0 < e.1 := fun e he => top_pos (h3.sub h2 e he)
  refine ⟨is, rs, state t, h1.append h5, h4.size, fun k hk => ?_, h4.cost 0 hpos⟩
  rw [state, Tree.get_eq _ _ (h3.sorted h2)] at hk
  obtain ⟨e, he⟩ := Option.ne_none_iff_exists'.1 hk
  have := hpos e (SL.find_some_mem he)
  rwa [SL.find_some_key he] at this

/-- **C07 fails**: the cost of a search after removals is not logarithmic in the number of keys, whatever the constant. -/
theorem C07_avl_not_logarithmic (c : Nat) : ∃ (is rs : List Nat) (s : AvlMap Nat Nat) (k : Nat),
    Leads AvlMap.new (is.map (fun k => .insert k 0) ++ rs.map fun k => .remove k) s ∧
    c * (Nat.log 2 s.len + 1) < searchCost s.tree k := by
  obtain ⟨is, rs, s, h1, h2, -, h3⟩ := C07_avl_decay (2 ^ (2 * c + 4))
  refine ⟨is, rs, s, 0, h1, ?_⟩
  rw [h3]
  have hlen : s.len < 2 ^ (4 * c + 9) := by
    have e : 2 ^ (4 * c + 9) = 2 ^ (2 * c + 4) * (2 ^ (2 * c + 4) * 2) := by rw [← pow_succ, ← pow_add]; congr 1; omega
    have : 0 < 2 ^ (2 * c + 4) := Nat.two_pow_pos _
    rw [e]
    nlinarith
  have hlog : Nat.log 2 s.len < 4 * c + 9 := Nat.log_lt_of_lt_pow' (by omega) hlen
  have hpow : 4 * c * c + 10 * c < 2 ^ (2 * c + 4) := by
    clear * -
    induction c with
    | zero => simp
    | succ c ih =>
      have : 2 ^ (2 * (c + 1) + 4) = 4 * 2 ^ (2 * c + 4) := by
        rw [show 2 * (c + 1) + 4 = (2 * c + 4) + 2 by omega, pow_add]; omega
      rw [this]
      have : 16 ≤ 2 ^ (2 * c + 4) := by
        calc 16 = 2 ^ 4 := rfl
          _ ≤ _ := Nat.pow_le_pow_right (by omega) (by omega)
      nlinarith
  calc c * (Nat.log 2 s.len + 1) ≤ c * (4 * c + 9) := Nat.mul_le_mul_left _ (by omega)
    _ ≤ 4 * c * c + 10 * c := by nlinarith
    _ < _ := hpow

/-- A case of `C07_avl_decay`: fifteen insertions and five removals leave ten keys; a search compares with four. -/
example : ∃ s, Leads AvlMap.new ([8, 4, 12, 2, 6, 10, 14, 1, 3, 5, 7, 9, 11, 13, 15].map (fun k => .insert k 0) ++
      [4, 12, 8, 9, 10].map fun k => .remove k) s ∧
    2 * s.len = 4 * 5 ∧ searchCost s.tree 0 = 4 ∧ ¬ HeightBalanced s.tree :=
  ⟨_, ⟨_, rfl⟩, by decide, by decide, by decide⟩

end Verif.Avl
