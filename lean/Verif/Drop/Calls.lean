/- Property C83: how deep the calls nest while an entry is inserted or removed.

`insert`, `remove`, `split`, `merge` and `union` of the tree containers call themselves; every level of nesting takes a
frame of the thread's stack, whose size is fixed.  The functions below are those of the models with the nested calls
recorded; each comes with a theorem that it computes what the model's function computes.
Simplification: only calls of functions that call themselves are recorded.  The other calls (rotations, `update`,
`balance`, comparisons, `Option` methods) do not nest, so they add a constant. -/
import Verif.Drop.Nesting
import Verif.Treap.ListHeight

namespace Verif.Drop

open Verif.Bst Verif.Spec

/-! ### Computations that record their calls -/

/-- A computation that may panic (`none`), and the nested calls it makes. -/
structure Traced (α : Type) where
  calls : List (Event Unit)
  val : Option α

namespace Traced

variable {α β : Type}

instance : Monad Traced where
  pure a := ⟨[], some a⟩
  bind x f := match x.val with
    | none => ⟨x.calls, none⟩
    | some a => ⟨x.calls ++ (f a).calls, (f a).val⟩

/-- A computation without nested calls. -/
def lift (o : Option α) : Traced α := ⟨[], o⟩

/-- A nested call. -/
def call (x : Traced α) : Traced α := ⟨.enter :: (x.calls ++ [.leave]), x.val⟩

/-- The largest number of calls running at the same time. -/
def nesting (x : Traced α) : Nat := Drop.nesting x.calls

theorem val_pure (a : α) : (pure a : Traced α).val = some a := rfl

theorem val_bind (x : Traced α) (f : α → Traced β) : (x >>= f).val = x.val.bind fun a => (f a).val := by
  show (match x.val with | none => (⟨x.calls, none⟩ : Traced β) | some a => ⟨x.calls ++ (f a).calls, (f a).val⟩).val = _
  cases x.val <;> rfl

theorem val_lift (o : Option α) : (lift o).val = o := rfl

theorem val_call (x : Traced α) : (call x).val = x.val := rfl

/-- At most `n` calls run at the same time, besides those that run already. -/
def Within (n : Nat) (x : Traced α) : Prop :=
  ∀ d es, deepest d (x.calls ++ es) ≤ max (d + n) (deepest d es)

theorem Within.nesting {n : Nat} {x : Traced α} (h : Within n x) : x.nesting ≤ n := by
  have := h 0 []
  rw [List.append_nil] at this
  show deepest 0 x.calls ≤ n
  simp only [deepest] at this; omega

theorem Within.mono {n m : Nat} {x : Traced α} (h : Within n x) (hm : n ≤ m) : Within m x :=
  fun d es => le_trans (h d es) (by omega)

theorem within_pure (a : α) : Within 0 (pure a : Traced α) := fun d es => by
  show deepest d es ≤ _; omega

theorem within_lift (o : Option α) : Within 0 (lift o) := fun d es => by
  show deepest d es ≤ _; omega

theorem within_bind {n : Nat} {x : Traced α} {f : α → Traced β} (h1 : Within n x)
    (h2 : ∀ a, x.val = some a → Within n (f a)) : Within n (x >>= f) := by
  intro d es
  show deepest d ((match x.val with | none => (⟨x.calls, none⟩ : Traced β) | some a => ⟨x.calls ++ (f a).calls, (f a).val⟩).calls
    ++ es) ≤ _
  cases hx : x.val with
  | none => exact h1 d es
  | some a =>
    have e1 := h1 d ((f a).calls ++ es)
    have e2 := h2 a hx d es
    simp only [List.append_assoc]
    omega

theorem within_call {n : Nat} {x : Traced α} (h : Within n x) : Within (n + 1) (call x) := by
  intro d es
  have := h (d + 1) (.leave :: es)
  have := le_deepest es d
  simp only [call, List.cons_append, List.append_assoc, List.nil_append, deepest, Nat.add_sub_cancel] at *
  omega

/-- A computation that ends without further nested calls. -/
theorem within_then {n : Nat} {x : Traced α} {f : α → Traced β} (h1 : Within n x) (h2 : ∀ a, Within 0 (f a)) :
    Within n (x >>= f) := within_bind h1 fun a _ => (h2 a).mono (Nat.zero_le n)

end Traced

open Traced

/-! ### AVL trees -/

namespace Avl

open Verif.Avl

variable {K V : Type} [LinearOrder K]

omit [LinearOrder K] in
theorem depth_node {A : Type} (a : A) (l r : Tree A K V) (k : K) (v : V) :
    depth (.node a l k v r) = max (depth l) (depth r) + 1 := rfl

/-- avl_tree/tree.rs:44-54 `remove_min`. -/
def removeMinT : ATree K V → Traced ((Nat × K × V) × ATree K V)
  | .nil => call (lift none)
  | .node h .nil k v r => call (pure ((h, k, v), r))
  | .node h (.node h' l' k' v' r') k v r => call do
    let p ← removeMinT (.node h' l' k' v' r')
    return (p.1, .node h p.2 k v r)

/-- avl_tree/tree.rs:110-114 and 56-61 `combine_subtrees`. -/
def joinChildrenT : ATree K V → ATree K V → Traced (ATree K V)
  | .nil, r => pure r
  | .node h l k v r, .nil => pure (.node h l k v r)
  | .node h l k v r, .node h' l' k' v' r' => do
    let p ← removeMinT (.node h' l' k' v' r')
    return .node p.1.1 (.node h l k v r) p.1.2.1 p.1.2.2 p.2

/-- avl_tree/tree.rs:63-84 `insert`. -/
def insertT : ATree K V → K → V → Traced (ATree K V × Option (K × V))
  | .nil, k, v => call (pure (newNode k v, none))
  | .node h l x w r, k, v => call <|
    if k < x then do
      let p ← insertT l k v
      let t ← lift (balance (.node h p.1 x w r))
      return (t, p.2)
    else if x < k then do
      let p ← insertT r k v
      let t ← lift (balance (.node h l x w p.1))
      return (t, p.2)
    else pure (.node h l k v r, some (x, w))

/-- avl_tree/tree.rs:86-121 `remove`. -/
def removeT : ATree K V → K → Traced (ATree K V × Option (K × V))
  | .nil, _ => call (pure (.nil, none))
  | .node h l x w r, k => call <|
    if k < x then do
      let p ← removeT l k
      let t ← lift (balance (.node h p.1 x w r))
      return (t, p.2)
    else if x < k then do
      let p ← removeT r k
      let t ← lift (balance (.node h l x w p.1))
      return (t, p.2)
    else do
      let t ← joinChildrenT l r
      let t ← lift (balance t)
      return (t, some (x, w))

omit [LinearOrder K] in
theorem removeMinT_val : ∀ t : ATree K V, (removeMinT t).val = removeMin t
  | .nil => rfl
  | .node h .nil k v r => rfl
  | .node h (.node h' l' k' v' r') k v r => by
    have ih := removeMinT_val (.node h' l' k' v' r')
    rw [removeMinT, removeMin]
    simp only [val_call, val_bind, val_pure, ih]
    cases removeMin (.node h' l' k' v' r') <;> rfl

omit [LinearOrder K] in
theorem joinChildrenT_val (l r : ATree K V) : (joinChildrenT l r).val = joinChildren l r := by
  cases l with
  | nil => rfl
  | node =>
    cases r with
    | nil => rfl
    | node =>
      simp only [joinChildrenT, joinChildren, combineSubtrees, val_bind, val_pure, removeMinT_val]
      rfl

theorem insertT_val (t : ATree K V) (k : K) (v : V) : (insertT t k v).val = Avl.insert t k v := by
  induction t with
  | nil => rfl
  | node h l x w r ihl ihr =>
    rw [insertT, Avl.insert, val_call]
    split
    · simp only [val_bind, val_lift, val_pure, ihl]; rfl
    · split
      · simp only [val_bind, val_lift, val_pure, ihr]; rfl
      · rfl

theorem removeT_val (t : ATree K V) (k : K) : (removeT t k).val = remove t k := by
  induction t with
  | nil => rfl
  | node h l x w r ihl ihr =>
    rw [removeT, remove, val_call]
    split
    · simp only [val_bind, val_lift, val_pure, ihl]; rfl
    · split
      · simp only [val_bind, val_lift, val_pure, ihr]; rfl
      · simp only [val_bind, val_lift, val_pure, joinChildrenT_val]; rfl

omit [LinearOrder K] in
theorem removeMinT_within : ∀ t : ATree K V, t ≠ .nil → Within (depth t) (removeMinT t)
  | .nil, h => absurd rfl h
  | .node h .nil k v r, _ => by
    rw [removeMinT]
    exact (within_call (within_pure _)).mono (by simp [depth])
  | .node h (.node h' l' k' v' r') k v r, _ => by
    have ih := removeMinT_within (.node h' l' k' v' r') (by simp)
    rw [removeMinT]
    refine (within_call (within_then ih fun _ => within_pure _)).mono ?_
    rw [depth_node h]; omega

omit [LinearOrder K] in
theorem joinChildrenT_within (l r : ATree K V) : Within (depth r) (joinChildrenT l r) := by
  cases l with
  | nil => exact (within_pure _).mono (Nat.zero_le _)
  | node =>
    cases r with
    | nil => exact (within_pure _).mono (Nat.zero_le _)
    | node => exact within_then (removeMinT_within _ (by simp)) fun _ => within_pure _

theorem insertT_within (t : ATree K V) (k : K) (v : V) : Within (depth t + 1) (insertT t k v) := by
  induction t with
  | nil => exact within_call (within_pure _)
  | node h l x w r ihl ihr =>
    rw [insertT, depth_node]
    refine within_call ?_
    split
    · exact (within_then ihl fun _ => within_then (within_lift _) fun _ => within_pure _).mono (by omega)
    · split
      · exact (within_then ihr fun _ => within_then (within_lift _) fun _ => within_pure _).mono (by omega)
      · exact (within_pure _).mono (by omega)

theorem removeT_within (t : ATree K V) (k : K) : Within (depth t + 1) (removeT t k) := by
  induction t with
  | nil => exact within_call (within_pure _)
  | node h l x w r ihl ihr =>
    rw [removeT, depth_node]
    refine within_call ?_
    split
    · exact (within_then ihl fun _ => within_then (within_lift _) fun _ => within_pure _).mono (by omega)
    · split
      · exact (within_then ihr fun _ => within_then (within_lift _) fun _ => within_pure _).mono (by omega)
      · exact (within_then (joinChildrenT_within l r) fun _ => within_then (within_lift _) fun _ => within_pure _).mono (by omega)

end Avl

/-! ### Red-black trees -/

namespace RedBlack

open Verif.RedBlack

variable {K V : Type}

/-- red_black_tree/tree.rs:17-40 `remove_min` (the first argument is fuel, as in the model). -/
def removeMinT : Nat → RTree K V → Traced ((K × V) × RTree K V)
  | 0, _ => lift none
  | _ + 1, .nil => call (lift none)
  | _ + 1, .node _ .nil k v r => call (pure ((k, v), r))
  | n + 1, .node c (.node cl ll lk lv lr) k v r => call do
    let t ← lift (moveLeft (.node c (.node cl ll lk lv lr) k v r))
    match t with
    | .nil => lift none
    | .node c l k v r => do
      let p ← removeMinT n l
      let t ← lift (balance (.node c p.2 k v r))
      return (p.1, t)

/-- red_black_tree/tree.rs:42-52 `combine_subtrees`. -/
def combineSubtreesT (l r : RTree K V) (c : Color) : Traced (RTree K V) := do
  let p ← removeMinT (r.size + 1) r
  return .node c l p.1.1 p.1.2 p.2

variable [LinearOrder K]

/-- red_black_tree/tree.rs:62-103 `insert`. -/
def insertT : RTree K V → K → V → Traced (RTree K V × Option (K × V))
  | .nil, k, v => call (pure (newNode k v, none))
  | .node c l x w r, k, v => call <|
    if k < x then do
      let p ← insertT l k v
      let t ← lift (fixInsert (.node c p.1 x w r))
      return (t, p.2)
    else if x < k then do
      let p ← insertT r k v
      let t ← lift (fixInsert (.node c l x w p.1))
      return (t, p.2)
    else do
      let t ← lift (fixInsert (.node c l k v r))
      return (t, some (x, w))

/-- red_black_tree/tree.rs:105-172 `remove` (the first argument is fuel, as in the model). -/
def removeT : Nat → RTree K V → K → Traced (RTree K V × Option (K × V))
  | 0, _, _ => lift none
  | _ + 1, .nil, _ => call (pure (.nil, none))
  | n + 1, .node c l x w r, k => call <|
    if k < x then do
      let t ← lift (moveLeft (.node c l x w r))
      match t with
      | .nil => lift none
      | .node c l x w r => do
        let p ← removeT n l k
        let t ← lift (balance (.node c p.1 x w r))
        return (t, p.2)
    else do
      let t ← lift (moveRight₁ (.node c l x w r))
      match t with
      | .nil => lift none
      | .node c l x w r =>
        if k = x ∧ isNil r = true then
          if isNil l then pure (.nil, some (x, w)) else lift none
        else do
          let t ← lift (moveRight₂ (.node c l x w r))
          match t with
          | .nil => lift none
          | .node c l x w r =>
            if k = x then do
              let t ← combineSubtreesT l r c
              let t ← lift (balance t)
              return (t, some (x, w))
            else do
              let p ← removeT n r k
              let t ← lift (balance (.node c l x w p.1))
              return (t, p.2)

omit [LinearOrder K] in
theorem removeMinT_val (n : Nat) (t : RTree K V) : (removeMinT n t).val = removeMin n t := by
  induction n generalizing t with
  | zero => rfl
  | succ n ih =>
    rcases t with _ | ⟨c, _ | ⟨cl, ll, lk, lv, lr⟩, k, v, r⟩
    · rfl
    · rfl
    · rw [removeMinT, removeMin]
      simp only [val_call, val_bind, val_lift]
      cases moveLeft (.node c (.node cl ll lk lv lr) k v r) with
      | none => rfl
      | some t =>
        cases t with
        | nil => rfl
        | node => simp only [Option.bind_some, val_bind, val_lift, val_pure, ih]; rfl

omit [LinearOrder K] in
theorem combineSubtreesT_val (l r : RTree K V) (c : Color) : (combineSubtreesT l r c).val = combineSubtrees l r c := by
  simp only [combineSubtreesT, combineSubtrees, val_bind, val_pure, removeMinT_val]
  rfl

theorem insertT_val (t : RTree K V) (k : K) (v : V) : (insertT t k v).val = RedBlack.insert t k v := by
  induction t with
  | nil => rfl
  | node h l x w r ihl ihr =>
    rw [insertT, RedBlack.insert, val_call]
    split
    · simp only [val_bind, val_lift, val_pure, ihl]; rfl
    · split
      · simp only [val_bind, val_lift, val_pure, ihr]; rfl
      · simp only [val_bind, val_lift, val_pure]; rfl

theorem removeT_val (n : Nat) (t : RTree K V) (k : K) : (removeT n t k).val = remove n t k := by
  induction n generalizing t with
  | zero => rfl
  | succ n ih =>
    cases t with
    | nil => rfl
    | node c l x w r =>
      rw [removeT, remove, val_call]
      split
      · simp only [val_bind, val_lift]
        cases moveLeft (.node c l x w r) with
        | none => rfl
        | some t =>
          cases t with
          | nil => rfl
          | node => simp only [Option.bind_some, val_bind, val_lift, val_pure, ih]; rfl
      · simp only [val_bind, val_lift]
        cases moveRight₁ (.node c l x w r) with
        | none => rfl
        | some t =>
          cases t with
          | nil => rfl
          | node c l x w r =>
            simp only [Option.bind_eq_bind, Option.bind_some]
            split
            · split <;> rfl
            · simp only [val_bind, val_lift]
              cases moveRight₂ (.node c l x w r) with
              | none => rfl
              | some t =>
                cases t with
                | nil => rfl
                | node c l x w r =>
                  simp only [Option.bind_some]
                  split
                  · simp only [val_bind, val_lift, val_pure, combineSubtreesT_val]; rfl
                  · simp only [val_bind, val_lift, val_pure, ih]; rfl

omit [LinearOrder K] in
theorem removeMinT_within (fuel : Nat) : ∀ {n : Nat} {c : Color} {t : RTree K V}, LL n c t → Ready t →
    Within (rank n c + 1) (removeMinT fuel t) := by
  induction fuel with
  | zero => intro n c t _ _; exact (within_lift _).mono (by omega)
  | succ fuel ih =>
    intro n c t h hr
    rcases t with _ | ⟨d, _ | ⟨cl, ll, lk, lv, lr⟩, k, v, r⟩
    · exact (within_call (within_lift _)).mono (by omega)
    · exact (within_call (within_pure _)).mono (by omega)
    · have hd : d = c := by cases d <;> simp [ll_red, ll_black] at h <;> exact h.1.symm
      subst hd
      obtain ⟨c₁, l₁, x₁, w₁, r₁, m, cl', h1, -, -, -, h4, h5, -, h6⟩ := moveLeft_spec h hr
      rw [removeMinT, h1]
      refine within_call (within_bind ((within_lift _).mono (Nat.zero_le _)) ?_)
      rintro t ht
      cases ht
      exact (within_then (ih h4 h5) fun _ => within_then (within_lift _) fun _ => within_pure _).mono (by omega)

theorem insertT_within (t : RTree K V) (k : K) (v : V) : Within (depth t + 1) (insertT t k v) := by
  induction t with
  | nil => exact within_call (within_pure _)
  | node h l x w r ihl ihr =>
    rw [insertT, Avl.depth_node]
    refine within_call ?_
    split
    · exact (within_then ihl fun _ => within_then (within_lift _) fun _ => within_pure _).mono (by omega)
    · split
      · exact (within_then ihr fun _ => within_then (within_lift _) fun _ => within_pure _).mono (by omega)
      · exact (within_then (within_lift _) fun _ => within_pure _).mono (by omega)

theorem removeT_within (fuel : Nat) : ∀ {n : Nat} {c : Color} {t : RTree K V} {k : K},
    ((LL n c t ∧ Ready t) ∨ (c = .black ∧ RightRed n t ∧ ∀ d l x w r, t = .node d l x w r → ¬ k < x)) →
    SL.Sorted t.toList → Within (rank n c + 1) (removeT fuel t k) := by
  induction fuel with
  | zero => intro n c t k _ _; exact (within_lift _).mono (by omega)
  | succ fuel ih =>
    intro n c t k h hs
    cases t with
    | nil => exact (within_call (within_pure _)).mono (by omega)
    | node d l x w r =>
      rw [removeT]
      refine within_call ?_
      by_cases hk : k < x
      · rw [if_pos hk]
        rcases h with ⟨h, hr⟩ | ⟨_, _, h⟩
        rotate_left
        · exact absurd hk (h d l x w r rfl)
        have hd : d = c := by cases d <;> simp [ll_red, ll_black] at h <;> exact h.1.symm
        subst hd
        obtain ⟨c₁, l₁, x₁, w₁, r₁, m, cl', h1, h2, -, -, h4, h5, -, h6⟩ := moveLeft_spec h hr
        rw [Tree.toList_node, ← h2] at hs
        rw [h1]
        refine within_bind ((within_lift _).mono (Nat.zero_le _)) ?_
        rintro t ht
        cases ht
        exact (within_then (ih (.inl ⟨h4, h5⟩) (SL.sorted_mid.1 hs).1) fun _ =>
          within_then (within_lift _) fun _ => within_pure _).mono (by omega)
      · rw [if_neg hk]
        have hpre : (LL n c (.node d l x w r) ∧ Ready (.node d l x w r)) ∨
            (c = .black ∧ RightRed n (.node d l x w r)) := by
          rcases h with h | h
          · exact .inl h
          · exact .inr ⟨h.1, h.2.1⟩
        obtain ⟨c₁, l₁, x₁, w₁, r₁, h1, -, -, -, c₂, l₂, x₂, w₂, r₂, m, cr, h4, h5, -, -, -, h6, h8⟩ :=
          moveRight_spec hpre
        rw [Tree.toList_node] at hs
        have hlx : ∀ e ∈ l.toList, e.1 < x := (SL.sorted_mid.1 hs).2.2.1
        rw [← h5] at hs
        rw [h1]
        refine within_bind ((within_lift _).mono (Nat.zero_le _)) ?_
        rintro t ht
        cases ht
        show Within _ (if k = x₁ ∧ isNil r₁ = true then _ else _)
        split
        · split
          · exact (within_pure _).mono (Nat.zero_le _)
          · exact (within_lift _).mono (Nat.zero_le _)
        · rw [h4]
          refine within_bind ((within_lift _).mono (Nat.zero_le _)) ?_
          rintro t ht
          cases ht
          show Within _ (if k = x₂ then _ else _)
          split
          · rename_i hkx
            have h8' : LL m cr r₂ ∧ Ready r₂ := by
              rcases h8 with h8 | ⟨_, _, ⟨e, he, h8⟩, _⟩
              · exact h8
              · exact absurd (by rw [hkx, ← h8]; exact hlx e he) hk
            exact (within_then (within_then (removeMinT_within _ h8'.1 h8'.2) fun _ => within_pure _) fun _ =>
              within_then (within_lift _) fun _ => within_pure _).mono (by omega)
          · have hpre' : (LL m cr r₂ ∧ Ready r₂) ∨
                (cr = .black ∧ RightRed m r₂ ∧ ∀ d l x w r, r₂ = .node d l x w r → ¬ k < x) := by
              rcases h8 with h8 | ⟨e1, e2, _, cy, ly, wy, ry, rfl⟩
              · exact .inl h8
              · refine .inr ⟨e1, e2, ?_⟩
                intro d' l' x' w' r' he
                simp only [Tree.node.injEq] at he
                rw [← he.2.2.1]; exact hk
            exact (within_then (ih hpre' (SL.sorted_mid.1 hs).2.1) fun _ =>
              within_then (within_lift _) fun _ => within_pure _).mono (by omega)

end RedBlack

/-! ### Treaps -/

namespace Treap

open Verif.Treap

variable {K V : Type}

theorem depth_mk (p : Nat) (l r : TTree K V) (k : K) (v : V) : depth (mk p l k v r) = max (depth l) (depth r) + 1 := rfl

/-- treap/tree.rs:9-26 `merge` of a non-empty left tree, as in the model. -/
def mergeIntoT (a : Ann) (ll : TTree K V) (k : K) (v : V) (lr : TTree K V) (f : TTree K V → Traced (TTree K V)) :
    TTree K V → Traced (TTree K V)
  | .nil => call (pure (.node a ll k v lr))
  | .node b rl x w rr => call <|
    if a.prio > b.prio then do
      let t ← f (.node b rl x w rr)
      return mk a.prio ll k v t
    else do
      let t ← mergeIntoT a ll k v lr f rl
      return mk b.prio t x w rr

/-- treap/tree.rs:9-26 (treap/implicit_tree.rs:7-24) `merge`. -/
def mergeT : TTree K V → TTree K V → Traced (TTree K V)
  | .nil => fun r => call (pure r)
  | .node a ll k v lr => mergeIntoT a ll k v lr (mergeT lr)

theorem mergeT_val (l r : TTree K V) : (mergeT l r).val = some (merge l r) := by
  induction l generalizing r with
  | nil => rfl
  | node a ll k v lr _ ih =>
    rw [mergeT, merge]
    induction r with
    | nil => rfl
    | node b rl x w rr ihl _ =>
      rw [mergeIntoT, mergeInto, val_call]
      split
      · simp only [val_bind, val_pure, ih, Option.bind_some]
      · simp only [val_bind, val_pure, ihl, Option.bind_some]

theorem mergeT_within (l r : TTree K V) : Within (depth l + depth r + 1) (mergeT l r) := by
  induction l generalizing r with
  | nil => exact (within_call (within_pure _)).mono (by omega)
  | node a ll k v lr _ ih =>
    rw [mergeT]
    induction r with
    | nil => exact (within_call (within_pure _)).mono (by omega)
    | node b rl x w rr ihl _ =>
      rw [mergeIntoT]
      simp only [depth] at ih ihl ⊢
      split
      · have := ih (.node b rl x w rr)
        simp only [depth] at this
        exact (within_call (within_then this fun _ => within_pure _)).mono (by omega)
      · exact (within_call (within_then ihl fun _ => within_pure _)).mono (by omega)

theorem depth_merge (l r : TTree K V) : depth (merge l r) ≤ depth l + depth r := by
  induction l generalizing r with
  | nil => show depth r ≤ _; omega
  | node a ll k v lr _ ih =>
    rw [merge]
    induction r with
    | nil => show depth (.node a ll k v lr) ≤ _; omega
    | node b rl x w rr ihl _ =>
      rw [mergeInto]
      split
      · have := ih (.node b rl x w rr)
        simp only [depth_mk, depth] at *; omega
      · simp only [depth_mk, depth] at *; omega

variable [LinearOrder K]

/-- treap/tree.rs:28-60 `split`. -/
def splitT (key : K) : TTree K V → Traced (TTree K V × TTree K V × TTree K V)
  | .nil => call (pure (.nil, .nil, .nil))
  | .node a l k v r => call <|
    if key < k then do
      let p ← splitT key l
      return (p.1, p.2.1, mk a.prio p.2.2 k v r)
    else if k < key then do
      let p ← splitT key r
      return (mk a.prio l k v p.1, p.2.1, p.2.2)
    else pure (l, mk a.prio .nil k v .nil, r)

/-- treap/tree.rs:62-98 `insert`. -/
def insertT (p : Nat) (key : K) (v : V) : TTree K V → Traced (TTree K V × Option (K × V))
  | .nil => call (pure (.node ⟨p, 1⟩ .nil key v .nil, none))
  | .node a l k w r => call <|
    if p ≤ a.prio then
      if key < k then do
        let q ← insertT p key v l
        return (mk a.prio q.1 k w r, q.2)
      else if k < key then do
        let q ← insertT p key v r
        return (mk a.prio l k w q.1, q.2)
      else pure (.node a l key v r, some (k, w))
    else do
      let q ← splitT key (.node a l k w r)
      return (mk p q.1 key v q.2.2, entry q.2.1)

/-- treap/tree.rs:100-126 `remove`. -/
def removeT (key : K) : TTree K V → Traced (TTree K V × Option (K × V))
  | .nil => call (pure (.nil, none))
  | .node a l k v r => call <|
    if key < k then do
      let q ← removeT key l
      return (mk a.prio q.1 k v r, q.2)
    else if k < key then do
      let q ← removeT key r
      return (mk a.prio l k v q.1, q.2)
    else do
      let t ← mergeT l r
      return (t, some (k, v))

/-- treap/map.rs:323-343 `split_off`. -/
def splitOffT (m : TreapMap K V) (key : K) (inclusive : Bool) : Traced (TreapMap K V × TreapMap K V) := do
  let p ← splitT key m.tree
  if inclusive then do
    let t ← mergeT p.1 p.2.1
    return (⟨t⟩, ⟨p.2.2⟩)
  else do
    let t ← mergeT p.2.1 p.2.2
    return (⟨p.1⟩, ⟨t⟩)

/-- treap/tree.rs:222-240, the body of `union` after the swap, as in the model. -/
def unionNT (f : TTree K V → TTree K V → Bool → Traced (TTree K V)) (a : Ann) (l : TTree K V) (k : K)
    (v : V) (r : TTree K V) (o : TTree K V) (sw : Bool) : Traced (TTree K V) := do
  let p ← splitT k o
  let l' ← f l p.1 sw
  let r' ← f r p.2.2 sw
  let e := if sw then (entry p.2.1).getD (k, v) else (k, v)
  return mk a.prio l' e.1 e.2 r'

/-- treap/tree.rs:212-245 `union` (the first argument is fuel, as in the model). -/
def unionT : Nat → TTree K V → TTree K V → Bool → Traced (TTree K V)
  | 0, _, _, _ => lift none
  | n + 1, .node a ll k v lr, .node b rl x w rr, sw => call <|
    if a.prio < b.prio then unionNT (unionT n) b rl x w rr (.node a ll k v lr) (!sw)
    else unionNT (unionT n) a ll k v lr (.node b rl x w rr) sw
  | _ + 1, .nil, r, _ => call (pure r)
  | _ + 1, .node a ll k v lr, .nil, _ => call (pure (.node a ll k v lr))

theorem splitT_val (key : K) (t : TTree K V) : (splitT key t).val = some (split key t) := by
  induction t with
  | nil => rfl
  | node a l k v r ihl ihr =>
    rw [splitT, split, val_call]
    split
    · simp only [val_bind, val_pure, ihl, Option.bind_some]
    · split
      · simp only [val_bind, val_pure, ihr, Option.bind_some]
      · rfl

theorem insertT_val (p : Nat) (key : K) (v : V) (t : TTree K V) : (insertT p key v t).val = some (Treap.insert p key v t) := by
  induction t with
  | nil => rfl
  | node a l k w r ihl ihr =>
    rw [insertT, Treap.insert, val_call]
    split
    · split
      · simp only [val_bind, val_pure, ihl, Option.bind_some]
      · split
        · simp only [val_bind, val_pure, ihr, Option.bind_some]
        · rfl
    · simp only [val_bind, val_pure, splitT_val, Option.bind_some, insertAbove]

theorem removeT_val (key : K) (t : TTree K V) : (removeT key t).val = some (remove key t) := by
  induction t with
  | nil => rfl
  | node a l k v r ihl ihr =>
    rw [removeT, remove, val_call]
    split
    · simp only [val_bind, val_pure, ihl, Option.bind_some]
    · split
      · simp only [val_bind, val_pure, ihr, Option.bind_some]
      · simp only [val_bind, val_pure, mergeT_val, Option.bind_some]

theorem splitOffT_val (m : TreapMap K V) (key : K) (inclusive : Bool) :
    (splitOffT m key inclusive).val = some (m.splitOff key inclusive) := by
  simp only [splitOffT, TreapMap.splitOff, val_bind, splitT_val, Option.bind_some]
  split
  · simp only [val_bind, val_pure, mergeT_val, Option.bind_some]
  · simp only [val_bind, val_pure, mergeT_val, Option.bind_some]

theorem unionT_val (n : Nat) (l r : TTree K V) (sw : Bool) : (unionT n l r sw).val = unionF n l r sw := by
  induction n generalizing l r sw with
  | zero => cases l <;> cases r <;> rfl
  | succ n ih =>
    cases l with
    | nil => cases r <;> rfl
    | node a ll k v lr =>
      cases r with
      | nil => rfl
      | node b rl x w rr =>
        rw [unionT, unionF, val_call]
        split
        · simp only [unionNT, unionN, val_bind, splitT_val, Option.bind_some, ih, val_pure]; rfl
        · simp only [unionNT, unionN, val_bind, splitT_val, Option.bind_some, ih, val_pure]; rfl

theorem splitT_within (key : K) (t : TTree K V) : Within (depth t + 1) (splitT key t) := by
  induction t with
  | nil => exact within_call (within_pure _)
  | node a l k v r ihl ihr =>
    rw [splitT, Avl.depth_node]
    refine within_call ?_
    split
    · exact (within_then ihl fun _ => within_pure _).mono (by omega)
    · split
      · exact (within_then ihr fun _ => within_pure _).mono (by omega)
      · exact (within_pure _).mono (by omega)

theorem depth_split (key : K) (t : TTree K V) : depth (split key t).1 ≤ depth t ∧ depth (split key t).2.1 ≤ 1 ∧
    depth (split key t).2.2 ≤ depth t := by
  induction t with
  | nil => simp [split, depth]
  | node a l k v r ihl ihr =>
    rw [split]
    split
    · generalize split key l = p at ihl
      obtain ⟨x, y, z⟩ := p
      simp only [depth_mk, depth] at *; omega
    · split
      · generalize split key r = p at ihr
        obtain ⟨x, y, z⟩ := p
        simp only [depth_mk, depth] at *; omega
      · simp only [depth_mk, depth]; omega

theorem insertT_within (p : Nat) (key : K) (v : V) (t : TTree K V) : Within (depth t + 2) (insertT p key v t) := by
  induction t with
  | nil => exact (within_call (within_pure _)).mono (by omega)
  | node a l k w r ihl ihr =>
    rw [insertT, Avl.depth_node]
    refine within_call ?_
    split
    · split
      · exact (within_then ihl fun _ => within_pure _).mono (by omega)
      · split
        · exact (within_then ihr fun _ => within_pure _).mono (by omega)
        · exact (within_pure _).mono (by omega)
    · exact (within_then (splitT_within key (.node a l k w r)) fun _ => within_pure _).mono (by rw [Avl.depth_node])

theorem removeT_within (key : K) (t : TTree K V) : Within (2 * depth t + 1) (removeT key t) := by
  induction t with
  | nil => exact within_call (within_pure _)
  | node a l k v r ihl ihr =>
    rw [removeT, Avl.depth_node]
    refine within_call ?_
    split
    · exact (within_then ihl fun _ => within_pure _).mono (by omega)
    · split
      · exact (within_then ihr fun _ => within_pure _).mono (by omega)
      · exact (within_then (mergeT_within l r) fun _ => within_pure _).mono (by omega)

theorem splitOffT_within (m : TreapMap K V) (key : K) (inclusive : Bool) :
    Within (depth m.tree + 2) (splitOffT m key inclusive) := by
  have h := depth_split key m.tree
  refine within_bind ((splitT_within key m.tree).mono (by omega)) ?_
  intro p hp
  rw [splitT_val] at hp
  cases hp
  split
  · exact (within_then (mergeT_within _ _) fun _ => within_pure _).mono (by omega)
  · exact (within_then (mergeT_within _ _) fun _ => within_pure _).mono (by omega)

theorem unionNT_within {n : Nat} (hf : ∀ l r : TTree K V, ∀ sw, Within (depth l + depth r + 2) (unionT n l r sw)) (a : Ann)
    (l : TTree K V) (k : K) (v : V) (r o : TTree K V) (sw : Bool) :
    Within (max (depth l) (depth r) + depth o + 2) (unionNT (unionT n) a l k v r o sw) := by
  have h := depth_split k o
  refine within_bind ((splitT_within k o).mono (by omega)) ?_
  intro p hp
  rw [splitT_val] at hp
  cases hp
  refine within_bind ((hf _ _ _).mono (by omega)) fun _ _ => ?_
  exact within_bind ((hf _ _ _).mono (by omega)) fun _ _ => (within_pure _).mono (by omega)

theorem unionT_within (n : Nat) (l r : TTree K V) (sw : Bool) : Within (depth l + depth r + 2) (unionT n l r sw) := by
  induction n generalizing l r sw with
  | zero => cases l <;> cases r <;> exact (within_lift _).mono (by omega)
  | succ n ih =>
    cases l with
    | nil => exact (within_call (within_pure _)).mono (by omega)
    | node a ll k v lr =>
      cases r with
      | nil => exact (within_call (within_pure _)).mono (by omega)
      | node b rl x w rr =>
        rw [unionT]
        split
        · refine (within_call (unionNT_within ih _ _ _ _ _ _ _)).mono ?_
          simp only [depth]; omega
        · refine (within_call (unionNT_within ih _ _ _ _ _ _ _)).mono ?_
          simp only [depth]; omega

end Treap

/-! ### Implicit treaps -/

namespace Implicit

open Verif.Treap Verif.Treap.Implicit
open Drop.Treap (mergeT mergeT_val mergeT_within depth_merge depth_mk)

variable {V : Type}

/-- treap/implicit_tree.rs:26-47 `split`. -/
def splitT (leftInclusive : Bool) : Nat → ITree V → Traced (ITree V × ITree V)
  | _, .nil => call (pure (.nil, .nil))
  | index, .node a l k v r => call <|
    if index < implicitKey l ∨ (index = implicitKey l ∧ leftInclusive = true) then do
      let p ← splitT leftInclusive index l
      return (p.1, mk a.prio p.2 k v r)
    else do
      let p ← splitT leftInclusive (index - implicitKey l) r
      return (mk a.prio l k v p.1, p.2)

/-- treap/implicit_tree.rs:49-54 `insert`. -/
def insertT (index p : Nat) (v : V) (t : ITree V) : Traced (ITree V) :=
  if 1 ≤ index ∧ index ≤ len t + 1 then do
    let q ← splitT true index t
    let t ← mergeT q.1 (.node ⟨p, 1⟩ .nil () v .nil)
    mergeT t q.2
  else lift none

/-- treap/implicit_tree.rs:56-87 `remove`. -/
def removeT : Nat → ITree V → Traced (ITree V × V)
  | _, .nil => call (lift none)
  | index, .node a l k v r => call <|
    if 1 ≤ index ∧ index ≤ a.len then
      if index < implicitKey l then do
        let q ← removeT index l
        return (mk a.prio q.1 k v r, q.2)
      else if implicitKey l < index then do
        let q ← removeT (index - implicitKey l) r
        return (mk a.prio l k v q.1, q.2)
      else do
        let t ← mergeT l r
        return (t, v)
    else lift none

/-- treap/implicit_tree.rs:89-98 `get` (and `get_mut` 100-109). -/
def getT : Nat → ITree V → Traced (Option V)
  | _, .nil => call (pure none)
  | index, .node _ l _ v r => call <|
    if index < implicitKey l then getT index l
    else if implicitKey l < index then getT (index - implicitKey l) r
    else pure (some v)

theorem splitT_val (b : Bool) (index : Nat) (t : ITree V) : (splitT b index t).val = some (Implicit.split b index t) := by
  induction t generalizing index with
  | nil => rfl
  | node a l k v r ihl ihr =>
    simp only [splitT, Implicit.split, val_call]
    split
    · simp only [val_bind, val_pure, ihl, Option.bind_some]
    · simp only [val_bind, val_pure, ihr, Option.bind_some]

theorem insertT_val (index p : Nat) (v : V) (t : ITree V) : (insertT index p v t).val = Implicit.insert index p v t := by
  unfold insertT Implicit.insert
  split
  · simp only [val_bind, splitT_val, mergeT_val, Option.bind_some]
  · rfl

theorem removeT_val (index : Nat) (t : ITree V) : (removeT index t).val = Implicit.remove index t := by
  induction t generalizing index with
  | nil => rfl
  | node a l k v r ihl ihr =>
    simp only [removeT, Implicit.remove, val_call]
    split
    · split
      · simp only [val_bind, val_pure, ihl]; rfl
      · split
        · simp only [val_bind, val_pure, ihr]; rfl
        · simp only [val_bind, val_pure, mergeT_val, Option.bind_some]
    · rfl

theorem getT_val (index : Nat) (t : ITree V) : (getT index t).val = some (get index t) := by
  induction t generalizing index with
  | nil => rfl
  | node a l k v r ihl ihr =>
    simp only [getT, Implicit.get, val_call]
    split
    · exact ihl _
    · split
      · exact ihr _
      · rfl

theorem splitT_within (b : Bool) (index : Nat) (t : ITree V) : Within (depth t + 1) (splitT b index t) := by
  induction t generalizing index with
  | nil => exact within_call (within_pure _)
  | node a l k v r ihl ihr =>
    simp only [splitT, depth]
    refine within_call ?_
    split
    · exact (within_then (ihl _) fun _ => within_pure _).mono (by omega)
    · exact (within_then (ihr _) fun _ => within_pure _).mono (by omega)

theorem depth_split (b : Bool) (index : Nat) (t : ITree V) :
    depth (Implicit.split b index t).1 ≤ depth t ∧ depth (Implicit.split b index t).2 ≤ depth t := by
  induction t generalizing index with
  | nil => simp [Implicit.split, depth]
  | node a l k v r ihl ihr =>
    have h1 := ihl index
    have h2 := ihr (index - implicitKey l)
    simp only [Implicit.split]
    split
    · simp only [depth_mk, depth] at *; omega
    · simp only [depth_mk, depth] at *; omega

theorem insertT_within (index p : Nat) (v : V) (t : ITree V) : Within (2 * depth t + 2) (insertT index p v t) := by
  unfold insertT
  split
  · have h := depth_split true index t
    refine within_bind ((splitT_within true index t).mono (by omega)) ?_
    intro q hq
    rw [splitT_val] at hq
    cases hq
    have h1 : depth (.node ⟨p, 1⟩ .nil () v .nil : ITree V) = 1 := rfl
    refine within_bind ((mergeT_within _ _).mono (by rw [h1]; omega)) ?_
    intro t' ht
    rw [mergeT_val] at ht
    cases ht
    have h2 := depth_merge (Implicit.split true index t).1 (.node ⟨p, 1⟩ .nil () v .nil)
    exact (mergeT_within _ _).mono (by rw [h1] at h2; omega)
  · exact (within_lift _).mono (by omega)

theorem removeT_within (index : Nat) (t : ITree V) : Within (2 * depth t + 1) (removeT index t) := by
  induction t generalizing index with
  | nil => exact within_call (within_lift _)
  | node a l k v r ihl ihr =>
    simp only [removeT, depth]
    refine within_call ?_
    split
    · split
      · exact (within_then (ihl _) fun _ => within_pure _).mono (by omega)
      · split
        · exact (within_then (ihr _) fun _ => within_pure _).mono (by omega)
        · exact (within_then (mergeT_within l r) fun _ => within_pure _).mono (by omega)
    · exact (within_lift _).mono (by omega)

theorem getT_within (index : Nat) (t : ITree V) : Within (depth t + 1) (getT index t) := by
  induction t generalizing index with
  | nil => exact within_call (within_pure _)
  | node a l k v r ihl ihr =>
    simp only [getT, depth]
    refine within_call ?_
    split
    · exact (ihl _).mono (by omega)
    · split
      · exact (ihr _).mono (by omega)
      · exact (within_pure _).mono (by omega)

end Implicit

/-! ### Radix trees -/

namespace Radix

open Verif.Radix

variable {V : Type}

/-- radix/node.rs:62-74 `insert_inner`. -/
def insertChildT (nb : Byte) (nk : Key) (nv : Option V) (nc : Radix.Tree V) : Radix.Tree V → Traced (Radix.Tree V)
  | .nil => call (pure (.node (nb :: nk) nv .nil nc))
  | .node [] _ _ _ => call (lift none)
  | .node (b :: k) v next child => call <|
    if b > nb then pure (.node (nb :: nk) nv (.node (b :: k) v next child) nc)
    else do
      let next ← insertChildT nb nk nv nc next
      return .node (b :: k) v next child

/-- radix/node.rs:61-76 `insert_child` of a leaf. -/
def insertLeafT (key : Key) (value : V) (children : Radix.Tree V) : Traced (Radix.Tree V) :=
  match key with
  | [] => lift none
  | b :: k => insertChildT b k (some value) .nil children

/-- radix/node.rs:53-59 `split`. -/
def splitChildT (key : Key) (value : Option V) (child : Radix.Tree V) : Traced (Radix.Tree V) :=
  match key with
  | [] => lift none
  | b :: k => insertChildT b k value child .nil

/-- radix/tree.rs:9-40, the body of `insert` on a node; `sub` is the recursive call of line 27. -/
def insertNodeT (k : Key) (v : Option V) (next child : Radix.Tree V) (key : Key) (value : V)
    (sub : Traced (Radix.Tree V × Option V)) : Traced (Radix.Tree V × Option V) :=
  match cmpKey k key with
  | .split i => do
    let c ← splitChildT (k.drop i) v child
    let c ← insertLeafT (key.drop i) value c
    return (.node (k.take i) none next c, none)
  | .less =>
    match key.drop k.length with
    | [] => lift none
    | byte :: rest =>
      match getChild byte child with
      | none => lift none
      | some .nil => do
        let c ← insertLeafT (byte :: rest) value child
        return (.node k v next c, none)
      | some (.node ..) => do
        let p ← sub
        return (.node k v next p.1, p.2)
  | .greater => do
    let c ← splitChildT (k.drop key.length) v child
    return (.node (k.take key.length) (some value) next c, none)
  | .equal => pure (.node k (some value) next child, v)

/-- radix/tree.rs:7-41 `insert` on the tree that `get_mut(byte)` finds by a loop. -/
def insertInT (key : Key) (value : V) : Radix.Tree V → Traced (Radix.Tree V × Option V)
  | .nil => lift none
  | .node k v next child =>
    match k, key with
    | b :: _, byte :: _ =>
      if b ≠ byte then do
        let p ← insertInT key value next
        return (.node k v p.1 child, p.2)
      else call (insertNodeT k v next child key value (insertInT (key.drop k.length) value child))
    | _, _ => lift none

/-- radix/tree.rs:7-41 `insert` at the root. -/
def insertT (key : Key) (value : V) : Radix.Tree V → Traced (Radix.Tree V × Option V)
  | .nil => call (lift none)
  | .node k v next child => call (insertNodeT k v next child key value (insertInT (key.drop k.length) value child))

/-- radix/tree.rs:47-82, the body of `remove` on a node; `sub` is the recursive call of line 62. -/
def removeNodeT (k : Key) (v : Option V) (next child : Radix.Tree V) (key : Key)
    (sub : Traced (Radix.Tree V × Option V)) : Traced (Radix.Tree V × Option V) :=
  match cmpKey k key with
  | .split _ => pure (.node k v next child, none)
  | .less => do
    let p ← sub
    return (replace (mergeNode k v next p.1), p.2)
  | .greater => pure (.node k v next child, none)
  | .equal => pure (replace (mergeNode k none next child), v)

/-- radix/tree.rs:43-83 `remove` on the tree that `get_mut(byte)` finds by a loop. -/
def removeInT (key : Key) : Radix.Tree V → Traced (Radix.Tree V × Option V)
  | .nil => call (pure (.nil, none))
  | .node k v next child =>
    match k, key with
    | b :: _, byte :: _ =>
      if b ≠ byte then do
        let p ← removeInT key next
        return (.node k v p.1 child, p.2)
      else call (removeNodeT k v next child key (removeInT (key.drop k.length) child))
    | _, _ => lift none

/-- radix/tree.rs:43-83 `remove` at the root. -/
def removeT (key : Key) : Radix.Tree V → Traced (Radix.Tree V × Option V)
  | .nil => call (pure (.nil, none))
  | .node k v next child => call (removeNodeT k v next child key (removeInT (key.drop k.length) child))

theorem insertChildT_val (nb : Byte) (nk : Key) (nv : Option V) (nc t : Radix.Tree V) :
    (insertChildT nb nk nv nc t).val = insertChild nb nk nv nc t := by
  induction t with
  | nil => rfl
  | node k v next child ih _ =>
    cases k with
    | nil => rfl
    | cons b k =>
      rw [insertChildT, insertChild, val_call]
      split
      · rfl
      · simp only [val_bind, val_pure, ih]
        cases insertChild nb nk nv nc next <;> rfl

theorem insertLeafT_val (key : Key) (value : V) (t : Radix.Tree V) : (insertLeafT key value t).val = insertLeaf key value t := by
  cases key with
  | nil => rfl
  | cons b k => exact insertChildT_val _ _ _ _ _

theorem splitChildT_val (key : Key) (value : Option V) (t : Radix.Tree V) :
    (splitChildT key value t).val = splitChild key value t := by
  cases key with
  | nil => rfl
  | cons b k => exact insertChildT_val _ _ _ _ _

theorem insertNodeT_val (k : Key) (v : Option V) (next child : Radix.Tree V) (key : Key) (value : V)
    (sub : Traced (Radix.Tree V × Option V)) :
    (insertNodeT k v next child key value sub).val = insertNode k v next child key value sub.val := by
  cases hc : cmpKey k key with
  | split n =>
    simp only [insertNodeT, insertNode, hc, val_bind, val_pure, splitChildT_val, insertLeafT_val]
    cases splitChild (k.drop n) v child with
    | none => rfl
    | some c =>
      simp only [Option.bind_some]
      cases insertLeaf (key.drop n) value c <;> rfl
  | less =>
    simp only [insertNodeT, insertNode, hc]
    cases key.drop k.length with
    | nil => rfl
    | cons byte rest =>
      dsimp only
      rcases getChild byte child with _ | _ | _
      · rfl
      · simp only [val_bind, val_pure, insertLeafT_val]
        cases insertLeaf (byte :: rest) value child <;> rfl
      · simp only [val_bind, val_pure]
        cases sub.val <;> rfl
  | greater =>
    simp only [insertNodeT, insertNode, hc, val_bind, val_pure, splitChildT_val]
    cases splitChild (k.drop key.length) v child <;> rfl
  | equal => simp only [insertNodeT, insertNode, hc, val_pure]

theorem insertInT_val (key : Key) (value : V) (t : Radix.Tree V) : (insertInT key value t).val = insertIn key value t := by
  induction t generalizing key with
  | nil => rfl
  | node k v next child ih1 ih2 =>
    cases k with
    | nil => cases key <;> rfl
    | cons b k =>
      cases key with
      | nil => rfl
      | cons byte key =>
        simp only [insertInT, insertIn]
        split
        · simp only [val_bind, val_pure, ih1]
          cases insertIn (byte :: key) value next <;> rfl
        · rw [val_call, insertNodeT_val, ih2]

theorem insertT_val (key : Key) (value : V) (t : Radix.Tree V) : (insertT key value t).val = Radix.insert key value t := by
  cases t with
  | nil => rfl
  | node k v next child => rw [insertT, Radix.insert, val_call, insertNodeT_val, insertInT_val]

theorem removeNodeT_val (k : Key) (v : Option V) (next child : Radix.Tree V) (key : Key)
    (sub : Traced (Radix.Tree V × Option V)) :
    (removeNodeT k v next child key sub).val = removeNode k v next child key sub.val := by
  cases hc : cmpKey k key with
  | split n => simp only [removeNodeT, removeNode, hc, val_pure]
  | less =>
    simp only [removeNodeT, removeNode, hc, val_bind, val_pure]
    cases sub.val <;> rfl
  | greater => simp only [removeNodeT, removeNode, hc, val_pure]
  | equal => simp only [removeNodeT, removeNode, hc, val_pure]

theorem removeInT_val (key : Key) (t : Radix.Tree V) : (removeInT key t).val = removeIn key t := by
  induction t generalizing key with
  | nil => rfl
  | node k v next child ih1 ih2 =>
    cases k with
    | nil => cases key <;> rfl
    | cons b k =>
      cases key with
      | nil => rfl
      | cons byte key =>
        simp only [removeInT, removeIn]
        split
        · simp only [val_bind, val_pure, ih1]
          cases removeIn (byte :: key) next <;> rfl
        · rw [val_call, removeNodeT_val, ih2]

theorem removeT_val (key : Key) (t : Radix.Tree V) : (removeT key t).val = Radix.remove key t := by
  cases t with
  | nil => rfl
  | node k v next child => rw [removeT, Radix.remove, val_call, removeNodeT_val, removeInT_val]

/-- The number of nodes of a sibling list. -/
def siblings : Radix.Tree V → Nat
  | .nil => 0
  | .node _ _ next _ => siblings next + 1

theorem siblings_le {t : Radix.Tree V} (h : Wf t) : siblings t ≤ 256 := by
  suffices h' : ∀ t : Radix.Tree V, Wf t → siblings t ≤ room t from le_trans (h' t h) (room_le t)
  intro t
  induction t with
  | nil => intro _; exact Nat.zero_le _
  | node k v next child ih _ =>
    intro h
    cases k with
    | nil => exact absurd h id
    | cons b k =>
      have h1 := room_next (k := k) (v := v) (child := child) h.1
      have h2 := ih h.2.2.1
      simp only [siblings]; omega

theorem insertChildT_within (nb : Byte) (nk : Key) (nv : Option V) (nc t : Radix.Tree V) :
    Within (siblings t + 1) (insertChildT nb nk nv nc t) := by
  induction t with
  | nil => exact within_call (within_pure _)
  | node k v next child ih _ =>
    cases k with
    | nil => exact (within_call (within_lift _)).mono (by omega)
    | cons b k =>
      rw [insertChildT]
      refine within_call ?_
      split
      · exact (within_pure _).mono (Nat.zero_le _)
      · exact within_then ih fun _ => within_pure _

theorem insertLeafT_within (key : Key) (value : V) (t : Radix.Tree V) : Within (siblings t + 1) (insertLeafT key value t) := by
  cases key with
  | nil => exact (within_lift _).mono (by omega)
  | cons b k => exact insertChildT_within _ _ _ _ _

theorem splitChildT_within (key : Key) (value : Option V) (t : Radix.Tree V) : Within 1 (splitChildT key value t) := by
  cases key with
  | nil => exact (within_lift _).mono (by omega)
  | cons b k => exact insertChildT_within _ _ _ _ _

theorem siblings_split {key : Key} {value : Option V} {t c : Radix.Tree V} (h : splitChild key value t = some c) :
    siblings c = 1 := by
  cases key with
  | nil => cases h
  | cons b k => cases h; rfl

theorem insertNodeT_within {k : Key} {v : Option V} {next child : Radix.Tree V} {key : Key} {value : V}
    {sub : Traced (Radix.Tree V × Option V)} (hc : Wf child) {n : Nat} (hn : 257 ≤ n)
    (hs : k.length < key.length → Within n sub) : Within n (insertNodeT k v next child key value sub) := by
  have h2 := siblings_le hc
  unfold insertNodeT
  split
  · refine within_bind ((splitChildT_within _ _ _).mono (by omega)) fun c hc => ?_
    rw [splitChildT_val] at hc
    have := siblings_split hc
    exact (within_then (insertLeafT_within _ _ _) fun _ => within_pure _).mono (by omega)
  · rename_i hc
    have hl : k.length < key.length := by
      unfold cmpKey at hc
      split at hc
      · cases hc
      · split at hc
        · assumption
        · split at hc <;> cases hc
    split
    · exact (within_lift _).mono (by omega)
    · split
      · exact (within_lift _).mono (by omega)
      · exact (within_then (insertLeafT_within _ _ _) fun _ => within_pure _).mono (by omega)
      · exact within_then (hs hl) fun _ => within_pure _
  · exact (within_then (splitChildT_within _ _ _) fun _ => within_pure _).mono (by omega)
  · exact (within_pure _).mono (by omega)

theorem insertInT_within {key : Key} {value : V} {t : Radix.Tree V} (h : Wf t) :
    Within (key.length + 257) (insertInT key value t) := by
  induction t generalizing key with
  | nil => exact (within_lift _).mono (by omega)
  | node k v next child ih1 ih2 =>
    cases k with
    | nil => exact absurd h id
    | cons b k =>
      cases key with
      | nil => exact (within_lift _).mono (by omega)
      | cons byte key =>
        simp only [insertInT]
        split
        · exact within_then (ih1 h.2.2.1) fun _ => within_pure _
        · refine (within_call (insertNodeT_within (n := key.length + 257) h.2.2.2 (by omega) fun hl => ?_)).mono ?_
          · refine (ih2 h.2.2.2).mono ?_
            simp only [List.length_drop, List.length_cons]; omega
          · simp only [List.length_cons]; omega

theorem removeNodeT_within {k : Key} {v : Option V} {next child : Radix.Tree V} {key : Key}
    {sub : Traced (Radix.Tree V × Option V)} {n : Nat} (hs : k.length < key.length → Within n sub) :
    Within n (removeNodeT k v next child key sub) := by
  unfold removeNodeT
  split
  · exact (within_pure _).mono (by omega)
  · rename_i hc
    have hl : k.length < key.length := by
      unfold cmpKey at hc
      split at hc
      · cases hc
      · split at hc
        · assumption
        · split at hc <;> cases hc
    exact within_then (hs hl) fun _ => within_pure _
  · exact (within_pure _).mono (by omega)
  · exact (within_pure _).mono (by omega)

theorem removeInT_within {key : Key} (hk : key ≠ []) (t : Radix.Tree V) : Within key.length (removeInT key t) := by
  induction t generalizing key with
  | nil => exact (within_call (within_pure _)).mono (List.length_pos_of_ne_nil hk)
  | node k v next child ih1 ih2 =>
    cases k with
    | nil => cases key <;> exact (within_lift _).mono (Nat.zero_le _)
    | cons b k =>
      cases key with
      | nil => exact (within_lift _).mono (by omega)
      | cons byte key =>
        simp only [removeInT]
        split
        · exact within_then (ih1 (by simp)) fun _ => within_pure _
        · refine within_call (removeNodeT_within fun hl => ?_)
          have hd : ((byte :: key).drop (b :: k).length).length = (byte :: key).length - (b :: k).length := List.length_drop
          refine (ih2 fun e => ?_).mono ?_
          · rw [e] at hd; simp only [List.length_nil, List.length_cons] at hd hl; omega
          · rw [hd]; simp only [List.length_cons]; omega

theorem removeT_within (key : Key) (t : Radix.Tree V) : Within (key.length + 1) (removeT key t) := by
  cases t with
  | nil => exact (within_call (within_pure _)).mono (by omega)
  | node k v next child =>
    refine within_call (removeNodeT_within fun hl => ?_)
    have hd : (key.drop k.length).length = key.length - k.length := List.length_drop
    refine (removeInT_within (fun e => ?_) _).mono (by omega)
    rw [e] at hd; simp only [List.length_nil] at hd; omega

end Radix

/-! ### Lower bounds -/

namespace Traced

variable {α β : Type}

/-- At least `n` calls run at the same time at some point, besides those that run already. -/
def AtLeast (n : Nat) (x : Traced α) : Prop := ∀ d es, d + n ≤ deepest d (x.calls ++ es)

theorem AtLeast.nesting {n : Nat} {x : Traced α} (h : AtLeast n x) : n ≤ x.nesting := by
  have := h 0 []
  rw [List.append_nil] at this
  show n ≤ deepest 0 x.calls
  omega

theorem atLeast_bind {n : Nat} {x : Traced α} {f : α → Traced β} (h : AtLeast n x) : AtLeast n (x >>= f) := by
  intro d es
  show _ ≤ deepest d ((match x.val with | none => (⟨x.calls, none⟩ : Traced β) | some a => ⟨x.calls ++ (f a).calls, (f a).val⟩).calls
    ++ es)
  cases x.val with
  | none => exact h d es
  | some a =>
    simp only [List.append_assoc]
    exact h d _

theorem atLeast_call {n : Nat} {x : Traced α} (h : AtLeast n x) : AtLeast (n + 1) (call x) := by
  intro d es
  have := h (d + 1) (.leave :: es)
  simp only [call, List.cons_append, List.append_assoc, List.nil_append, deepest] at *
  omega

theorem atLeast_zero (x : Traced α) : AtLeast 0 x := fun d _ => le_deepest _ d

end Traced

theorem Avl.insertT_atLeast {K V : Type} [LinearOrder K] (t : Verif.Avl.ATree K V) (k : K) (v : V) :
    AtLeast (searchCost t k) (Avl.insertT t k v) := by
  induction t with
  | nil => exact atLeast_zero _
  | node h l x w r ihl ihr =>
    rw [Avl.insertT, searchCost]
    split
    · exact atLeast_call (atLeast_bind ihl)
    · split
      · exact atLeast_call (atLeast_bind ihr)
      · exact atLeast_call (atLeast_zero _)

theorem Avl.removeT_atLeast {K V : Type} [LinearOrder K] (t : Verif.Avl.ATree K V) (k : K) :
    AtLeast (searchCost t k) (Avl.removeT t k) := by
  induction t with
  | nil => exact atLeast_zero _
  | node h l x w r ihl ihr =>
    rw [Avl.removeT, searchCost]
    split
    · exact atLeast_call (atLeast_bind ihl)
    · split
      · exact atLeast_call (atLeast_bind ihr)
      · exact atLeast_call (atLeast_zero _)

/-! ### Properties -/

/-- **C83, red-black.**  After every history, inserting into a `RedBlackMap` of `n` entries nests at most
`2 log2 (n + 1) + 1` calls and removing at most `2 log2 (n + 1) + 2`. -/
theorem C83_red_black {K V : Type} [LinearOrder K] (ops : List (MapOp K V × Unit)) :
    ∃ s h, (RedBlack.impl K V).run RedBlack.RedBlackMap.new ops = some (s, h) ∧ ∀ k v,
      (RedBlack.insertT s.tree k v).val = Verif.RedBlack.insert s.tree k v ∧
      2 ^ (RedBlack.insertT s.tree k v).nesting ≤ 2 * (s.len + 1) ^ 2 ∧
      (RedBlack.removeT (s.tree.size + 1) (Verif.RedBlack.fixRoot s.tree) k).val =
        Verif.RedBlack.remove (s.tree.size + 1) (Verif.RedBlack.fixRoot s.tree) k ∧
      2 ^ (RedBlack.removeT (s.tree.size + 1) (Verif.RedBlack.fixRoot s.tree) k).nesting ≤ 4 * (s.len + 1) ^ 2 := by
  obtain ⟨s, h, l, h1, -, -, hs, h2, h3, h4⟩ :=
    (Verif.RedBlack.sim K V).run ops Verif.RedBlack.RedBlackMap.new [] (by simp [SL.Sorted]) (Verif.RedBlack.sim K V).empty
  refine ⟨s, h, h1, fun k v => ⟨RedBlack.insertT_val _ _ _, ?_, RedBlack.removeT_val _ _ _, ?_⟩⟩
  · obtain ⟨s', h', g1, -, -, -, g2, -⟩ := Verif.RedBlack.C08_rb_height ops
    obtain ⟨rfl, rfl⟩ : s = s' ∧ h = h' := by have := h1.symm.trans g1; simpa using this
    calc 2 ^ (RedBlack.insertT s.tree k v).nesting ≤ 2 ^ (depth s.tree + 1) :=
          Nat.pow_le_pow_right (by omega) (RedBlack.insertT_within _ _ _).nesting
      _ = 2 * 2 ^ depth s.tree := by rw [Nat.pow_succ]; ring
      _ ≤ 2 * (s.len + 1) ^ 2 := Nat.mul_le_mul_left _ g2
  · obtain ⟨n, c, g1, g2⟩ := Verif.RedBlack.fixRoot_spec h4
    have hs' : SL.Sorted (Verif.RedBlack.fixRoot s.tree).toList := by rw [Verif.RedBlack.fixRoot_toList, h2]; exact hs
    have g3 := (RedBlack.removeT_within (s.tree.size + 1) (k := k) (.inl ⟨g1, g2⟩) hs').nesting
    have g4 := (Verif.RedBlack.ll_depth g1).2
    rw [Tree.size_eq_length, Verif.RedBlack.fixRoot_toList, h2, ← h3] at g4
    have g5 : Verif.RedBlack.rank n c ≤ 2 * n + 1 := by cases c <;> simp [Verif.RedBlack.rank]
    calc 2 ^ (RedBlack.removeT (s.tree.size + 1) (Verif.RedBlack.fixRoot s.tree) k).nesting ≤ 2 ^ (2 * n + 2) :=
          Nat.pow_le_pow_right (by omega) (by omega)
      _ = 4 * (2 ^ n) ^ 2 := by rw [Nat.pow_add, ← Nat.pow_mul, Nat.mul_comm n 2]; ring
      _ ≤ 4 * (s.len + 1) ^ 2 := Nat.mul_le_mul_left _ (Nat.pow_le_pow_left g4 2)

/-- **C83, AVL without removals before.**  After every history without `remove`, inserting into or removing from an
`AvlMap` of `n` entries nests at most `d` calls where `fib (d + 1) ≤ n + 1`. -/
theorem C83_avl_partial {K V : Type} [LinearOrder K] (ops : List (MapOp K V × Unit))
    (hops : ∀ p ∈ ops, ∀ k, p.1 ≠ .remove k) :
    ∃ s h, (Avl.impl K V).run Avl.AvlMap.new ops = some (s, h) ∧ ∀ k v,
      (Avl.insertT s.tree k v).val = Verif.Avl.insert s.tree k v ∧
      fib ((Avl.insertT s.tree k v).nesting + 1) ≤ s.len + 1 ∧
      (Avl.removeT s.tree k).val = Verif.Avl.remove s.tree k ∧
      fib ((Avl.removeT s.tree k).nesting + 1) ≤ s.len + 1 := by
  obtain ⟨s, h, h1, -, h2, -⟩ := C69_avl_partial ops hops
  rw [nesting_dropTree] at h2
  refine ⟨s, h, h1, fun k v => ⟨Avl.insertT_val _ _ _, ?_, Avl.removeT_val _ _, ?_⟩⟩
  · have := (Avl.insertT_within s.tree k v).nesting
    exact le_trans (Verif.Avl.fib_mono (by omega)) h2
  · have := (Avl.removeT_within s.tree k).nesting
    exact le_trans (Verif.Avl.fib_mono (by omega)) h2

/-- **C83 fails for `AvlMap` with removals before**: for every `d` there is a history that leaves `d (d + 1) / 2` entries
after which inserting the key 0, or trying to remove it, nests at least `d` calls. -/
theorem C83_avl_violated (d : Nat) : ∃ (is rs : List Nat) (s : Avl.AvlMap Nat Nat) (h : _),
    (Avl.impl Nat Nat).run Avl.AvlMap.new ((is.map (fun k => MapOp.insert k 0) ++ rs.map fun k => MapOp.remove k).map fun op => (op, ()))
      = some (s, h) ∧ 2 * s.len = d * (d + 1) ∧ d ≤ (Avl.insertT s.tree 0 0).nesting ∧ d ≤ (Avl.removeT s.tree 0).nesting := by
  obtain ⟨is, rs, s, ⟨h, h1⟩, h2, -, h3⟩ := Verif.Avl.C07_avl_decay d
  refine ⟨is, rs, s, h, h1, h2, ?_, ?_⟩
  · rw [← h3]; exact (Avl.insertT_atLeast _ _ _).nesting
  · rw [← h3]; exact (Avl.removeT_atLeast _ _).nesting

/-- **C83, treap.**  The calls of `insert`, `remove` and `split_off` nest at most twice a number and two more deep, and over
all orders in which the distinct priorities can be drawn the share of those where that number is `t` or more above three
times the binary logarithm is at most `1 / 2 ^ t`. -/
theorem C83_treap_partial {K V : Type} [LinearOrder K] (ops : List (MapOp K V)) (ps : List Nat) (hp : ps.Nodup)
    (hl : ps.length = (Treap.inserted ops).length) (t : Nat) : ∃ height : List Nat → Nat,
    (∀ qs, ∃ s h, (Treap.impl K V).run Treap.TreapMap.new (Treap.withDraws qs ops) = some (s, h) ∧ ∀ p k v b,
      (Treap.insertT p k v s.tree).val = some (Verif.Treap.insert p k v s.tree) ∧
      (Treap.insertT p k v s.tree).nesting ≤ height qs + 2 ∧
      (Treap.removeT k s.tree).val = some (Verif.Treap.remove k s.tree) ∧
      (Treap.removeT k s.tree).nesting ≤ 2 * height qs + 1 ∧
      (Treap.splitOffT s k b).val = some (s.splitOff k b) ∧ (Treap.splitOffT s k b).nesting ≤ height qs + 2) ∧
    (ps.permutations.countP fun qs => decide (3 * Nat.clog 2 (Treap.liveInserts ops + 2) + t ≤ height qs)) * 2 ^ t ≤
      ps.permutations.length := by
  refine ⟨Verif.Treap.heightAfter ops, fun qs => ?_, Verif.Treap.C54_treap_height_tail ops ps hp hl t⟩
  obtain ⟨s, h, h1, -, h2⟩ := Verif.Treap.C54_total ops qs
  refine ⟨s, h, h1, fun p k v b => ?_⟩
  rw [h2]
  exact ⟨Treap.insertT_val _ _ _ _, (Treap.insertT_within _ _ _ _).nesting, Treap.removeT_val _ _, (Treap.removeT_within _ _).nesting,
    Treap.splitOffT_val _ _ _, (Treap.splitOffT_within _ _ _).nesting⟩

/-- **C83, union of treaps.**  The calls of `union` nest at most two deeper than the calls for destroying the two maps
nest together. -/
theorem C83_treap_union {K V : Type} [LinearOrder K] (l r : Verif.Treap.TreapMap K V) :
    (Treap.unionT (Verif.Treap.depthBound l.tree r.tree) l.tree r.tree false).val.map Verif.Treap.TreapMap.mk = l.union r ∧
    (Treap.unionT (Verif.Treap.depthBound l.tree r.tree) l.tree r.tree false).nesting ≤
      nesting (dropTree l.tree) + nesting (dropTree r.tree) + 2 := by
  rw [nesting_dropTree, nesting_dropTree, Treap.unionT_val]
  exact ⟨rfl, (Treap.unionT_within _ _ _ _).nesting⟩

/-- **C83, implicit treap.**  Take any history of calls on a new `TreapList` that does not panic and any distinct numbers, one
per insertion.  Destroying the list, `get`, `insert` and `remove` nest at most twice a number and two more deep whose average
over all orders in which the numbers can be drawn is at most three times the binary logarithm of the length. -/
theorem C83_list_partial {V : Type} (ops : List (SeqOp V)) (n : Nat) (G : List Nat)
    (hs : Verif.Treap.Implicit.slots 0 [] ops = some (n, G)) (ps : List Nat) (hp : ps.Nodup) (hl : ps.length = n) :
    ∃ height : List Nat → Nat,
    (∀ qs, ∃ s, Verif.Treap.Implicit.afterList ops qs = some s ∧ Verif.Treap.len s.tree = G.length ∧
      (freed (dropTree s.tree)).Perm (Iter.start s.tree).collect ∧ nesting (dropTree s.tree) = height qs ∧ ∀ i p v,
      (Implicit.getT i s.tree).val = some (Verif.Treap.Implicit.get i s.tree) ∧ (Implicit.getT i s.tree).nesting ≤ height qs + 1 ∧
      (Implicit.insertT i p v s.tree).val = Verif.Treap.Implicit.insert i p v s.tree ∧
      (Implicit.insertT i p v s.tree).nesting ≤ 2 * height qs + 2 ∧
      (Implicit.removeT i s.tree).val = Verif.Treap.Implicit.remove i s.tree ∧
      (Implicit.removeT i s.tree).nesting ≤ 2 * height qs + 1) ∧
    (ps.permutations.map height).sum ≤ ps.permutations.length * (3 * Nat.clog 2 (G.length + 2)) := by
  refine ⟨Verif.Treap.Implicit.listHeight ops, fun qs => ?_, (Verif.Treap.Implicit.C54_list_expected_height ops n G hs ps hp hl).2⟩
  obtain ⟨s, h1, h2, h3, -⟩ := (Verif.Treap.Implicit.C54_list_total ops qs).1 n G hs
  refine ⟨s, h1, h3, freed_dropTree _, by rw [nesting_dropTree, h2], fun i p v => ?_⟩
  rw [h2]
  exact ⟨Implicit.getT_val _ _, (Implicit.getT_within _ _).nesting, Implicit.insertT_val _ _ _ _, (Implicit.insertT_within _ _ _ _).nesting,
    Implicit.removeT_val _ _, (Implicit.removeT_within _ _).nesting⟩

/-- **C83, radix.**  In every reachable `RadixMap`, inserting a key of `n` bytes nests at most `n + 258` calls and removing
it at most `n + 1`, however many entries there are. -/
theorem C83_radix {V : Type} {s : Radix.RadixMap V} (h : Radix.Reached s) (key : Verif.Radix.Key) (v : V) :
    (Radix.insertT key v s.root).val = Verif.Radix.insert key v s.root ∧
    (Radix.insertT key v s.root).nesting ≤ key.length + 258 ∧
    (Radix.removeT key s.root).val = Verif.Radix.remove key s.root ∧
    (Radix.removeT key s.root).nesting ≤ key.length + 1 := by
  obtain ⟨hr, -⟩ := Radix.reached_inv h
  refine ⟨Radix.insertT_val _ _ _, ?_, Radix.removeT_val _ _, (Radix.removeT_within _ _).nesting⟩
  cases hs : s.root with
  | nil =>
    have : Within 1 (Radix.insertT key v (.nil : Radix.Tree V)) := within_call (within_lift _)
    have := this.nesting
    omega
  | node k v' next child =>
    rw [hs] at hr
    refine (within_call (Radix.insertNodeT_within (n := key.length + 257) hr.2.1 (by omega) fun _ => ?_)).nesting
    refine (Radix.insertInT_within hr.2.1).mono ?_
    simp only [List.length_drop]; omega

/-! ### Concrete cases -/

/-- Seven ascending keys: the nesting of an insertion and of a removal in an `AvlMap` and a `RedBlackMap`. -/
example : (∃ s h, (Avl.impl Nat Nat).run Avl.AvlMap.new ((List.range 7).map fun i => (MapOp.insert i i, ())) = some (s, h) ∧
      (Avl.insertT s.tree 9 9).nesting = 4 ∧ (Avl.removeT s.tree 3).nesting = 3 ∧ (Avl.removeT s.tree 0).nesting = 3) ∧
    (∃ s h, (RedBlack.impl Nat Nat).run RedBlack.RedBlackMap.new ((List.range 7).map fun i => (MapOp.insert i i, ())) = some (s, h) ∧
      (RedBlack.insertT s.tree 9 9).nesting = 4 ∧
      (RedBlack.removeT (s.tree.size + 1) (Verif.RedBlack.fixRoot s.tree) 3).nesting = 3) ∧
    ∀ p ∈ (List.range 7).map fun i => ((MapOp.insert i i : MapOp Nat Nat), ()), ∀ k, p.1 ≠ .remove k := by
  refine ⟨⟨_, _, rfl, by decide, by decide, by decide⟩, ⟨_, _, rfl, by decide, by decide⟩, ?_⟩
  simp

/-- Two treaps of four entries. -/
example : ∃ l r : Verif.Treap.TreapMap Nat Nat,
    l.tree.toList = [(1, 1), (2, 2), (3, 3), (4, 4)] ∧ r.tree.toList = [(0, 0), (2, 9), (5, 5), (6, 6)] ∧
      (Treap.unionT (Verif.Treap.depthBound l.tree r.tree) l.tree r.tree false).nesting = 5 ∧
      nesting (dropTree l.tree) + nesting (dropTree r.tree) + 2 = 8 ∧ (Treap.removeT 2 l.tree).nesting = 3 :=
  ⟨⟨(Verif.Treap.insert 9 2 2 (Verif.Treap.insert 3 4 4 (Verif.Treap.insert 5 3 3 (Verif.Treap.insert 1 1 1 .nil).1).1).1).1⟩,
    ⟨(Verif.Treap.insert 8 0 0 (Verif.Treap.insert 2 2 9 (Verif.Treap.insert 7 5 5 (Verif.Treap.insert 4 6 6 .nil).1).1).1).1⟩,
    by decide, by decide, by decide, by decide, by decide⟩

/-- A reachable `RadixMap` with three keys. -/
example : (Verif.Radix.runNew [MapOp.insert [1, 2, 3] 0, .insert [1, 2] 1, .insert [1, 4] 2]).map (fun p =>
      ((Radix.insertT [1, 2, 3, 4] 7 p.1.root).nesting, (Radix.removeT [1, 2, 3] p.1.root).nesting)) = some (5, 4) := by
  decide

end Verif.Drop
