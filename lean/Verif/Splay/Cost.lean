/-
Property C53: the amortized cost of `SplayMap`, counted in key comparisons.
-/
import Verif.Splay.Props
import Mathlib.Analysis.SpecialFunctions.Log.Base
import Mathlib.Tactic.Linarith
import Mathlib.Tactic.Ring

namespace Verif.Splay

open Verif.Bst Verif.Spec

variable {K V : Type} [LinearOrder K]

/-! ### Counting comparisons -/

/-- The loop of `splay` (splay_tree/tree.rs:19-63) once more, counting the calls of `key.cmp`: one for the node of
each round (line 20), one for its child if there is one (lines 23, 44). -/
def splayLoopT (k : K) : STree K V → FramesL K V → FramesR K V → STree K V × Nat
  | .nil, _, _ => (.nil, 0)
  | .node _ l x v r, ls, rs =>
    if k < x then
      match l with
      | .nil => (finish .nil x v r ls rs, 1)
      | .node _ ll lk lv lr =>
        if k < lk then
          match ll with
          | .nil => (finish .nil lk lv (nd lr x v r) ls rs, 2)
          | .node _ l' k' v' r' =>
            let (t, n) := splayLoopT k (.node () l' k' v' r') ls ((lk, lv, nd lr x v r) :: rs)
            (t, n + 2)
        else
          let (t, n) := splayLoopT k (.node () ll lk lv lr) ls ((x, v, r) :: rs)
          (t, n + 2)
    else if x < k then
      match r with
      | .nil => (finish l x v .nil ls rs, 1)
      | .node _ rl rk rv rr =>
        if rk < k then
          match rr with
          | .nil => (finish (nd l x v rl) rk rv .nil ls rs, 2)
          | .node _ l' k' v' r' =>
            let (t, n) := splayLoopT k (.node () l' k' v' r') ((nd l x v rl, rk, rv) :: ls) rs
            (t, n + 2)
        else
          let (t, n) := splayLoopT k (.node () rl rk rv rr) ((l, x, v) :: ls) rs
          (t, n + 2)
    else (finish l x v r ls rs, 1)

/-- Comparisons made by `splay` (splay_tree/tree.rs:9-71). -/
def splayCost (k : K) (t : STree K V) : Nat := (splayLoopT k t [] []).2

/-- Comparisons made by `tree::insert` (splay_tree/tree.rs:73-104): those of `splay` and the one of line 80; none on
an empty tree. -/
def insertCost (t : STree K V) (k : K) : Nat :=
  match t with
  | .nil => 0
  | t => splayCost k t + 1

/-- Comparisons made by the `splay` of splay_tree/tree.rs:125 on the left subtree of the removed node. -/
def leftCost (k : K) : STree K V → Nat
  | .nil => 0
  | l => splayCost k l

/-- Comparisons made by `tree::remove` (splay_tree/tree.rs:106-132): `splay`, the `!=` of line 114 and, if the key
was found and has a left subtree, the `splay` of line 125. -/
def removeCost (t : STree K V) (k : K) : Nat :=
  match t with
  | .nil => 0
  | t =>
    splayCost k t + 1 +
      match splay k t with
      | .nil => 0
      | .node _ l x _ _ =>
        if k ≠ x then 0 else leftCost k l

/-- Comparisons made by `tree::get_mut` (splay_tree/tree.rs:147-159): `splay` and the `==` of line 154. -/
def getMutCost (t : STree K V) (k : K) : Nat :=
  match t with
  | .nil => 0
  | t => splayCost k t + 1

/-- Comparisons made by one call of `insert`, `remove` or `get_mut`; `none` for the calls that do not restructure
the tree. -/
def callCost (m : SplayMap K V) : MapOp K V → Option Nat
  | .insert k _ => some (insertCost m.tree k)
  | .remove k => some (removeCost m.tree k)
  | .getMut k _ => some (getMutCost m.tree k)
  | _ => none

/-- Runs a list of calls and notes, for each call of `insert`, `remove` or `get_mut`, the `len` before the call and
the number of comparisons it makes. -/
def costs : SplayMap K V → List (MapOp K V) → Option (List (Nat × Nat))
  | _, [] => some []
  | m, op :: ops => do
    let (m', _) ← step m op ()
    let cs ← costs m' ops
    match callCost m op with
    | some n => return (m.len, n) :: cs
    | none => return cs

/-! ### The counting loop computes the model's loop -/

theorem splayLoopT_fst (k : K) (n : Nat) : ∀ (t : STree K V) (ls : FramesL K V) (rs : FramesR K V), t.size ≤ n →
    (splayLoopT k t ls rs).1 = splayLoop k t ls rs := by
  induction n with
  | zero => intro t ls rs h; cases t with
    | nil => simp [splayLoopT, splayLoop]
    | node => simp [Bst.Tree.size] at h
  | succ n ih =>
    intro t ls rs h
    cases t with
    | nil => simp [splayLoopT, splayLoop]
    | node a l x v r =>
      simp only [Bst.Tree.size] at h
      rw [splayLoopT.eq_def, splayLoop.eq_def]
      by_cases h1 : k < x
      · simp only [if_pos h1]
        cases l with
        | nil => rfl
        | node b ll lk lv lr =>
          simp only [Bst.Tree.size] at h
          by_cases h2 : k < lk
          · simp only [if_pos h2]
            cases ll with
            | nil => rfl
            | node c l' k' v' r' => exact ih _ _ _ (by simp only [Bst.Tree.size] at h ⊢; omega)
          · simp only [if_neg h2]
            exact ih _ _ _ (by simp only [Bst.Tree.size] at h ⊢; omega)
      · simp only [if_neg h1]
        by_cases h3 : x < k
        · simp only [if_pos h3]
          cases r with
          | nil => rfl
          | node b rl rk rv rr =>
            simp only [Bst.Tree.size] at h
            by_cases h2 : rk < k
            · simp only [if_pos h2]
              cases rr with
              | nil => rfl
              | node c l' k' v' r' => exact ih _ _ _ (by simp only [Bst.Tree.size] at h ⊢; omega)
            · simp only [if_neg h2]
              exact ih _ _ _ (by simp only [Bst.Tree.size] at h ⊢; omega)
        · simp only [if_neg h3]

/-! ### The potential -/

/-- Logarithm to base 2. -/
noncomputable def lg (x : ℝ) : ℝ := Real.logb 2 x

theorem lg_mono {a b : ℝ} (ha : 0 < a) (h : a ≤ b) : lg a ≤ lg b :=
  Real.logb_le_logb_of_le (by norm_num) ha h

theorem lg_nonneg {a : ℝ} (h : 1 ≤ a) : 0 ≤ lg a := Real.logb_nonneg (by norm_num) h

/-- Two parts of a whole cannot both be large. -/
theorem lg_am {a b c : ℝ} (ha : 0 < a) (hb : 0 < b) (h : a + b ≤ c) : lg a + lg b ≤ 2 * lg c - 2 := by
  have hc : 0 < c := by linarith
  have h1 : lg a + lg b = lg (a * b) := (Real.logb_mul (ne_of_gt ha) (ne_of_gt hb)).symm
  have h2 : lg (4 * (a * b)) = 2 + lg (a * b) := by
    unfold lg
    rw [Real.logb_mul (by norm_num) (by positivity)]
    congr 1
    rw [show (4 : ℝ) = 2 ^ (2 : ℕ) by norm_num, Real.logb_pow, Real.logb_self_eq_one (by norm_num)]
    norm_num
  have h3 : lg (c * c) = 2 * lg c := by
    unfold lg
    rw [Real.logb_mul (ne_of_gt hc) (ne_of_gt hc)]; ring
  have h4 : lg (4 * (a * b)) ≤ lg (c * c) := lg_mono (by positivity) (by nlinarith [sq_nonneg (a - b)])
  linarith

/-- Number of nodes plus one, as a real number. -/
noncomputable def wt (t : STree K V) : ℝ := (t.size : ℝ) + 1

omit [LinearOrder K] in
@[simp] theorem wt_nil : wt (Bst.Tree.nil : STree K V) = 1 := by simp [wt, Bst.Tree.size]

omit [LinearOrder K] in
@[simp] theorem wt_node (a : Unit) (l : STree K V) (k : K) (v : V) (r : STree K V) :
    wt (.node a l k v r) = wt l + wt r := by
  simp only [wt, Bst.Tree.size]; push_cast; ring

omit [LinearOrder K] in
theorem wt_pos (t : STree K V) : 1 ≤ wt t := by simp [wt]

/-- The potential of a tree: the sum of the logarithms of the weights of its subtrees. -/
noncomputable def phi : STree K V → ℝ
  | .nil => 0
  | .node _ l k v r => phi l + phi r + lg (wt (.node () l k v r))

omit [LinearOrder K] in
theorem phi_nonneg (t : STree K V) : 0 ≤ phi t := by
  induction t with
  | nil => simp [phi]
  | node a l k v r ihl ihr =>
    have := lg_nonneg (wt_pos (Bst.Tree.node () l k v r))
    simp only [phi]; linarith

/-- Two steps in the same direction. -/
theorem zigzig {z a b B : ℝ} (hz : 1 ≤ z) (ha : 1 ≤ a) (hb : 1 ≤ b) (hB : 1 ≤ B) (h : B ≤ z) :
    lg (a + b) + lg (B + (a + b)) + 2 ≤ lg (z + a) + lg (z + a + b) + 2 * lg (z + a + b) - 2 * lg z := by
  have h1 := lg_am (a := a + b) (b := z) (c := z + a + b) (by linarith) (by linarith) (by linarith)
  have h2 := lg_mono (a := B + (a + b)) (b := z + a + b) (by linarith) (by linarith)
  have h3 := lg_mono (a := z) (b := z + a) (by linarith) (by linarith)
  linarith

theorem zigzig' {z a b B : ℝ} (hz : 1 ≤ z) (ha : 1 ≤ a) (hb : 1 ≤ b) (hB : 1 ≤ B) (h : B ≤ z) :
    lg (b + a) + lg (b + a + B) + 2 ≤ lg (a + z) + lg (b + (a + z)) + 2 * lg (b + (a + z)) - 2 * lg z := by
  have := zigzig hz ha hb hB h
  rw [show b + a = a + b by ring, show a + b + B = B + (a + b) by ring, show a + z = z + a by ring,
    show b + (z + a) = z + a + b by ring]
  exact this

/-- **The amortized bound of `splay`.**  Whatever frames are hung up, the loop returns a tree whose parts have the
potential of the input up to a logarithm, and pays for its comparisons. -/
theorem splay_core (k : K) (n : Nat) : ∀ t : STree K V, t.size ≤ n → t ≠ .nil →
    ∃ (A : STree K V) (x : K) (v : V) (B : STree K V) (c : Nat),
      (∀ ls rs, splayLoopT k t ls rs = (nd (fillL A ls) x v (fillR B rs), c)) ∧
      wt A + wt B = wt t ∧ (c : ℝ) + 2 * (phi A + phi B) ≤ 2 * phi t + 4 * lg (wt t) + 4 := by
  induction n with
  | zero => intro t h hne; cases t with
    | nil => exact absurd rfl hne
    | node => simp [Bst.Tree.size] at h
  | succ n ih =>
    intro t h hne
    cases t with
    | nil => exact absurd rfl hne
    | node a l x v r =>
      have hl0 := wt_pos l
      have hr0 := wt_pos r
      simp only [Bst.Tree.size] at h
      by_cases h1 : k < x
      · cases l with
        | nil =>
          refine ⟨.nil, x, v, r, 1, fun ls rs => ?_, by simp, ?_⟩
          · rw [splayLoopT.eq_def]; simp only [if_pos h1]; rfl
          · have := lg_nonneg (wt_pos (Bst.Tree.node a (Bst.Tree.nil : STree K V) x v r))
            simp only [phi, wt_nil, wt_node] at this ⊢; push_cast; linarith
        | node b ll lk lv lr =>
          have hll0 := wt_pos ll
          have hlr0 := wt_pos lr
          simp only [Bst.Tree.size] at h
          by_cases h2 : k < lk
          · cases ll with
            | nil =>
              refine ⟨.nil, lk, lv, nd lr x v r, 2, fun ls rs => ?_, by simp; ring, ?_⟩
              · rw [splayLoopT.eq_def]; simp only [if_pos h1, if_pos h2]; rfl
              · have e1 := lg_mono (a := wt lr + wt r) (b := 1 + wt lr + wt r) (by linarith) (by linarith)
                have e2 := lg_nonneg (a := 1 + wt lr + wt r) (by linarith)
                have e3 := lg_nonneg (a := 1 + wt lr) (by linarith)
                simp only [phi, wt_nil, wt_node]; push_cast; linarith
            | node c l' k' v' r' =>
              obtain ⟨A, y, w, B, m, e1, e2, e3⟩ := ih (.node () l' k' v' r')
                (by simp only [Bst.Tree.size] at h ⊢; omega) (by simp)
              have hA0 := wt_pos A
              have hB0 := wt_pos B
              have hz0 := wt_pos (Bst.Tree.node () l' k' v' r')
              refine ⟨A, y, w, nd B lk lv (nd lr x v r), m + 2, fun ls rs => ?_, ?_, ?_⟩
              · rw [splayLoopT.eq_def]; simp only [if_pos h1, if_pos h2, e1]; rfl
              · simp only [wt_node] at e2 ⊢; linarith
              · have e4 := zigzig (z := wt (Bst.Tree.node () l' k' v' r')) (a := wt lr) (b := wt r) (B := wt B)
                  hz0 hlr0 hr0 hB0 (by linarith)
                have e5 := lg_mono (a := wt (Bst.Tree.node () l' k' v' r')) (b := wt (Bst.Tree.node () l' k' v' r') + wt lr + wt r)
                  (by linarith) (by linarith)
                rw [phi.eq_def (nd B _ _ _), phi.eq_def (Bst.Tree.node a _ _ _ _)]
                simp only
                rw [phi.eq_def (nd lr _ _ _), phi.eq_def (Bst.Tree.node b _ _ _ _)]
                simp only [wt_node] at e3 e4 e5 ⊢; push_cast; linarith
          · -- the next round looks at the left child
            rcases lt_trichotomy lk k with h3 | h3 | h3
            · cases lr with
              | nil =>
                refine ⟨ll, lk, lv, nd .nil x v r, 3, fun ls rs => ?_, by simp; ring, ?_⟩
                · rw [splayLoopT.eq_def]; simp only [if_pos h1, if_neg h2]
                  rw [splayLoopT.eq_def]; simp only [if_neg h2, if_pos h3]; rfl
                · have e1 := lg_mono (a := 1 + wt r) (b := wt ll + 1 + wt r) (by linarith) (by linarith)
                  have e2 := lg_nonneg (a := wt ll + 1 + wt r) (by linarith)
                  have e3 := lg_nonneg (a := wt ll + 1) (by linarith)
                  simp only [phi, wt_nil, wt_node]; push_cast; linarith
              | node c rl rk rv rr =>
                have hrl0 := wt_pos rl
                have hrr0 := wt_pos rr
                simp only [Bst.Tree.size] at h
                by_cases h4 : rk < k
                · cases rr with
                  | nil =>
                    refine ⟨nd ll lk lv rl, rk, rv, nd .nil x v r, 4, fun ls rs => ?_, by simp; ring, ?_⟩
                    · rw [splayLoopT.eq_def]; simp only [if_pos h1, if_neg h2]
                      rw [splayLoopT.eq_def]; simp only [if_neg h2, if_pos h3, if_pos h4]; rfl
                    · have e1 := lg_mono (a := 1 + wt r) (b := wt ll + (wt rl + 1) + wt r) (by linarith) (by linarith)
                      have e2 := lg_mono (a := wt ll + wt rl) (b := wt ll + (wt rl + 1)) (by linarith) (by linarith)
                      have e3 := lg_nonneg (a := wt ll + (wt rl + 1) + wt r) (by linarith)
                      have e4 := lg_nonneg (a := wt rl + 1) (by linarith)
                      simp only [phi, wt_nil, wt_node]; push_cast; linarith
                  | node d l' k' v' r' =>
                    obtain ⟨A, y, w, B, m, e1, e2, e3⟩ := ih (.node () l' k' v' r')
                      (by simp only [Bst.Tree.size] at h ⊢; omega) (by simp)
                    have hA0 := wt_pos A
                    have hB0 := wt_pos B
                    have hz0 := wt_pos (Bst.Tree.node () l' k' v' r')
                    refine ⟨nd (nd ll lk lv rl) rk rv A, y, w, nd B x v r, m + 4, fun ls rs => ?_, ?_, ?_⟩
                    · rw [splayLoopT.eq_def]; simp only [if_pos h1, if_neg h2]
                      rw [splayLoopT.eq_def]; simp only [if_neg h2, if_pos h3, if_pos h4, e1]; rfl
                    · simp only [wt_node] at e2 ⊢; linarith
                    · have e4 := zigzig' (z := wt (Bst.Tree.node () l' k' v' r')) (a := wt rl) (b := wt ll) (B := wt A)
                        hz0 hrl0 hll0 hA0 (by linarith)
                      have e5 := lg_mono (a := wt (Bst.Tree.node () l' k' v' r'))
                        (b := wt ll + (wt rl + wt (Bst.Tree.node () l' k' v' r'))) (by linarith) (by linarith)
                      have e6 := lg_mono (a := wt B + wt r)
                        (b := wt ll + (wt rl + wt (Bst.Tree.node () l' k' v' r')) + wt r) (by linarith) (by linarith)
                      have e7 := lg_mono (a := wt ll + (wt rl + wt (Bst.Tree.node () l' k' v' r')))
                        (b := wt ll + (wt rl + wt (Bst.Tree.node () l' k' v' r')) + wt r) (by linarith) (by linarith)
                      rw [phi.eq_def (nd (nd ll lk lv rl) _ _ _), phi.eq_def (nd B _ _ _), phi.eq_def (Bst.Tree.node a _ _ _ _)]
                      simp only
                      rw [phi.eq_def (nd ll _ _ _), phi.eq_def (Bst.Tree.node b _ _ _ _)]
                      simp only
                      rw [phi.eq_def (Bst.Tree.node c _ _ _ _)]
                      simp only [wt_node] at e3 e4 e5 e6 e7 ⊢; push_cast; linarith
                · obtain ⟨A, y, w, B, m, e1, e2, e3⟩ := ih (.node () rl rk rv rr)
                    (by simp only [Bst.Tree.size] at h ⊢; omega) (by simp)
                  have hA0 := wt_pos A
                  have hB0 := wt_pos B
                  have hz0 := wt_pos (Bst.Tree.node () rl rk rv rr)
                  refine ⟨nd ll lk lv A, y, w, nd B x v r, m + 4, fun ls rs => ?_, ?_, ?_⟩
                  · rw [splayLoopT.eq_def]; simp only [if_pos h1, if_neg h2]
                    rw [splayLoopT.eq_def]; simp only [if_neg h2, if_pos h3, if_neg h4, e1]; rfl
                  · simp only [wt_node] at e2 ⊢; linarith
                  · have e4 := lg_am (a := wt ll + wt A) (b := wt B + wt r)
                      (c := wt ll + wt (Bst.Tree.node () rl rk rv rr) + wt r) (by linarith) (by linarith) (by linarith)
                    have e5 := lg_mono (a := wt (Bst.Tree.node () rl rk rv rr)) (b := wt ll + wt (Bst.Tree.node () rl rk rv rr))
                      (by linarith) (by linarith)
                    have e6 := lg_mono (a := wt ll + wt (Bst.Tree.node () rl rk rv rr))
                        (b := wt ll + wt (Bst.Tree.node () rl rk rv rr) + wt r) (by linarith) (by linarith)
                    rw [phi.eq_def (nd ll _ _ _), phi.eq_def (nd B _ _ _), phi.eq_def (Bst.Tree.node a _ _ _ _)]
                    simp only
                    rw [phi.eq_def (Bst.Tree.node b _ _ _ _)]
                    have e7 : phi (Bst.Tree.node c rl rk rv rr) = phi (Bst.Tree.node () rl rk rv rr) := rfl
                    rw [show (Bst.Tree.node b ll lk lv (Bst.Tree.node c rl rk rv rr)) = Bst.Tree.node () ll lk lv (Bst.Tree.node () rl rk rv rr) from rfl]
                    simp only
                    rw [e7]
                    simp only [wt_node] at e3 e4 e5 e6 ⊢; push_cast; linarith
            · refine ⟨ll, lk, lv, nd lr x v r, 3, fun ls rs => ?_, by simp; ring, ?_⟩
              · rw [splayLoopT.eq_def]; simp only [if_pos h1, if_neg h2]
                rw [splayLoopT.eq_def]; simp only [if_neg h2, if_neg (show ¬ lk < k by rw [h3]; exact lt_irrefl _)]; rfl
              · have e1 := lg_mono (a := wt lr + wt r) (b := wt ll + wt lr + wt r) (by linarith) (by linarith)
                have e2 := lg_nonneg (a := wt ll + wt lr + wt r) (by linarith)
                have e3 := lg_nonneg (a := wt ll + wt lr) (by linarith)
                simp only [phi, wt_node]; push_cast; linarith
            · exact absurd h3 h2
      · by_cases h1' : x < k
        · cases r with
          | nil =>
            refine ⟨l, x, v, .nil, 1, fun ls rs => ?_, by simp, ?_⟩
            · rw [splayLoopT.eq_def]; simp only [if_neg h1, if_pos h1']; rfl
            · have := lg_nonneg (wt_pos (Bst.Tree.node a l x v (Bst.Tree.nil : STree K V)))
              simp only [phi, wt_nil, wt_node] at this ⊢; push_cast; linarith
          | node b rl rk rv rr =>
            have hrl0 := wt_pos rl
            have hrr0 := wt_pos rr
            simp only [Bst.Tree.size] at h
            by_cases h2 : rk < k
            · cases rr with
              | nil =>
                refine ⟨nd l x v rl, rk, rv, .nil, 2, fun ls rs => ?_, by simp; ring, ?_⟩
                · rw [splayLoopT.eq_def]; simp only [if_neg h1, if_pos h1', if_pos h2]; rfl
                · have e1 := lg_mono (a := wt l + wt rl) (b := wt l + (wt rl + 1)) (by linarith) (by linarith)
                  have e2 := lg_nonneg (a := wt l + (wt rl + 1)) (by linarith)
                  have e3 := lg_nonneg (a := wt rl + 1) (by linarith)
                  simp only [phi, wt_nil, wt_node]; push_cast; linarith
              | node c l' k' v' r' =>
                obtain ⟨A, y, w, B, m, e1, e2, e3⟩ := ih (.node () l' k' v' r')
                  (by simp only [Bst.Tree.size] at h ⊢; omega) (by simp)
                have hA0 := wt_pos A
                have hB0 := wt_pos B
                have hz0 := wt_pos (Bst.Tree.node () l' k' v' r')
                refine ⟨nd (nd l x v rl) rk rv A, y, w, B, m + 2, fun ls rs => ?_, ?_, ?_⟩
                · rw [splayLoopT.eq_def]; simp only [if_neg h1, if_pos h1', if_pos h2, e1]; rfl
                · simp only [wt_node] at e2 ⊢; linarith
                · have e4 := zigzig' (z := wt (Bst.Tree.node () l' k' v' r')) (a := wt rl) (b := wt l) (B := wt A)
                    hz0 hrl0 hl0 hA0 (by linarith)
                  have e5 := lg_mono (a := wt (Bst.Tree.node () l' k' v' r'))
                    (b := wt l + (wt rl + wt (Bst.Tree.node () l' k' v' r'))) (by linarith) (by linarith)
                  rw [phi.eq_def (nd (nd l x v rl) _ _ _), phi.eq_def (Bst.Tree.node a _ _ _ _)]
                  simp only
                  rw [phi.eq_def (nd l _ _ _), phi.eq_def (Bst.Tree.node b _ _ _ _)]
                  simp only [wt_node] at e3 e4 e5 ⊢; push_cast; linarith
            · -- the next round looks at the right child
              rcases lt_trichotomy k rk with h3 | h3 | h3
              · cases rl with
                | nil =>
                  refine ⟨nd l x v .nil, rk, rv, rr, 3, fun ls rs => ?_, by simp; ring, ?_⟩
                  · rw [splayLoopT.eq_def]; simp only [if_neg h1, if_pos h1', if_neg h2]
                    rw [splayLoopT.eq_def]; simp only [if_pos h3]; rfl
                  · have e1 := lg_mono (a := wt l + 1) (b := wt l + (1 + wt rr)) (by linarith) (by linarith)
                    have e2 := lg_nonneg (a := wt l + (1 + wt rr)) (by linarith)
                    have e3 := lg_nonneg (a := 1 + wt rr) (by linarith)
                    simp only [phi, wt_nil, wt_node]; push_cast; linarith
                | node c ll lk lv lr =>
                  have hll0 := wt_pos ll
                  have hlr0 := wt_pos lr
                  simp only [Bst.Tree.size] at h
                  by_cases h4 : k < lk
                  · cases ll with
                    | nil =>
                      refine ⟨nd l x v .nil, lk, lv, nd lr rk rv rr, 4, fun ls rs => ?_, by simp; ring, ?_⟩
                      · rw [splayLoopT.eq_def]; simp only [if_neg h1, if_pos h1', if_neg h2]
                        rw [splayLoopT.eq_def]; simp only [if_pos h3, if_pos h4]; rfl
                      · have e1 := lg_mono (a := wt l + 1) (b := wt l + (1 + wt lr + wt rr)) (by linarith) (by linarith)
                        have e2 := lg_mono (a := wt lr + wt rr) (b := 1 + wt lr + wt rr) (by linarith) (by linarith)
                        have e3 := lg_nonneg (a := wt l + (1 + wt lr + wt rr)) (by linarith)
                        have e4 := lg_nonneg (a := 1 + wt lr) (by linarith)
                        simp only [phi, wt_nil, wt_node]; push_cast; linarith
                    | node d l' k' v' r' =>
                      obtain ⟨A, y, w, B, m, e1, e2, e3⟩ := ih (.node () l' k' v' r')
                        (by simp only [Bst.Tree.size] at h ⊢; omega) (by simp)
                      have hA0 := wt_pos A
                      have hB0 := wt_pos B
                      have hz0 := wt_pos (Bst.Tree.node () l' k' v' r')
                      refine ⟨nd l x v A, y, w, nd B lk lv (nd lr rk rv rr), m + 4, fun ls rs => ?_, ?_, ?_⟩
                      · rw [splayLoopT.eq_def]; simp only [if_neg h1, if_pos h1', if_neg h2]
                        rw [splayLoopT.eq_def]; simp only [if_pos h3, if_pos h4, e1]; rfl
                      · simp only [wt_node] at e2 ⊢; linarith
                      · have e4 := zigzig (z := wt (Bst.Tree.node () l' k' v' r')) (a := wt lr) (b := wt rr) (B := wt B)
                          hz0 hlr0 hrr0 hB0 (by linarith)
                        have e5 := lg_mono (a := wt (Bst.Tree.node () l' k' v' r'))
                          (b := wt (Bst.Tree.node () l' k' v' r') + wt lr + wt rr) (by linarith) (by linarith)
                        have e6 := lg_mono (a := wt l + wt A)
                          (b := wt l + (wt (Bst.Tree.node () l' k' v' r') + wt lr + wt rr)) (by linarith) (by linarith)
                        have e7 := lg_mono (a := wt (Bst.Tree.node () l' k' v' r') + wt lr + wt rr)
                          (b := wt l + (wt (Bst.Tree.node () l' k' v' r') + wt lr + wt rr)) (by linarith) (by linarith)
                        rw [phi.eq_def (nd l _ _ _), phi.eq_def (nd B _ _ _), phi.eq_def (Bst.Tree.node a _ _ _ _)]
                        simp only
                        rw [phi.eq_def (nd lr _ _ _), phi.eq_def (Bst.Tree.node b _ _ _ _)]
                        simp only
                        rw [phi.eq_def (Bst.Tree.node c _ _ _ _)]
                        simp only [wt_node] at e3 e4 e5 e6 e7 ⊢; push_cast; linarith
                  · obtain ⟨A, y, w, B, m, e1, e2, e3⟩ := ih (.node () ll lk lv lr)
                      (by simp only [Bst.Tree.size] at h ⊢; omega) (by simp)
                    have hA0 := wt_pos A
                    have hB0 := wt_pos B
                    have hz0 := wt_pos (Bst.Tree.node () ll lk lv lr)
                    refine ⟨nd l x v A, y, w, nd B rk rv rr, m + 4, fun ls rs => ?_, ?_, ?_⟩
                    · rw [splayLoopT.eq_def]; simp only [if_neg h1, if_pos h1', if_neg h2]
                      rw [splayLoopT.eq_def]; simp only [if_pos h3, if_neg h4, e1]; rfl
                    · simp only [wt_node] at e2 ⊢; linarith
                    · have e4 := lg_am (a := wt l + wt A) (b := wt B + wt rr)
                        (c := wt l + (wt (Bst.Tree.node () ll lk lv lr) + wt rr)) (by linarith) (by linarith) (by linarith)
                      have e5 := lg_mono (a := wt (Bst.Tree.node () ll lk lv lr)) (b := wt (Bst.Tree.node () ll lk lv lr) + wt rr)
                        (by linarith) (by linarith)
                      have e6 := lg_mono (a := wt (Bst.Tree.node () ll lk lv lr) + wt rr)
                          (b := wt l + (wt (Bst.Tree.node () ll lk lv lr) + wt rr)) (by linarith) (by linarith)
                      rw [phi.eq_def (nd l _ _ _), phi.eq_def (nd B _ _ _), phi.eq_def (Bst.Tree.node a _ _ _ _)]
                      simp only
                      rw [phi.eq_def (Bst.Tree.node b _ _ _ _)]
                      have e7 : phi (Bst.Tree.node c ll lk lv lr) = phi (Bst.Tree.node () ll lk lv lr) := rfl
                      rw [show (Bst.Tree.node b (Bst.Tree.node c ll lk lv lr) rk rv rr) =
                        Bst.Tree.node () (Bst.Tree.node () ll lk lv lr) rk rv rr from rfl]
                      simp only
                      rw [e7]
                      simp only [wt_node] at e3 e4 e5 e6 ⊢; push_cast; linarith
              · refine ⟨nd l x v rl, rk, rv, rr, 3, fun ls rs => ?_, by simp; ring, ?_⟩
                · rw [splayLoopT.eq_def]; simp only [if_neg h1, if_pos h1', if_neg h2]
                  rw [splayLoopT.eq_def]; simp only [if_neg h2, if_neg (show ¬ k < rk by rw [h3]; exact lt_irrefl _)]; rfl
                · have e1 := lg_mono (a := wt l + wt rl) (b := wt l + (wt rl + wt rr)) (by linarith) (by linarith)
                  have e2 := lg_nonneg (a := wt l + (wt rl + wt rr)) (by linarith)
                  have e3 := lg_nonneg (a := wt rl + wt rr) (by linarith)
                  simp only [phi, wt_node]; push_cast; linarith
              · exact absurd h3 h2
        · refine ⟨l, x, v, r, 1, fun ls rs => ?_, by simp, ?_⟩
          · rw [splayLoopT.eq_def]; simp only [if_neg h1, if_neg h1']; rfl
          · have := lg_nonneg (a := wt l + wt r) (by linarith)
            simp only [phi, wt_node]; push_cast; linarith

/-! ### The calls -/

theorem splay_cost (k : K) {t : STree K V} (hne : t ≠ .nil) :
    ∃ (A : STree K V) (x : K) (v : V) (B : STree K V), splay k t = nd A x v B ∧ wt A + wt B = wt t ∧
      (splayCost k t : ℝ) + 2 * (phi A + phi B) ≤ 2 * phi t + 4 * lg (wt t) + 4 := by
  obtain ⟨A, x, v, B, c, h1, h2, h3⟩ := splay_core k t.size t (Nat.le_refl _) hne
  refine ⟨A, x, v, B, ?_, h2, ?_⟩
  · rw [splay, ← splayLoopT_fst k t.size t [] [] (Nat.le_refl _), h1]; rfl
  · rw [splayCost, h1]; exact h3

theorem insert_cost (t : STree K V) (k : K) (v : V) :
    (insertCost t k : ℝ) + 2 * phi (insert t k v).1 ≤ 2 * phi t + 10 * lg (wt t + 1) + 9 := by
  by_cases hne : t = .nil
  · subst hne
    have e : (insert (Bst.Tree.nil : STree K V) k v).1 = nd .nil k v .nil := rfl
    have h := lg_nonneg (a := 1 + 1) (by norm_num)
    rw [e]; simp only [phi, wt_node, wt_nil, insertCost]; push_cast; linarith
  · obtain ⟨A, x, w, B, h1, h2, h3⟩ := splay_cost k hne
    have hA := wt_pos A
    have hB := wt_pos B
    have hc : insertCost t k = splayCost k t + 1 := by
      cases t with
      | nil => exact absurd rfl hne
      | node => rfl
    have m1 := lg_mono (a := wt t) (b := wt t + 1) (by linarith) (by linarith)
    have m2 := lg_mono (a := 1 + wt B) (b := wt t + 1) (by linarith) (by linarith)
    have m3 := lg_mono (a := wt A + 1) (b := wt t + 1) (by linarith) (by linarith)
    have m4 : lg (wt A + (1 + wt B)) = lg (wt t + 1) := by congr 1; linarith
    have m5 : lg (wt A + 1 + wt B) = lg (wt t + 1) := by congr 1; linarith
    have m6 : lg (wt A + wt B) = lg (wt t) := by congr 1
    have m0 := lg_nonneg (a := wt t) (by linarith)
    rw [hc, insert, h1]
    by_cases c1 : k < x
    · simp only [if_pos c1, phi, wt_node, wt_nil]; push_cast; linarith
    · by_cases c2 : x < k
      · simp only [if_neg c1, if_pos c2, phi, wt_node, wt_nil]; push_cast; linarith
      · simp only [if_neg c1, if_neg c2, phi, wt_node]; push_cast; linarith

theorem getMut_cost (t : STree K V) (k : K) (f : V → V) :
    (getMutCost t k : ℝ) + 2 * phi (getMut t k f).2 ≤ 2 * phi t + 10 * lg (wt t + 1) + 9 := by
  by_cases hne : t = .nil
  · subst hne
    have e : (getMut (Bst.Tree.nil : STree K V) k f).2 = .nil := rfl
    have h := lg_nonneg (a := 1 + 1) (by norm_num)
    rw [e]; simp only [phi, wt_nil, getMutCost]; push_cast; linarith
  · obtain ⟨A, x, w, B, h1, h2, h3⟩ := splay_cost k hne
    have hA := wt_pos A
    have hB := wt_pos B
    have hc : getMutCost t k = splayCost k t + 1 := by
      cases t with
      | nil => exact absurd rfl hne
      | node => rfl
    have m1 := lg_mono (a := wt t) (b := wt t + 1) (by linarith) (by linarith)
    have m6 : lg (wt A + wt B) = lg (wt t) := by congr 1
    have m0 := lg_nonneg (a := wt t) (by linarith)
    rw [hc, getMut, h1]
    by_cases c1 : x = k
    · simp only [if_pos c1, phi, wt_node]; push_cast; linarith
    · simp only [if_neg c1, phi, wt_node]; push_cast; linarith

theorem remove_cost (t : STree K V) (k : K) :
    (removeCost t k : ℝ) + 2 * phi (remove t k).1 ≤ 2 * phi t + 10 * lg (wt t + 1) + 9 := by
  by_cases hne : t = .nil
  · subst hne
    have e : (remove (Bst.Tree.nil : STree K V) k).1 = .nil := rfl
    have h := lg_nonneg (a := 1 + 1) (by norm_num)
    rw [e]; simp only [phi, wt_nil, removeCost]; push_cast; linarith
  · obtain ⟨A, x, w, B, h1, h2, h3⟩ := splay_cost k hne
    have hA := wt_pos A
    have hB := wt_pos B
    have hpA := phi_nonneg A
    have hc : removeCost t k = splayCost k t + 1 + (if k ≠ x then 0 else leftCost k A) := by
      cases t with
      | nil => exact absurd rfl hne
      | node => simp only [removeCost, h1]
    have m1 := lg_mono (a := wt t) (b := wt t + 1) (by linarith) (by linarith)
    have m6 : lg (wt A + wt B) = lg (wt t) := by congr 1
    have m0 := lg_nonneg (a := wt t) (by linarith)
    rw [hc, remove, h1]
    by_cases c1 : k ≠ x
    · simp only [if_pos c1, phi, wt_node]; push_cast; linarith
    · simp only [if_neg c1]
      by_cases hAn : A = .nil
      · subst hAn
        simp only [phi, leftCost] at h3 ⊢; push_cast; linarith
      · obtain ⟨A', x', w', B', g1, g2, g3⟩ := splay_cost k hAn
        have hA' := wt_pos A'
        have hB' := wt_pos B'
        have hpB := phi_nonneg B'
        have m2 := lg_mono (a := wt A) (b := wt t) (by linarith) (by linarith)
        have m3 := lg_mono (a := wt A' + wt B) (b := wt t) (by linarith) (by linarith)
        cases A with
        | nil => exact absurd rfl hAn
        | node a ll lk lv lr =>
          simp only [g1, phi, wt_node, leftCost] at g3 h3 m2 m3 ⊢; push_cast; linarith

/-- One call pays for its comparisons with its allowance and the fall of the potential. -/
theorem step_cost {m m' : SplayMap K V} {op : MapOp K V} {r : MapRes K V} (h : step m op () = some (m', r)) :
    (∀ n, callCost m op = some n → (n : ℝ) + 2 * phi m'.tree ≤ 2 * phi m.tree + 10 * lg (wt m.tree + 1) + 9) ∧
      (callCost m op = none → 2 * phi m'.tree ≤ 2 * phi m.tree) := by
  have keep : m' = m → callCost m op = none →
      (∀ n, callCost m op = some n → (n : ℝ) + 2 * phi m'.tree ≤ 2 * phi m.tree + 10 * lg (wt m.tree + 1) + 9) ∧
      (callCost m op = none → 2 * phi m'.tree ≤ 2 * phi m.tree) := by
    rintro rfl hn
    exact ⟨fun n e => (by rw [hn] at e; cases e), fun _ => le_refl _⟩
  cases op with
  | insert k v =>
    refine ⟨fun n e => ?_, fun e => by cases e⟩
    cases e
    have ht : m'.tree = (insert m.tree k v).1 := by
      simp only [step, SplayMap.insert] at h
      cases hr : (insert m.tree k v).2 <;> simp [hr, decr] at h <;> rw [← h.1]
    rw [ht]; exact insert_cost m.tree k v
  | remove k =>
    refine ⟨fun n e => ?_, fun e => by cases e⟩
    cases e
    have ht : m'.tree = (remove m.tree k).1 := by
      simp only [step, SplayMap.remove] at h
      cases hr : (remove m.tree k).2 <;> cases hl : decr m.len <;> simp [hr, hl] at h <;> rw [← h.1]
    rw [ht]; exact remove_cost m.tree k
  | getMut k f =>
    refine ⟨fun n e => ?_, fun e => by cases e⟩
    cases e
    have ht : m'.tree = (getMut m.tree k f).2 := by
      simp only [step, Option.some.injEq, Prod.mk.injEq] at h; rw [← h.1]
    rw [ht]; exact getMut_cost m.tree k f
  | clear =>
    refine ⟨fun n e => (by cases e), fun _ => ?_⟩
    simp only [step, Option.some.injEq, Prod.mk.injEq] at h
    rw [← h.1]
    have := phi_nonneg m.tree
    simp only [phi]; linarith
  | _ =>
    simp only [step, Option.some.injEq, Prod.mk.injEq] at h
    exact keep h.1.symm rfl

theorem lg_le_log (n : Nat) : lg ((n : ℝ) + 2) ≤ (Nat.log 2 (n + 2) : ℝ) + 1 := by
  have h1 : n + 2 < 2 ^ (Nat.log 2 (n + 2) + 1) := Nat.lt_pow_succ_log_self (by norm_num) _
  have h2 : ((n : ℝ) + 2) ≤ (2 : ℝ) ^ (Nat.log 2 (n + 2) + 1) := by exact_mod_cast h1.le
  have h3 := lg_mono (a := (n : ℝ) + 2) (by positivity) h2
  have h4 : lg ((2 : ℝ) ^ (Nat.log 2 (n + 2) + 1)) = (Nat.log 2 (n + 2) : ℝ) + 1 := by
    unfold lg
    rw [Real.logb_pow, Real.logb_self_eq_one (by norm_num)]; push_cast; ring
  linarith

theorem costs_cons {m m' : SplayMap K V} {op : MapOp K V} {ops : List (MapOp K V)} {r : MapRes K V} {cs : List (Nat × Nat)}
    (h : step m op () = some (m', r)) (hc : costs m' ops = some cs) :
    costs m (op :: ops) = some (match callCost m op with | some n => (m.len, n) :: cs | none => cs) := by
  rw [costs, h]
  simp only [Option.bind_eq_bind, Option.bind_some, hc]
  cases callCost m op <;> rfl

theorem costs_bound (ops : List (MapOp K V)) : ∀ (m : SplayMap K V) (l : List (K × V)), SL.Sorted l →
    (sim K V).rel m l → ∃ cs, costs m ops = some cs ∧
      (((cs.map (·.2)).sum : Nat) : ℝ) ≤ 2 * phi m.tree + ((cs.map fun p => 10 * Nat.log 2 (p.1 + 2) + 19).sum : Nat) := by
  induction ops with
  | nil =>
    intro m l _ _
    refine ⟨[], rfl, ?_⟩
    have := phi_nonneg m.tree
    simp only [List.map_nil, List.sum_nil]; push_cast; linarith
  | cons op ops ih =>
    intro m l hs hr
    obtain ⟨m', h1, h2⟩ := (sim K V).step m l op () hs hr
    obtain ⟨cs, h3, h4⟩ := ih m' _ (SL.sorted_next hs op) h2
    have h1' : step m op () = some (m', SL.res l op) := h1
    obtain ⟨c1, c2⟩ := step_cost h1'
    have hlen : m.len = m.tree.size := by rw [Bst.Tree.size_eq_length, hr.1, hr.2]
    cases hc : callCost m op with
    | none =>
      refine ⟨cs, by rw [costs_cons h1' h3, hc], ?_⟩
      have := c2 hc
      linarith
    | some n =>
      refine ⟨(m.len, n) :: cs, by rw [costs_cons h1' h3, hc], ?_⟩
      have e1 := c1 n hc
      have e2 := lg_le_log m.len
      have e3 : wt m.tree + 1 = (m.len : ℝ) + 2 := by rw [hlen, wt]; ring
      rw [e3] at e1
      simp only [List.map_cons, List.sum_cons]; push_cast at h4 ⊢; linarith

/-! ### C53 -/

/-- **C53.** In every history the calls of `insert`, `remove` and `get_mut` together compare keys at most as often as
if each call on a map with `len` keys made `10 log2 (len + 2) + 19` comparisons. -/
theorem C53_splay_amortized (ops : List (MapOp K V)) : ∃ cs, costs (SplayMap.new : SplayMap K V) ops = some cs ∧
    (cs.map (·.2)).sum ≤ (cs.map fun p => 10 * Nat.log 2 (p.1 + 2) + 19).sum := by
  obtain ⟨cs, h1, h2⟩ := costs_bound ops SplayMap.new [] (by simp [SL.Sorted]) (sim K V).empty
  refine ⟨cs, h1, ?_⟩
  have e : phi (SplayMap.new : SplayMap K V).tree = 0 := rfl
  rw [e] at h2
  have h2 : (((cs.map (·.2)).sum : Nat) : ℝ) ≤ ((cs.map fun p => 10 * Nat.log 2 (p.1 + 2) + 19).sum : Nat) := by linarith
  exact_mod_cast h2

/-- A history with all three calls, the lengths and the comparisons. -/
example : costs (SplayMap.new : SplayMap Nat Nat) [.insert 1 0, .insert 2 0, .insert 3 0, .insert 4 0, .getMut 1 id,
    .get 3, .remove 3, .insert 9 0] = some [(0, 0), (1, 2), (2, 2), (3, 2), (4, 6), (4, 6), (3, 3)] := by decide +kernel

theorem len_step {m m' : SplayMap K V} {op : MapOp K V} {r : MapRes K V} (h : step m op () = some (m', r)) :
    m'.len ≤ m.len + 1 := by
  cases op with
  | insert k v =>
    simp only [step, SplayMap.insert] at h
    cases hr : (insert m.tree k v).2 <;> simp [hr, decr] at h <;> rw [← h.1] <;> simp
  | remove k =>
    simp only [step, SplayMap.remove] at h
    cases hr : (remove m.tree k).2 <;> cases hl : m.len <;> simp [hr, hl, decr] at h <;> rw [← h.1] <;> simp
    omega
  | _ =>
    simp only [step, Option.some.injEq, Prod.mk.injEq] at h
    rw [← h.1]; simp

theorem costs_len (ops : List (MapOp K V)) : ∀ (m : SplayMap K V) (cs : List (Nat × Nat)), costs m ops = some cs →
    cs.length ≤ ops.length ∧ ∀ p ∈ cs, p.1 ≤ m.len + ops.length := by
  induction ops with
  | nil => intro m cs h; simp only [costs, Option.some.injEq] at h; subst h; simp
  | cons op ops ih =>
    intro m cs h
    cases hs : step m op () with
    | none => rw [costs, hs] at h; cases h
    | some q =>
      obtain ⟨m', r⟩ := q
      cases hc : costs m' ops with
      | none => rw [costs, hs] at h; simp only [Option.bind_eq_bind, Option.bind_some, hc] at h; cases h
      | some cs' =>
        rw [costs_cons hs hc] at h
        obtain ⟨i1, i2⟩ := ih m' cs' hc
        have hl := len_step hs
        have i3 : ∀ p ∈ cs', p.1 ≤ m.len + (op :: ops).length := by
          intro p hp; have := i2 p hp; simp only [List.length_cons]; omega
        cases hn : callCost m op with
        | none =>
          rw [hn] at h; cases h
          exact ⟨by simp only [List.length_cons]; omega, i3⟩
        | some n =>
          rw [hn] at h; cases h
          refine ⟨by simp only [List.length_cons]; omega, fun p hp => ?_⟩
          rcases List.mem_cons.1 hp with rfl | hp
          · simp
          · exact i3 p hp

/-- **C53, in terms of the number of calls.** `m` calls on a new map make at most `m (10 log2 (m + 2) + 19)` key
comparisons in their `insert`, `remove` and `get_mut` calls. -/
theorem C53_splay_total (ops : List (MapOp K V)) : ∃ cs, costs (SplayMap.new : SplayMap K V) ops = some cs ∧
    (cs.map (·.2)).sum ≤ ops.length * (10 * Nat.log 2 (ops.length + 2) + 19) := by
  obtain ⟨cs, h1, h2⟩ := C53_splay_amortized ops
  obtain ⟨h3, h4⟩ := costs_len ops _ cs h1
  refine ⟨cs, h1, Nat.le_trans h2 (Nat.le_trans (m := cs.length * (10 * Nat.log 2 (ops.length + 2) + 19)) ?_
    (Nat.mul_le_mul_right _ h3))⟩
  clear h1 h2 h3
  induction cs with
  | nil => simp
  | cons p cs ih =>
    have e1 := ih fun q hq => h4 q (by simp [hq])
    have e2 : p.1 ≤ ops.length := by simpa [SplayMap.new] using h4 p (by simp)
    have e3 : Nat.log 2 (p.1 + 2) ≤ Nat.log 2 (ops.length + 2) := Nat.log_mono_right (by omega)
    simp only [List.map_cons, List.sum_cons, List.length_cons, Nat.add_mul]
    omega

/-- The tree after inserting `0, ..., n - 1` in this order. -/
def spine : Nat → STree Nat Unit
  | 0 => .nil
  | n + 1 => nd (spine n) n () .nil

theorem run_snoc {K V : Type} (I : MapImpl K V) (a : List (MapOp K V × I.Draw)) (op : MapOp K V) (d : I.Draw)
    (s : I.State) {s' s'' : I.State} {r} (hist) (e1 : I.run s a = some (s', hist)) (e2 : I.step s' op d = some (s'', r)) :
    ∃ h'', I.run s (a ++ [(op, d)]) = some (s'', h'') := by
  induction a generalizing s hist with
  | nil =>
    simp only [MapImpl.run, Option.some.injEq, Prod.mk.injEq] at e1
    obtain ⟨rfl, rfl⟩ := e1
    exact ⟨[(op, r)], by simp [MapImpl.run, e2]⟩
  | cons p a ih =>
    obtain ⟨op', d'⟩ := p
    cases g : I.step s op' d' with
    | none => simp [MapImpl.run, g] at e1
    | some q =>
      obtain ⟨s₁, r₁⟩ := q
      cases g2 : I.run s₁ a with
      | none => simp [MapImpl.run, g, g2] at e1
      | some q =>
        obtain ⟨s₂, h₂⟩ := q
        simp only [MapImpl.run, g, Option.bind_eq_bind, Option.bind_some, g2, Option.pure_def, Option.some.injEq,
          Prod.mk.injEq] at e1
        obtain ⟨rfl, rfl⟩ := e1
        obtain ⟨h'', g4⟩ := ih s₁ _ g2
        exact ⟨(op', r₁) :: h'', by simp [MapImpl.run, g, g4]⟩

/-- Inserting `0, ..., n - 1` in this order gives `spine n`. -/
theorem run_spine (n : Nat) : ∃ h, (impl Nat Unit).run SplayMap.new ((List.range n).map fun i => (.insert i (), ()))
    = some ((⟨spine n, n⟩ : SplayMap Nat Unit), h) := by
  induction n with
  | zero => exact ⟨[], rfl⟩
  | succ n ih =>
    obtain ⟨h, e⟩ := ih
    have hs : step (⟨spine n, n⟩ : SplayMap Nat Unit) (.insert n ()) () = some (⟨spine (n + 1), n + 1⟩, .pair none) := by
      have hi : insert (spine n) n () = (spine (n + 1), none) := by
        cases n with
        | zero => rfl
        | succ n =>
          have e1 : splay (n + 1) (spine (n + 1)) = spine (n + 1) := by
            rw [splay, spine, splayLoop.eq_def]
            simp only [if_neg (show ¬ n + 1 < n by omega), if_pos (show n < n + 1 by omega)]; rfl
          rw [insert, e1]
          simp only [spine, if_neg (show ¬ n + 1 < n by omega), if_pos (show n < n + 1 by omega)]
      simp only [step, SplayMap.insert, hi]; rfl
    rw [List.range_succ, List.map_append]
    exact run_snoc (impl Nat Unit) _ _ _ _ _ e hs

/-- **C53 does not extend to `get`** (nor to `contains_key`, which also does not splay): after inserting
`0, ..., n - 1` in this order, each `get(&0)` compares with all `n` keys and leaves the map as it is, so that `m` such
calls make `m * n` comparisons. -/
theorem C53_get_linear (n : Nat) : ∃ s h, (impl Nat Unit).run SplayMap.new ((List.range n).map fun i => (.insert i (), ()))
      = some (s, h) ∧ searchCost s.tree 0 = n ∧ ∃ r, step s (.get 0) () = some (s, r) := by
  obtain ⟨h, e⟩ := run_spine n
  refine ⟨_, h, e, ?_, _, rfl⟩
  clear e h
  show searchCost (spine n) 0 = n
  cases n with
  | zero => rfl
  | succ n =>
    induction n with
    | zero => rfl
    | succ n ih =>
      rw [spine, searchCost, if_pos (by omega), ih]

end Verif.Splay
