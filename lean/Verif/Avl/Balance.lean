/- Height balance of the AVL model: lemmas. -/
import Verif.Avl.Lemmas
import Verif.Spec.TreeShape
import Mathlib.Tactic.Tauto

namespace Verif.Avl

open Verif.Bst Verif.Spec

variable {K V : Type} [LinearOrder K]

omit [LinearOrder K] in
@[simp] theorem height_node {h : Nat} {l : ATree K V} {k : K} {v : V} {r : ATree K V} :
    height (.node h l k v r) = h := rfl

def Good (t : ATree K V) : Prop := HeightsOk t ∧ HeightBalanced t

omit [LinearOrder K] in
theorem height_eq {t : ATree K V} (h : HeightsOk t) : height t = depth t := by
  cases t with
  | nil => rfl
  | node => exact h.1

omit [LinearOrder K] in
theorem good_node {h : Nat} {l : ATree K V} {k : K} {v : V} {r : ATree K V} :
    Good (.node h l k v r) ↔ h = max (depth l) (depth r) + 1 ∧ Good l ∧ Good r ∧
      depth l ≤ depth r + 1 ∧ depth r ≤ depth l + 1 := by
  simp only [Good, HeightsOk, HeightBalanced]; tauto

omit [LinearOrder K] in
theorem good_update {l : ATree K V} {k : K} {v : V} {r : ATree K V} (hl : Good l) (hr : Good r)
    (h1 : depth l ≤ depth r + 1) (h2 : depth r ≤ depth l + 1) : Good (update l k v r) := by
  rw [update, good_node, height_eq hl.1, height_eq hr.1]
  exact ⟨rfl, hl, hr, h1, h2⟩

omit [LinearOrder K] in
@[simp] theorem depth_update {l : ATree K V} {k : K} {v : V} {r : ATree K V} :
    depth (update l k v r) = max (depth l) (depth r) + 1 := rfl

omit [LinearOrder K] in
theorem balance_good {h : Nat} {l : ATree K V} {k : K} {v : V} {r t : ATree K V}
    (hl : Good l) (hr : Good r) (h1 : depth l ≤ depth r + 2) (h2 : depth r ≤ depth l + 2)
    (hb : balance (.node h l k v r) = some t) :
    Good t ∧ (depth t = max (depth l) (depth r) + 1 ∨
      (depth t = max (depth l) (depth r) ∧ (depth l = depth r + 2 ∨ depth r = depth l + 2))) := by
  simp only [balance, nodeBalance, height_eq hl.1, height_eq hr.1] at hb
  split at hb
  · rename_i hgt
    cases l with
    | nil => simp [depth] at hgt; omega
    | node ch cl ck cv cr =>
      rw [good_node] at hl
      obtain ⟨_, hcl, hcr, h3, h4⟩ := hl
      simp only [fixLeft, nodeBalance, height_eq hcl.1, height_eq hcr.1] at hb
      simp only [depth] at h1 h2 hgt ⊢
      split at hb
      · rename_i hlt
        cases cr with
        | nil => simp [depth] at hlt; omega
        | node eh el ek ev er =>
          rw [good_node] at hcr
          obtain ⟨_, hel, her, h5, h6⟩ := hcr
          simp [rotateLeft, rotateRight, update] at hb
          subst hb
          simp only [depth] at *
          simp only [height_eq hel.1, height_eq her.1, height_eq hcl.1, height_eq hr.1, height_node]
          simp only [good_node, depth, hel, her, hcl, hr, true_and]
          omega
      · rename_i hlt
        simp [rotateRight, update] at hb
        subst hb
        simp only [height_eq hcr.1, height_eq hcl.1, height_eq hr.1, height_node]
        simp only [good_node, depth, hcr, hcl, hr, true_and]
        omega
  · split at hb
    · rename_i hgt
      cases r with
      | nil => simp [depth] at hgt; omega
      | node ch cl ck cv cr =>
        rw [good_node] at hr
        obtain ⟨_, hcl, hcr, h3, h4⟩ := hr
        simp only [fixRight, nodeBalance, height_eq hcl.1, height_eq hcr.1] at hb
        simp only [depth] at h1 h2 hgt ⊢
        split at hb
        · rename_i hlt
          cases cl with
          | nil => simp [depth] at hlt; omega
          | node eh el ek ev er =>
            rw [good_node] at hcl
            obtain ⟨_, hel, her, h5, h6⟩ := hcl
            simp [rotateLeft, rotateRight, update] at hb
            subst hb
            simp only [depth] at *
            simp only [height_eq hel.1, height_eq her.1, height_eq hcr.1, height_eq hl.1, height_node]
            simp only [good_node, depth, hel, her, hcr, hl, true_and]
            omega
        · rename_i hlt
          simp [rotateLeft, update] at hb
          subst hb
          simp only [height_eq hcr.1, height_eq hcl.1, height_eq hl.1, height_node]
          simp only [good_node, depth, hcr, hcl, hl, true_and]
          omega
    · simp at hb
      subst hb
      exact ⟨good_update hl hr (by omega) (by omega), .inl rfl⟩

theorem insert_good {t : ATree K V} {k : K} {v : V} {t' o} (hg : Good t)
    (h : insert t k v = some (t', o)) :
    Good t' ∧ (depth t' = depth t ∨ depth t' = depth t + 1) := by
  induction t generalizing t' with
  | nil =>
    simp only [insert, Option.some.injEq, Prod.mk.injEq] at h
    obtain ⟨rfl, _⟩ := h
    simp [newNode, Good, HeightsOk, HeightBalanced, depth]
  | node ht l x w r ihl ihr =>
    rw [good_node] at hg
    obtain ⟨_, hl, hr, h3, h4⟩ := hg
    simp only [insert] at h
    split at h
    · simp only [Option.bind_eq_bind, Option.bind_eq_some_iff] at h
      obtain ⟨⟨l', o'⟩, h5, t₁, h6, h7⟩ := h
      simp at h7; obtain ⟨rfl, rfl⟩ := h7
      obtain ⟨g, hd⟩ := ihl hl h5
      have := balance_good g hr (by omega) (by omega) h6
      refine ⟨this.1, ?_⟩
      simp only [depth]; omega
    · split at h
      · simp only [Option.bind_eq_bind, Option.bind_eq_some_iff] at h
        obtain ⟨⟨r', o'⟩, h5, t₁, h6, h7⟩ := h
        simp at h7; obtain ⟨rfl, rfl⟩ := h7
        obtain ⟨g, hd⟩ := ihr hr h5
        have := balance_good hl g (by omega) (by omega) h6
        refine ⟨this.1, ?_⟩
        simp only [depth]; omega
      · simp at h; obtain ⟨rfl, _⟩ := h
        simp only [depth, good_node, true_or, and_true]
        tauto

theorem getMut_depth (t : ATree K V) (k : K) (f : V → V) : depth (t.getMut k f).2 = depth t := by
  induction t with
  | nil => rfl
  | node a l x v r ihl ihr =>
    simp only [Tree.getMut]
    split
    · simp only [depth, ihl]
    · split
      · simp only [depth, ihr]
      · rfl

theorem getMut_good {t : ATree K V} {k : K} {f : V → V} (hg : Good t) : Good (t.getMut k f).2 := by
  induction t with
  | nil => exact hg
  | node a l x v r ihl ihr =>
    rw [good_node] at hg
    simp only [Tree.getMut]
    split
    · simp only [good_node, getMut_depth]; tauto
    · split
      · simp only [good_node, getMut_depth]; tauto
      · simp only [good_node]; tauto

theorem step_good {s s' : AvlMap K V} {op : MapOp K V} {d : Unit} {r : MapRes K V}
    (hne : ∀ k, op ≠ .remove k) (h1 : step s op d = some (s', r)) (hg : Good s.tree) :
    Good s'.tree := by
  cases op with
  | insert k v =>
    simp only [step, AvlMap.insert, Option.bind_eq_bind, Option.bind_eq_some_iff] at h1
    obtain ⟨⟨m', r⟩, ⟨⟨t, ret⟩, h3, h4⟩, h5⟩ := h1
    have h6 := (insert_good hg h3).1
    cases ret with
    | none => simp at h4 h5; rw [← h5.1, ← h4.1]; exact h6
    | some e => simp [decr] at h4 h5; rw [← h5.1, ← h4.1]; exact h6
  | remove k => exact absurd rfl (hne k)
  | getMut k f => simp [step] at h1; rw [← h1.1]; exact getMut_good hg
  | clear => simp [step] at h1; rw [← h1.1]; exact ⟨trivial, trivial⟩
  | _ => simp [step] at h1; rw [← h1.1]; exact hg

/-- The node holding `k` (if any) has at most one child, or its right child has no left child. -/
def EasyKey : ATree K V → K → Prop
  | .nil, _ => True
  | .node _ l x _ r, k =>
    if k < x then EasyKey l k else if x < k then EasyKey r k
    else l = .nil ∨ r = .nil ∨ ∃ h y w r', r = .node h .nil y w r'

theorem remove_good {t : ATree K V} {k : K} {t' o} (hg : Good t) (he : EasyKey t k)
    (h : remove t k = some (t', o)) :
    Good t' ∧ (depth t' = depth t ∨ depth t = depth t' + 1) := by
  induction t generalizing t' with
  | nil => simp [remove] at h; obtain ⟨rfl, _⟩ := h; exact ⟨hg, .inl rfl⟩
  | node ht l x w r ihl ihr =>
    rw [good_node] at hg
    obtain ⟨_, hl, hr, h3, h4⟩ := hg
    simp only [remove] at h
    simp only [EasyKey] at he
    split at h
    · rw [if_pos ‹_›] at he
      simp only [Option.bind_eq_bind, Option.bind_eq_some_iff] at h
      obtain ⟨⟨l', o'⟩, h5, t₁, h6, h7⟩ := h
      simp at h7; obtain ⟨rfl, rfl⟩ := h7
      obtain ⟨g, hd⟩ := ihl hl he h5
      have := balance_good g hr (by omega) (by omega) h6
      refine ⟨this.1, ?_⟩
      simp only [depth]; omega
    · rw [if_neg ‹_›] at he
      split at h
      · rw [if_pos ‹_›] at he
        simp only [Option.bind_eq_bind, Option.bind_eq_some_iff] at h
        obtain ⟨⟨r', o'⟩, h5, t₁, h6, h7⟩ := h
        simp at h7; obtain ⟨rfl, rfl⟩ := h7
        obtain ⟨g, hd⟩ := ihr hr he h5
        have := balance_good hl g (by omega) (by omega) h6
        refine ⟨this.1, ?_⟩
        simp only [depth]; omega
      · rw [if_neg ‹_›] at he
        simp only [Option.bind_eq_bind, Option.bind_eq_some_iff] at h
        obtain ⟨t₀, h5, t₁, h6, h7⟩ := h
        simp at h7; obtain ⟨rfl, rfl⟩ := h7
        have same : ∀ s : ATree K V, Good s → balance s = some t₁ → Good t₁ ∧ depth t₁ = depth s := by
          intro s hs hb
          cases s with
          | nil => simp [balance] at hb; subst hb; exact ⟨hs, rfl⟩
          | node a b c d e =>
            rw [good_node] at hs
            obtain ⟨_, q1, q2, q3, q4⟩ := hs
            have := balance_good q1 q2 (by omega) (by omega) hb
            refine ⟨this.1, ?_⟩
            simp only [depth]; omega
        rcases he with rfl | rfl | ⟨h', y, w', r', rfl⟩
        · have : t₀ = r := by cases r <;> simp [joinChildren] at h5 <;> exact h5.symm
          subst this
          have := same t₀ hr h6
          refine ⟨this.1, ?_⟩
          simp only [depth] at *; omega
        · have : t₀ = l := by cases l <;> simp [joinChildren] at h5 <;> exact h5.symm
          subst this
          have := same t₀ hl h6
          refine ⟨this.1, ?_⟩
          simp only [depth] at *; omega
        · cases l with
          | nil =>
            simp [joinChildren] at h5; subst h5
            have := same _ hr h6
            refine ⟨this.1, ?_⟩
            simp only [depth] at *; omega
          | node a b c d e =>
            simp [joinChildren, combineSubtrees, removeMin] at h5
            subst h5
            rw [good_node] at hr
            obtain ⟨_, q1, q2, q3, q4⟩ := hr
            simp only [depth] at q3 q4 h3 h4
            have := balance_good hl q2 (by simp only [depth]; omega) (by simp only [depth]; omega) h6
            refine ⟨this.1, ?_⟩
            simp only [depth] at this ⊢; omega

omit [LinearOrder K] in
theorem fib_mono_succ (n : Nat) : fib n ≤ fib (n + 1) := by
  induction n using Nat.strongRecOn with
  | ind n ih =>
    match n with
    | 0 => simp [fib]
    | 1 => simp [fib]
    | n + 2 => have := ih n (by omega); have := ih (n+1) (by omega); simp only [fib] at *; omega

theorem fib_mono {m n : Nat} (h : m ≤ n) : fib m ≤ fib n := by
  induction h with
  | refl => exact Nat.le_refl _
  | step _ ih => exact Nat.le_trans ih (fib_mono_succ _)

omit [LinearOrder K] in
theorem fib_depth_le {A : Type} {t : Tree A K V} (h : HeightBalanced t) :
    fib (depth t + 2) ≤ t.size + 1 := by
  induction t with
  | nil => simp [depth, fib, Tree.size]
  | node a l x v r ihl ihr =>
    obtain ⟨h1, h2, h3, h4⟩ := h
    have e1 := ihl h3
    have e2 := ihr h4
    simp only [depth, Tree.size]
    rcases Nat.le_total (depth l) (depth r) with hle | hle
    · rw [Nat.max_eq_right hle]
      have : fib (depth r + 1) ≤ fib (depth l + 2) := fib_mono (by omega)
      show fib (depth r + 1) + fib (depth r + 2) ≤ _
      omega
    · rw [Nat.max_eq_left hle]
      have : fib (depth l + 1) ≤ fib (depth r + 2) := fib_mono (by omega)
      show fib (depth l + 1) + fib (depth l + 2) ≤ _
      omega

end Verif.Avl
