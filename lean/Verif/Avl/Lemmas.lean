/- Refinement lemmas for the AVL model. -/
import Verif.Avl.Model
import Verif.Bst.Lemmas

namespace Verif.Avl

open Verif.Bst Verif.Spec
open Verif.SL (Sorted)

variable {K V : Type}

theorem rotateLeft_toList {l : ATree K V} {k v r t} (h : rotateLeft l k v r = some t) :
    t.toList = l.toList ++ (k, v) :: r.toList := by
  cases r with
  | nil => simp [rotateLeft] at h
  | node => simp [rotateLeft] at h; subst h; simp [update]

theorem rotateRight_toList {l : ATree K V} {k v r t} (h : rotateRight l k v r = some t) :
    t.toList = l.toList ++ (k, v) :: r.toList := by
  cases l with
  | nil => simp [rotateRight] at h
  | node => simp [rotateRight] at h; subst h; simp [update]

theorem balance_isSome (t : ATree K V) : ∃ t', balance t = some t' := by
  cases t with
  | nil => exact ⟨_, rfl⟩
  | node h l k v r =>
    simp only [balance]
    split
    · cases l with
      | nil => rename_i hb; simp only [nodeBalance, height] at hb; omega
      | node ch cl ck cv cr =>
        simp only [fixLeft]
        split
        · cases cr with
          | nil => rename_i hb; simp only [nodeBalance, height] at hb; omega
          | node => exact ⟨_, rfl⟩
        · exact ⟨_, rfl⟩
    · split
      · cases r with
        | nil => rename_i hb; simp only [nodeBalance, height] at hb; omega
        | node ch cl ck cv cr =>
          simp only [fixRight]
          split
          · cases cl with
            | nil => rename_i hb; simp only [nodeBalance, height] at hb; omega
            | node => exact ⟨_, rfl⟩
          · exact ⟨_, rfl⟩
      · exact ⟨_, rfl⟩

theorem balance_toList {t t' : ATree K V} (h : balance t = some t') : t'.toList = t.toList := by
  cases t with
  | nil => simp [balance] at h; subst h; rfl
  | node ht l k v r =>
    simp only [balance] at h
    split at h
    · simp only [Option.bind_eq_bind, Option.bind_eq_some_iff] at h
      obtain ⟨l', hl', h⟩ := h
      have : l'.toList = l.toList := by
        cases l with
        | nil => simp [fixLeft] at hl'; subst hl'; rfl
        | node ch cl ck cv cr =>
          simp only [fixLeft] at hl'
          split at hl'
          · rw [rotateLeft_toList hl']; rfl
          · simp at hl'; subst hl'; rfl
      rw [rotateRight_toList h, this]; rfl
    · split at h
      · simp only [Option.bind_eq_bind, Option.bind_eq_some_iff] at h
        obtain ⟨r', hr', h⟩ := h
        have : r'.toList = r.toList := by
          cases r with
          | nil => simp [fixRight] at hr'; subst hr'; rfl
          | node ch cl ck cv cr =>
            simp only [fixRight] at hr'
            split at hr'
            · rw [rotateRight_toList hr']; rfl
            · simp at hr'; subst hr'; rfl
        rw [rotateLeft_toList h, this]; rfl
      · simp at h; subst h; rfl

theorem removeMin_spec (t : ATree K V) (h : t ≠ .nil) :
    ∃ ht k v t', removeMin t = some ((ht, k, v), t') ∧ t.toList = (k, v) :: t'.toList := by
  induction t with
  | nil => exact absurd rfl h
  | node ht l k v r ihl ihr =>
    cases l with
    | nil => exact ⟨ht, k, v, r, rfl, rfl⟩
    | node h' l' k' v' r' =>
      obtain ⟨a, b, c, t', h1, h2⟩ := ihl (by simp)
      refine ⟨a, b, c, .node ht t' k v r, ?_, ?_⟩
      · rw [removeMin, h1]; rfl
      · rw [Tree.toList_node, h2]; rfl

variable [LinearOrder K]

theorem insert_spec (t : ATree K V) (k : K) (v : V) (hs : Sorted t.toList) :
    ∃ t', insert t k v = some (t', SL.find k t.toList) ∧ t'.toList = SL.ins k v t.toList := by
  induction t with
  | nil => exact ⟨_, rfl, rfl⟩
  | node h l x w r ihl ihr =>
    obtain ⟨h1, h2, _, _⟩ := SL.sorted_mid.1 hs
    simp only [insert, Tree.toList_node]
    split
    · obtain ⟨l', hl, hl'⟩ := ihl h1
      obtain ⟨t', ht⟩ := balance_isSome (.node h l' x w r)
      refine ⟨t', ?_, ?_⟩
      · simp [hl, ht, SL.find_mid_lt hs ‹_›]
      · rw [balance_toList ht, SL.ins_mid_lt hs ‹_›, Tree.toList_node, hl']
    · split
      · obtain ⟨r', hr, hr'⟩ := ihr h2
        obtain ⟨t', ht⟩ := balance_isSome (.node h l x w r')
        refine ⟨t', ?_, ?_⟩
        · simp [hr, ht, SL.find_mid_gt hs ‹_›]
        · rw [balance_toList ht, SL.ins_mid_gt hs ‹_›, Tree.toList_node, hr']
      · have : x = k := by grind
        subst this
        exact ⟨_, by rw [SL.find_mid_eq hs], by rw [SL.ins_mid_eq hs]; rfl⟩

theorem remove_spec (t : ATree K V) (k : K) (hs : Sorted t.toList) :
    ∃ t', remove t k = some (t', SL.find k t.toList) ∧ t'.toList = SL.del k t.toList := by
  induction t with
  | nil => exact ⟨_, rfl, rfl⟩
  | node h l x w r ihl ihr =>
    obtain ⟨h1, h2, _, _⟩ := SL.sorted_mid.1 hs
    simp only [remove, Tree.toList_node]
    split
    · obtain ⟨l', hl, hl'⟩ := ihl h1
      obtain ⟨t', ht⟩ := balance_isSome (.node h l' x w r)
      refine ⟨t', ?_, ?_⟩
      · simp [hl, ht, SL.find_mid_lt hs ‹_›]
      · rw [balance_toList ht, SL.del_mid_lt hs ‹_›, Tree.toList_node, hl']
    · split
      · obtain ⟨r', hr, hr'⟩ := ihr h2
        obtain ⟨t', ht⟩ := balance_isSome (.node h l x w r')
        refine ⟨t', ?_, ?_⟩
        · simp [hr, ht, SL.find_mid_gt hs ‹_›]
        · rw [balance_toList ht, SL.del_mid_gt hs ‹_›, Tree.toList_node, hr']
      · have : x = k := by grind
        subst this
        rw [SL.find_mid_eq hs, SL.del_mid_eq hs]
        have key : ∃ t₁, joinChildren l r = some t₁ ∧ t₁.toList = l.toList ++ r.toList := by
          cases l with
          | nil => exact ⟨r, by cases r <;> rfl, rfl⟩
          | node hh ll kk vv rr =>
            cases r with
            | nil => exact ⟨_, rfl, by simp⟩
            | node h' l' k' v' r' =>
              obtain ⟨a, b, c, t', e1, e2⟩ := removeMin_spec (.node h' l' k' v' r') (by simp)
              refine ⟨.node a (.node hh ll kk vv rr) b c t', ?_, ?_⟩
              · simp only [joinChildren, combineSubtrees, e1]; rfl
              · rw [Tree.toList_node, e2]
        obtain ⟨t₁, e1, e2⟩ := key
        obtain ⟨t', ht⟩ := balance_isSome t₁
        refine ⟨t', ?_, ?_⟩
        · rw [e1]; simp [ht]
        · rw [balance_toList ht, e2]

/-- The simulation of `AvlMap` by sorted lists. -/
def sim (K V : Type) [LinearOrder K] : SL.ListSim (impl K V) where
  rel s l := s.tree.toList = l ∧ s.len = l.length
  empty := ⟨rfl, rfl⟩
  step := by
    rintro ⟨t, n⟩ l op d hs ⟨rfl, hn⟩
    simp only at hn; subst hn
    change Sorted t.toList at hs
    simp only [impl]
    cases op with
    | insert k v =>
      obtain ⟨t', h1, h2⟩ := insert_spec t k v hs
      have h3 := SL.length_ins (k := k) (v := v) hs
      cases hf : SL.find k t.toList with
      | none =>
        rw [hf] at h1 h3
        exact ⟨⟨t', t.toList.length + 1⟩, by simp [step, AvlMap.insert, h1, SL.res, hf],
          h2, by simpa [SL.next] using h3.symm⟩
      | some e =>
        rw [hf] at h1 h3
        exact ⟨⟨t', t.toList.length⟩, by simp [step, AvlMap.insert, h1, SL.res, hf, decr],
          h2, by simpa [SL.next] using h3.symm⟩
    | remove k =>
      obtain ⟨t', h1, h2⟩ := remove_spec t k hs
      have h3 := SL.length_del (k := k) hs
      cases hf : SL.find k t.toList with
      | none =>
        rw [hf] at h1 h3
        exact ⟨⟨t', t.toList.length⟩, by simp [step, AvlMap.remove, h1, SL.res, hf],
          h2, by simpa [SL.next] using h3.symm⟩
      | some e =>
        rw [hf] at h1 h3
        have hp := List.length_pos_of_mem (SL.find_some_mem hf)
        obtain ⟨n, hn⟩ : ∃ n, t.toList.length = n + 1 := ⟨_, (Nat.succ_pred_eq_of_pos hp).symm⟩
        refine ⟨⟨t', n⟩, by simp [step, AvlMap.remove, h1, SL.res, hf, decr, hn],
          h2, ?_⟩
        rw [hn] at h3; simpa [SL.next] using h3.symm
    | get k => exact ⟨⟨t, t.toList.length⟩, by simp [step, SL.res, Tree.get_eq t k hs], rfl, rfl⟩
    | containsKey k => exact ⟨⟨t, t.toList.length⟩, by simp [step, SL.res, Tree.get_eq t k hs], rfl, rfl⟩
    | getMut k f =>
      refine ⟨⟨(t.getMut k f).2, t.toList.length⟩, ?_, Tree.getMut_snd t k f hs, SL.length_upd.symm⟩
      simp [step, SL.res, Tree.getMut_fst, Tree.get_eq t k hs]
    | floor k => exact ⟨⟨t, t.toList.length⟩, by simp [step, SL.res, Tree.floor_eq t k hs], rfl, rfl⟩
    | ceil k => exact ⟨⟨t, t.toList.length⟩, by simp [step, SL.res, Tree.ceil_eq t k hs], rfl, rfl⟩
    | min => exact ⟨⟨t, t.toList.length⟩, by simp [step, SL.res, Tree.min_eq], rfl, rfl⟩
    | max => exact ⟨⟨t, t.toList.length⟩, by simp [step, SL.res, Tree.max_eq], rfl, rfl⟩
    | len => exact ⟨⟨t, t.toList.length⟩, by simp [step, SL.res], rfl, rfl⟩
    | isEmpty =>
      refine ⟨⟨t, t.toList.length⟩, ?_, rfl, rfl⟩
      simp only [step, SL.res]; cases t.toList <;> simp
    | iter => exact ⟨⟨t, t.toList.length⟩, by simp [step, SL.res, Iter.collect_start], rfl, rfl⟩
    | clear => exact ⟨⟨.nil, 0⟩, rfl, rfl, rfl⟩

end Verif.Avl
