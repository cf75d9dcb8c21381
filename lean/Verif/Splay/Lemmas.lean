/- Refinement lemmas for the splay model. -/
import Verif.Splay.Model
import Verif.Bst.Lemmas

namespace Verif.Splay

open Verif.Bst Verif.Spec
open Verif.SL (Sorted)

variable {K V : Type}

/-- In-order list of a stack of left frames (most recent first). -/
def listL : FramesL K V → List (K × V)
  | [] => []
  | (l, k, v) :: fs => listL fs ++ (l.toList ++ [(k, v)])

def listR : FramesR K V → List (K × V)
  | [] => []
  | (k, v, r) :: fs => (k, v) :: r.toList ++ listR fs

theorem fillL_toList (t : STree K V) (fs : FramesL K V) :
    (fillL t fs).toList = listL fs ++ t.toList := by
  induction fs generalizing t with
  | nil => simp [fillL, listL]
  | cons f fs ih => obtain ⟨l, k, v⟩ := f; simp [fillL, listL, ih]

theorem fillR_toList (t : STree K V) (fs : FramesR K V) :
    (fillR t fs).toList = t.toList ++ listR fs := by
  induction fs generalizing t with
  | nil => simp [fillR, listR]
  | cons f fs ih => obtain ⟨k, v, r⟩ := f; simp [fillR, listR, ih]

variable [LinearOrder K]

/-- What `splay` guarantees: same entries, and the root is next to `k`. -/
def Post (k : K) (es : List (K × V)) (t : STree K V) : Prop :=
  ∃ l y w r, t = nd l y w r ∧ l.toList ++ (y, w) :: r.toList = es ∧
    (k < y → ∀ e ∈ l.toList, e.1 < k) ∧ (y < k → ∀ e ∈ r.toList, k < e.1)

theorem splayLoop_spec (k : K) (n : Nat) : ∀ (t : STree K V) (ls : FramesL K V) (rs : FramesR K V),
    t.size ≤ n → t ≠ .nil → Sorted t.toList →
    (∀ e ∈ listL ls, e.1 < k) → (∀ e ∈ listR rs, k < e.1) →
    Post k (listL ls ++ t.toList ++ listR rs) (splayLoop k t ls rs) := by
  induction n with
  | zero => intro t ls rs h1 h2; cases t <;> simp [Tree.size] at h1 h2
  | succ n ih =>
    intro t ls rs hsz hne hs hl hr
    cases t with
    | nil => exact absurd rfl hne
    | node a l x v r =>
      obtain ⟨hs1, hs2, hs3, hs4⟩ := SL.sorted_mid.1 hs
      simp only [Tree.size] at hsz
      by_cases hlt : k < x
      · cases l with
        | nil =>
          rw [splayLoop.eq_def]; simp only [if_pos hlt]
          refine ⟨_, _, _, _, rfl, by simp [fillL_toList, fillR_toList], ?_, ?_⟩
          · intro _ e he; rw [fillL_toList] at he; simp at he; exact hl e he
          · intro h; exact absurd (lt_trans h hlt) (lt_irrefl _)
        | node b ll lk lv lr =>
          obtain ⟨ht1, ht2, ht3, ht4⟩ := SL.sorted_mid.1 hs1
          simp only [Tree.size] at hsz
          by_cases hlk : k < lk
          · have hr' : ∀ e ∈ listR ((lk, lv, nd lr x v r) :: rs), k < e.1 := by
              intro e he
              simp only [listR, Tree.toList_node, List.cons_append, List.mem_cons, List.mem_append] at he
              rcases he with rfl | (he | rfl | he) | he
              · exact hlk
              · exact lt_trans hlk (ht4 e he)
              · exact hlt
              · exact lt_trans hlt (hs4 e he)
              · exact hr e he
            cases ll with
            | nil =>
              rw [splayLoop.eq_def]; simp only [if_pos hlt]
              simp only [if_pos hlk]
              refine ⟨_, _, _, _, rfl, by simp [fillL_toList, fillR_toList], ?_, ?_⟩
              · intro _ e he; rw [fillL_toList] at he; simp at he; exact hl e he
              · intro h; exact absurd (lt_trans h hlk) (lt_irrefl _)
            | node c l' k' v' r' =>
              rw [splayLoop.eq_def]; simp only [if_pos hlt]
              simp only [if_pos hlk]
              simp only [Tree.size] at hsz
              have := ih (nd l' k' v' r') ls _ (by simp only [Tree.size]; omega) (by simp) ht1 hl hr'
              simp only [listR, Tree.toList_node] at this ⊢
              simpa using this
          · have hr' : ∀ e ∈ listR ((x, v, r) :: rs), k < e.1 := by
              intro e he
              simp only [listR, List.cons_append, List.mem_cons, List.mem_append] at he
              rcases he with rfl | he | he
              · exact hlt
              · exact lt_trans hlt (hs4 e he)
              · exact hr e he
            rw [splayLoop.eq_def]; simp only [if_pos hlt]
            simp only [if_neg hlk]
            have := ih (nd ll lk lv lr) ls _ (by simp only [Tree.size]; omega) (by simp) hs1 hl hr'
            simp only [listR, Tree.toList_node] at this ⊢
            simpa using this
      · by_cases hgt : x < k
        · cases r with
          | nil =>
            rw [splayLoop.eq_def]; simp only [if_neg hlt, if_pos hgt]
            refine ⟨_, _, _, _, rfl, by simp [fillL_toList, fillR_toList], ?_, ?_⟩
            · intro h; exact absurd (lt_trans h hgt) (lt_irrefl _)
            · intro _ e he; rw [fillR_toList] at he; simp at he; exact hr e he
          | node b rl rk rv rr =>
            obtain ⟨ht1, ht2, ht3, ht4⟩ := SL.sorted_mid.1 hs2
            simp only [Tree.size] at hsz
            by_cases hrk : rk < k
            · have hl' : ∀ e ∈ listL ((nd l x v rl, rk, rv) :: ls), e.1 < k := by
                intro e he
                simp only [listL, Tree.toList_node, List.mem_append, List.mem_cons, List.not_mem_nil,
                  or_false] at he
                rcases he with he | (he | rfl | he) | rfl
                · exact hl e he
                · exact lt_trans (hs3 e he) hgt
                · exact hgt
                · exact lt_trans (ht3 e he) hrk
                · exact hrk
              cases rr with
              | nil =>
                rw [splayLoop.eq_def]; simp only [if_neg hlt, if_pos hgt]
                simp only [if_pos hrk]
                refine ⟨_, _, _, _, rfl, by simp [fillL_toList, fillR_toList], ?_, ?_⟩
                · intro h; exact absurd (lt_trans h hrk) (lt_irrefl _)
                · intro _ e he; rw [fillR_toList] at he; simp at he; exact hr e he
              | node c l' k' v' r' =>
                rw [splayLoop.eq_def]; simp only [if_neg hlt, if_pos hgt]
                simp only [if_pos hrk]
                simp only [Tree.size] at hsz
                have := ih (nd l' k' v' r') _ rs (by simp only [Tree.size]; omega) (by simp) ht2 hl' hr
                simp only [listL, Tree.toList_node] at this ⊢
                simpa using this
            · have hl' : ∀ e ∈ listL ((l, x, v) :: ls), e.1 < k := by
                intro e he
                simp only [listL, List.mem_append, List.mem_cons, List.not_mem_nil, or_false] at he
                rcases he with he | he | rfl
                · exact hl e he
                · exact lt_trans (hs3 e he) hgt
                · exact hgt
              rw [splayLoop.eq_def]; simp only [if_neg hlt, if_pos hgt]
              simp only [if_neg hrk]
              have := ih (nd rl rk rv rr) _ rs (by simp only [Tree.size]; omega) (by simp) hs2 hl' hr
              simp only [listL, Tree.toList_node] at this ⊢
              simpa using this
        · rw [splayLoop.eq_def]; simp only [if_neg hlt, if_neg hgt]
          refine ⟨_, _, _, _, rfl, by simp [fillL_toList, fillR_toList], ?_, ?_⟩
          · intro h; exact absurd h hlt
          · intro h; exact absurd h hgt

theorem splay_spec (k : K) (t : STree K V) (hne : t ≠ .nil) (hs : Sorted t.toList) :
    Post k t.toList (splay k t) := by
  have := splayLoop_spec k t.size t [] [] (Nat.le_refl _) hne hs (by simp [listL]) (by simp [listR])
  simpa [listL, listR, splay] using this

theorem insert_spec (t : STree K V) (k : K) (v : V) (hs : Sorted t.toList) :
    (insert t k v).2 = SL.find k t.toList ∧ (insert t k v).1.toList = SL.ins k v t.toList := by
  cases t with
  | nil => exact ⟨rfl, rfl⟩
  | node a l₀ x₀ v₀ r₀ =>
    obtain ⟨l, y, w, r, h1, h2, h3, h4⟩ := splay_spec k _ (by simp) hs
    unfold insert
    rw [h1]
    rw [← h2] at hs ⊢
    obtain ⟨_, _, hs3, hs4⟩ := SL.sorted_mid.1 hs
    simp only
    split
    · rename_i hk
      have e1 : SL.find k l.toList = none := SL.find_of_lt_all (h3 hk)
      refine ⟨by rw [SL.find_mid_lt hs hk, e1], ?_⟩
      rw [SL.ins_mid_lt hs hk, ← List.append_nil l.toList, SL.ins_between (h3 hk) (by simp)]
      simp
    · split
      · rename_i hk
        have e1 : SL.find k r.toList = none := SL.find_of_all_lt (h4 hk)
        refine ⟨by rw [SL.find_mid_gt hs hk, e1], ?_⟩
        rw [SL.ins_mid_gt hs hk]
        have := SL.ins_between (l := []) (v := v) (by simp) (h4 hk)
        simp at this
        simp [this]
      · have : y = k := by grind
        subst this
        exact ⟨by rw [SL.find_mid_eq hs], by rw [SL.ins_mid_eq hs]; rfl⟩

theorem remove_spec (t : STree K V) (k : K) (hs : Sorted t.toList) :
    (remove t k).2 = SL.find k t.toList ∧ (remove t k).1.toList = SL.del k t.toList := by
  cases t with
  | nil => exact ⟨rfl, rfl⟩
  | node a l₀ x₀ v₀ r₀ =>
    obtain ⟨l, y, w, r, h1, h2, h3, h4⟩ := splay_spec k _ (by simp) hs
    unfold remove
    rw [h1]
    rw [← h2] at hs ⊢
    obtain ⟨hs1, hs2, hs3, hs4⟩ := SL.sorted_mid.1 hs
    by_cases hk : k = y
    · subst hk
      simp only [ne_eq, not_true_eq_false, if_false]
      rw [SL.find_mid_eq hs, SL.del_mid_eq hs]
      cases l with
      | nil => exact ⟨rfl, rfl⟩
      | node b ll lk lv lr =>
        obtain ⟨l', y', w', r', g1, g2, g3, g4⟩ := splay_spec k (nd ll lk lv lr) (by simp) hs1
        simp only [g1, true_and]
        have hy : y' < k := hs3 (y', w') (by
          have : (y', w') ∈ (nd ll lk lv lr).toList := by rw [← g2]; simp
          exact this)
        have hr' : r'.toList = [] := by
          rw [List.eq_nil_iff_forall_not_mem]
          intro e he
          have e1 := g4 hy e he
          have e2 := hs3 e (by
            have : e ∈ (nd ll lk lv lr).toList := by rw [← g2]; simp [he]
            exact this)
          exact absurd (lt_trans e1 e2) (lt_irrefl _)
        rw [hr'] at g2
        change _ = (nd ll lk lv lr).toList ++ r.toList
        rw [← g2]; simp
    · simp only [ne_eq, hk, not_false_eq_true, if_true]
      have : SL.find k (l.toList ++ (y, w) :: r.toList) = none := by
        rcases lt_or_gt_of_ne hk with h | h
        · rw [SL.find_mid_lt hs h, SL.find_of_lt_all (h3 h)]
        · rw [SL.find_mid_gt hs h, SL.find_of_all_lt (h4 h)]
      refine ⟨this.symm, ?_⟩
      rw [SL.del_of_not_mem (SL.find_eq_none.1 this)]; rfl

theorem getMut_spec (t : STree K V) (k : K) (f : V → V) (hs : Sorted t.toList) :
    (getMut t k f).1 = SL.find k t.toList ∧ (getMut t k f).2.toList = SL.upd k f t.toList := by
  cases t with
  | nil => exact ⟨rfl, rfl⟩
  | node a l₀ x₀ v₀ r₀ =>
    obtain ⟨l, y, w, r, h1, h2, h3, h4⟩ := splay_spec k _ (by simp) hs
    unfold getMut
    rw [h1]
    rw [← h2] at hs ⊢
    by_cases hk : y = k
    · subst hk
      simp only [if_true]
      exact ⟨by rw [SL.find_mid_eq hs], by rw [SL.upd_mid_eq hs]; rfl⟩
    · simp only [hk, if_false]
      have : SL.find k (l.toList ++ (y, w) :: r.toList) = none := by
        rcases lt_or_gt_of_ne hk with h | h
        · rw [SL.find_mid_gt hs h, SL.find_of_all_lt (h4 h)]
        · rw [SL.find_mid_lt hs h, SL.find_of_lt_all (h3 h)]
      refine ⟨this.symm, ?_⟩
      rw [SL.upd_of_not_mem (SL.find_eq_none.1 this)]; rfl

/-- The simulation of `SplayMap` by sorted lists. -/
def sim (K V : Type) [LinearOrder K] : SL.ListSim (impl K V) where
  rel s l := s.tree.toList = l ∧ s.len = l.length
  empty := ⟨rfl, rfl⟩
  step := by
    rintro ⟨t, n⟩ l op d hs ⟨rfl, hn⟩
    simp only at hn; subst hn
    change Sorted t.toList at hs
    simp only [impl]
    cases op with
    | insert k v =>
      obtain ⟨h1, h2⟩ := insert_spec t k v hs
      have h3 := SL.length_ins (k := k) (v := v) hs
      cases hf : SL.find k t.toList with
      | none =>
        rw [hf] at h1 h3
        exact ⟨⟨_, t.toList.length + 1⟩, by simp [step, SplayMap.insert, h1, SL.res, hf],
          h2, by simpa [SL.next] using h3.symm⟩
      | some e =>
        rw [hf] at h1 h3
        exact ⟨⟨_, t.toList.length⟩, by simp [step, SplayMap.insert, h1, SL.res, hf, decr],
          h2, by simpa [SL.next] using h3.symm⟩
    | remove k =>
      obtain ⟨h1, h2⟩ := remove_spec t k hs
      have h3 := SL.length_del (k := k) hs
      cases hf : SL.find k t.toList with
      | none =>
        rw [hf] at h1 h3
        exact ⟨⟨_, t.toList.length⟩, by simp [step, SplayMap.remove, h1, SL.res, hf],
          h2, by simpa [SL.next] using h3.symm⟩
      | some e =>
        rw [hf] at h1 h3
        have hp := List.length_pos_of_mem (SL.find_some_mem hf)
        obtain ⟨n, hn⟩ : ∃ n, t.toList.length = n + 1 := ⟨_, (Nat.succ_pred_eq_of_pos hp).symm⟩
        refine ⟨⟨_, n⟩, by simp [step, SplayMap.remove, h1, SL.res, hf, decr, hn],
          h2, ?_⟩
        rw [hn] at h3; simpa [SL.next] using h3.symm
    | get k => exact ⟨⟨t, t.toList.length⟩, by simp [step, SL.res, Tree.get_eq t k hs], rfl, rfl⟩
    | containsKey k => exact ⟨⟨t, t.toList.length⟩, by simp [step, SL.res, Tree.get_eq t k hs], rfl, rfl⟩
    | getMut k f =>
      obtain ⟨h1, h2⟩ := getMut_spec t k f hs
      refine ⟨⟨(getMut t k f).2, t.toList.length⟩, ?_, h2, SL.length_upd.symm⟩
      simp [step, SL.res, h1]
    | floor k => exact ⟨⟨t, t.toList.length⟩, by simp [step, SL.res, Tree.floor_eq t k hs], rfl, rfl⟩
    | ceil k => exact ⟨⟨t, t.toList.length⟩, by simp [step, SL.res, Tree.ceil_eq t k hs], rfl, rfl⟩
    | min => exact ⟨⟨t, t.toList.length⟩, by simp [step, SL.res, Tree.min_eq], rfl, rfl⟩
    | max => exact ⟨⟨t, t.toList.length⟩, by simp [step, SL.res, Tree.max_eq], rfl, rfl⟩
    | len => exact ⟨⟨t, t.toList.length⟩, by simp [step, SL.res], rfl, rfl⟩
    | isEmpty =>
      refine ⟨⟨t, t.toList.length⟩, ?_, rfl, rfl⟩
      simp only [step, SL.res]; cases t.toList <;> simp
    | iter => exact ⟨⟨t, t.toList.length⟩, by simp [step, SL.res, Iter.collect_start], rfl, rfl⟩
    | clear => exact ⟨⟨.nil, 0⟩, rfl, rfl, rfl⟩

end Verif.Splay
