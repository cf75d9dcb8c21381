/- `SplayMap` when a comparison of keys panics and the client catches the panic (C74).

The functions of `Splay.Model` once more, following the slots of the tree: the first `b` comparisons of a call
return, the next one panics.  A panic unwinds; whatever a slot holds at that moment stays in it, and nodes held in
local variables are dropped. -/
import Verif.Splay.Cost
import Verif.Bst.Panic
import Verif.Lib.PanicSim

namespace Verif.Splay

open Verif.Bst Verif.Spec
open Verif.SL (Sorted)

variable {K V : Type} [LinearOrder K]

/-- The loop of `splay` (splay_tree/tree.rs:19-63).  `error t`: a comparison (line 20, 23 or 44) panicked while
`*node` was `t`; the frames hung up so far are in the locals `left_subtree` and `right_subtree` and are lost.
`ok (t, b)`: the loop ended, `b` comparisons being left. -/
def splayLoopP (k : K) : Nat → STree K V → FramesL K V → FramesR K V → Except (STree K V) (STree K V × Nat)
  | b, .nil, _, _ => .ok (.nil, b)
  | 0, .node _ l x v r, _, _ => .error (nd l x v r)
  | b + 1, .node _ l x v r, ls, rs =>
    if k < x then
      match l with
      | .nil => .ok (finish .nil x v r ls rs, b)
      | .node _ ll lk lv lr =>
        match b with
        | 0 => .error (nd (nd ll lk lv lr) x v r)
        | b + 1 =>
          if k < lk then
            match ll with
            | .nil => .ok (finish .nil lk lv (nd lr x v r) ls rs, b)
            | .node _ l' k' v' r' => splayLoopP k b (.node () l' k' v' r') ls ((lk, lv, nd lr x v r) :: rs)
          else splayLoopP k b (.node () ll lk lv lr) ls ((x, v, r) :: rs)
    else if x < k then
      match r with
      | .nil => .ok (finish l x v .nil ls rs, b)
      | .node _ rl rk rv rr =>
        match b with
        | 0 => .error (nd l x v (nd rl rk rv rr))
        | b + 1 =>
          if rk < k then
            match rr with
            | .nil => .ok (finish (nd l x v rl) rk rv .nil ls rs, b)
            | .node _ l' k' v' r' => splayLoopP k b (.node () l' k' v' r') ((nd l x v rl, rk, rv) :: ls) rs
          else splayLoopP k b (.node () rl rk rv rr) ((l, x, v) :: ls) rs
    else .ok (finish l x v r ls rs, b)

/-- splay_tree/tree.rs:9-71 `splay`. -/
def splayP (k : K) (b : Nat) (t : STree K V) : Except (STree K V) (STree K V × Nat) := splayLoopP k b t [] []

/-- splay_tree/tree.rs:73-104 `insert`: the tree afterwards and the result (`none`: panicked). -/
def insertP (b : Nat) (t : STree K V) (k : K) (v : V) : STree K V × Option (Option (K × V)) :=
  match t with
  | .nil => (nd .nil k v .nil, some none)
  | t =>
    match splayP k b t with
    | .error t => (t, none)
    | .ok (t, 0) => (t, none)
    | .ok (.nil, _ + 1) => (nd .nil k v .nil, some none)
    | .ok (.node _ l x w r, _ + 1) =>
      if k < x then (nd l k v (nd .nil x w r), some none)
      else if x < k then (nd (nd l x w .nil) k v r, some none)
      else (nd l k v r, some (some (x, w)))

/-- splay_tree/tree.rs:106-132 `remove`: while the left subtree is splayed (line 125) the slot `tree` is empty
(line 121) and both subtrees are in local variables. -/
def removeP (b : Nat) (t : STree K V) (k : K) : STree K V × Option (Option (K × V)) :=
  match t with
  | .nil => (.nil, some none)
  | t =>
    match splayP k b t with
    | .error t => (t, none)
    | .ok (t, 0) => (t, none)
    | .ok (.nil, _ + 1) => (.nil, some none)
    | .ok (.node _ l x w r, b + 1) =>
      if k ≠ x then (nd l x w r, some none)
      else
        match l with
        | .nil => (r, some (some (x, w)))
        | .node _ ll lk lv lr =>
          match splayP k b (nd ll lk lv lr) with
          | .error _ => (.nil, none)
          | .ok (.nil, _) => (.nil, some (some (x, w)))
          | .ok (.node _ l' k' v' _, _) => (nd l' k' v' r, some (some (x, w)))

/-- splay_tree/tree.rs:147-159 `get_mut`. -/
def getMutP (b : Nat) (t : STree K V) (k : K) (f : V → V) : Option (Option (K × V)) × STree K V :=
  match t with
  | .nil => (some none, .nil)
  | t =>
    match splayP k b t with
    | .error t => (none, t)
    | .ok (t, 0) => (none, t)
    | .ok (.nil, _ + 1) => (some none, .nil)
    | .ok (.node _ l x w r, _ + 1) =>
      if x = k then (some (some (x, w)), nd l x (f w) r) else (some none, nd l x w r)

/-- splay_tree/map.rs:66-81 `insert`: `*len += 1` (line 75) comes before the tree is searched. -/
def SplayMap.insertP (b : Nat) (m : SplayMap K V) (k : K) (v : V) :
    Option (SplayMap K V × Option (Option (K × V))) := do
  let len := m.len + 1
  let (t, ret) := Splay.insertP b m.tree k v
  match ret with
  | none => return (⟨t, len⟩, none)
  | some none => return (⟨t, len⟩, some none)
  | some (some e) => return (⟨t, ← decr len⟩, some (some e))

/-- splay_tree/map.rs:96-110 `remove`. -/
def SplayMap.removeP (b : Nat) (m : SplayMap K V) (k : K) : Option (SplayMap K V × Option (Option (K × V))) := do
  let (t, ret) := Splay.removeP b m.tree k
  match ret with
  | none => return (⟨t, m.len⟩, none)
  | some none => return (⟨t, m.len⟩, some none)
  | some (some e) => return (⟨t, ← decr m.len⟩, some (some e))

/-- The API calls (see `step`), comparison `b + 1` of the call panicking. -/
def stepP (m : SplayMap K V) (op : MapOp K V) (_ : Unit) (b : Nat) :
    Option (SplayMap K V × Option (MapRes K V)) :=
  match op with
  | .insert k v => do let (m', r) ← m.insertP b k v; return (m', r.map .pair)
  | .remove k => do let (m', r) ← m.removeP b k; return (m', r.map .pair)
  | .get k => some (m, (m.tree.getP b k).map fun e => .val (e.map (·.2)))
  | .containsKey k => some (m, (m.tree.getP b k).map fun e => .bool e.isSome)
  | .getMut k f =>
    let (e, t) := getMutP b m.tree k f
    some (⟨t, m.len⟩, e.map fun e => .val (e.map (·.2)))
  | .floor k => some (m, (m.tree.floorP b k).map fun e => .key (e.map (·.1)))
  | .ceil k => some (m, (m.tree.ceilP b k).map fun e => .key (e.map (·.1)))
  | op => do let (m', r) ← step m op (); return (m', some r)

/-- `SplayMap` under panicking comparisons. -/
def panicImpl (K V : Type) [LinearOrder K] : PanicImpl K V where
  State := SplayMap K V
  Draw := Unit
  empty := SplayMap.new
  step := stepP

/-- The number of comparisons of keys a call makes if none panics. -/
def comparisons (m : SplayMap K V) : MapOp K V → Nat
  | .insert k _ => insertCost m.tree k
  | .remove k => removeCost m.tree k
  | .getMut k _ => getMutCost m.tree k
  | .get k | .containsKey k | .floor k | .ceil k => searchCost m.tree k
  | _ => 0

/-- What the loop of `splay` does when comparison `b + 1` panics. -/
def LoopSpec (k : K) (b : Nat) (t : STree K V) (c : Nat) (t₁ : STree K V) :
    Except (STree K V) (STree K V × Nat) → Prop
  | .ok (t', b') => c + b' = b ∧ t' = t₁
  | .error t' => b < c ∧ (b < 2 → t' = t) ∧ (2 ≤ b → t'.size < t.size) ∧
      ∃ pre post, t.toList = pre ++ t'.toList ++ post ∧ (∀ e ∈ pre, e.1 < k) ∧ ∀ e ∈ post, k < e.1

theorem LoopSpec.lift {k : K} {b c : Nat} {t t' t₁ : STree K V} {o : Except (STree K V) (STree K V × Nat)}
    (h : LoopSpec k b t' c t₁ o) (hsz : t'.size < t.size) {pre post : List (K × V)}
    (h1 : t.toList = pre ++ t'.toList ++ post) (h2 : ∀ e ∈ pre, e.1 < k) (h3 : ∀ e ∈ post, k < e.1) :
    LoopSpec k (b + 2) t (c + 2) t₁ o := by
  rcases o with t₂ | ⟨t₂, b₂⟩
  · obtain ⟨h4, h5, h6, pre', post', h7, h8, h9⟩ := h
    refine ⟨by omega, by omega, fun _ => ?_, pre ++ pre', post' ++ post, ?_, ?_, ?_⟩
    · by_cases hb : b < 2
      · rw [h5 hb]; exact hsz
      · exact lt_trans (h6 (by omega)) hsz
    · rw [h1, h7]; simp
    · intro e he; rcases List.mem_append.1 he with he | he
      · exact h2 e he
      · exact h8 e he
    · intro e he; rcases List.mem_append.1 he with he | he
      · exact h9 e he
      · exact h3 e he
  · obtain ⟨h4, h5⟩ := h
    exact ⟨by omega, h5⟩

theorem loopSpec_here {k : K} {b c : Nat} {t t₁ : STree K V} (hb : b < 2) (hc : b < c) :
    LoopSpec k b t c t₁ (.error t) :=
  ⟨hc, fun _ => rfl, fun h => absurd h (by omega), [], [], by simp, by simp, by simp⟩

theorem splayLoopP_spec (k : K) (n : Nat) : ∀ (t : STree K V) (b : Nat) (ls : FramesL K V) (rs : FramesR K V),
    t.size ≤ n → Sorted t.toList →
    LoopSpec k b t (splayLoopT k t ls rs).2 (splayLoopT k t ls rs).1 (splayLoopP k b t ls rs) := by
  induction n with
  | zero =>
    intro t b ls rs hn _
    cases t with
    | nil => cases b <;> simp [splayLoopT, splayLoopP, LoopSpec]
    | node => simp [Bst.Tree.size] at hn
  | succ n ih =>
    intro t b ls rs hn hs
    cases t with
    | nil => cases b <;> simp [splayLoopT, splayLoopP, LoopSpec]
    | node u l x v r =>
      obtain ⟨s1, s2, s3, s4⟩ := SL.sorted_mid.1 hs
      rw [splayLoopT.eq_def, splayLoopP.eq_def]
      by_cases h1 : k < x
      · simp only [if_pos h1]
        cases l with
        | nil =>
          cases b with
          | zero => exact loopSpec_here (by omega) (by simp)
          | succ b => simp only [if_pos h1]; exact ⟨Nat.add_comm .., rfl⟩
        | node u' ll lk lv lr =>
          obtain ⟨s5, s6, s7, s8⟩ := SL.sorted_mid.1 s1
          rcases b with _ | _ | b
          · refine loopSpec_here (by omega) ?_
            simp only
            split
            · split <;> simp
            · simp
          · simp only [if_pos h1]
            refine loopSpec_here (by omega) ?_
            split
            · split <;> simp
            · simp
          · by_cases h2 : k < lk
            · simp only [if_pos h1, if_pos h2]
              cases ll with
              | nil => exact ⟨Nat.add_comm .., rfl⟩
              | node u'' l' k' v' r' =>
                refine (ih _ b ls _ (by simp only [Bst.Tree.size] at hn ⊢; omega) s5).lift ?_ (pre := [])
                  (post := (lk, lv) :: (lr.toList ++ (x, v) :: r.toList)) ?_ ?_ ?_
                · simp only [Bst.Tree.size]; omega
                · simp
                · simp
                · intro e he
                  rcases List.mem_cons.1 he with rfl | he
                  · exact h2
                  · rcases List.mem_append.1 he with he | he
                    · exact lt_trans h2 (s8 e he)
                    · rcases List.mem_cons.1 he with rfl | he
                      · exact h1
                      · exact lt_trans h1 (s4 e he)
            · simp only [if_pos h1, if_neg h2]
              refine (ih _ b ls _ (by simp only [Bst.Tree.size] at hn ⊢; omega) s1).lift ?_ (pre := [])
                (post := (x, v) :: r.toList) ?_ ?_ ?_
              · simp only [Bst.Tree.size]; omega
              · simp
              · simp
              · intro e he
                rcases List.mem_cons.1 he with rfl | he
                · exact h1
                · exact lt_trans h1 (s4 e he)
      · simp only [if_neg h1]
        by_cases h3 : x < k
        · simp only [if_pos h3]
          cases r with
          | nil =>
            cases b with
            | zero => exact loopSpec_here (by omega) (by simp)
            | succ b => simp only [if_neg h1, if_pos h3]; exact ⟨Nat.add_comm .., rfl⟩
          | node u' rl rk rv rr =>
            obtain ⟨s5, s6, s7, s8⟩ := SL.sorted_mid.1 s2
            rcases b with _ | _ | b
            · refine loopSpec_here (by omega) ?_
              simp only
              split
              · split <;> simp
              · simp
            · simp only [if_neg h1, if_pos h3]
              refine loopSpec_here (by omega) ?_
              split
              · split <;> simp
              · simp
            · by_cases h2 : rk < k
              · simp only [if_neg h1, if_pos h3, if_pos h2]
                cases rr with
                | nil => exact ⟨Nat.add_comm .., rfl⟩
                | node u'' l' k' v' r' =>
                  refine (ih _ b _ rs (by simp only [Bst.Tree.size] at hn ⊢; omega) s6).lift ?_
                    (pre := l.toList ++ (x, v) :: (rl.toList ++ [(rk, rv)])) (post := []) ?_ ?_ ?_
                  · simp only [Bst.Tree.size]; omega
                  · simp
                  · intro e he
                    rcases List.mem_append.1 he with he | he
                    · exact lt_trans (s3 e he) h3
                    · rcases List.mem_cons.1 he with rfl | he
                      · exact h3
                      · rcases List.mem_append.1 he with he | he
                        · exact lt_trans (s7 e he) h2
                        · rw [List.mem_singleton] at he; subst he; exact h2
                  · simp
              · simp only [if_neg h1, if_pos h3, if_neg h2]
                refine (ih _ b _ rs (by simp only [Bst.Tree.size] at hn ⊢; omega) s2).lift ?_
                  (pre := l.toList ++ [(x, v)]) (post := []) ?_ ?_ ?_
                · simp only [Bst.Tree.size]; omega
                · simp
                · intro e he
                  rcases List.mem_append.1 he with he | he
                  · exact lt_trans (s3 e he) h3
                  · rw [List.mem_singleton] at he; subst he; exact h3
                · simp
        · simp only [if_neg h3]
          cases b with
          | zero => exact loopSpec_here (by omega) (by simp)
          | succ b => simp only [if_neg h1, if_neg h3]; exact ⟨Nat.add_comm .., rfl⟩

/-- What `splay` does when comparison `b + 1` panics. -/
theorem splayP_spec (k : K) (b : Nat) (t : STree K V) (hs : Sorted t.toList) :
    LoopSpec k b t (splayCost k t) (splay k t) (splayP k b t) := by
  have h := splayLoopP_spec k t.size t b [] [] (Nat.le_refl _) hs
  rw [splayLoopT_fst k t.size t [] [] (Nat.le_refl _)] at h
  exact h

/-- What a panic leaves of the tree: a window of its entries around `k`, and not all of them exactly if the panic
came after the second comparison and before the loop of `splay` had ended, which takes `c` comparisons. -/
def Window (k : K) (b c : Nat) (t t' : STree K V) : Prop :=
  (∃ pre post, t.toList = pre ++ t'.toList ++ post ∧ (∀ e ∈ pre, e.1 < k) ∧ ∀ e ∈ post, k < e.1) ∧
    (t'.size < t.size ↔ 2 ≤ b ∧ b < c)

theorem window_here {k : K} {b c : Nat} {t t' : STree K V} (h : t'.toList = t.toList) (hc : ¬ (2 ≤ b ∧ b < c)) :
    Window k b c t t' :=
  ⟨⟨[], [], by simp [h], by simp, by simp⟩, by
    rw [Bst.Tree.size_eq_length, Bst.Tree.size_eq_length, h]
    exact ⟨fun h => absurd h (Nat.lt_irrefl _), fun h => absurd h hc⟩⟩

theorem LoopSpec.window {k : K} {b c : Nat} {t t₁ t' : STree K V} (h : LoopSpec k b t c t₁ (.error t')) :
    b < c ∧ Window k b c t t' := by
  obtain ⟨h1, h2, h3, h4⟩ := h
  refine ⟨h1, h4, fun h => ⟨?_, h1⟩, fun h => h3 h.1⟩
  by_contra hb
  rw [h2 (by omega)] at h
  exact absurd h (Nat.lt_irrefl _)

theorem splay_toList (k : K) (t : STree K V) (hne : t ≠ .nil) (hs : Sorted t.toList) :
    (splay k t).toList = t.toList := by
  obtain ⟨l, y, w, r, h1, h2, -⟩ := splay_spec k t hne hs
  rw [h1, ← h2]; rfl

/-- Either all comparisons of `splay` and the one after it return, or one of them panics. -/
theorem splayP_cases (k : K) (b : Nat) (t : STree K V) (hs : Sorted t.toList) (hne : t ≠ .nil) :
    (∃ t', splayP k b t = .error t' ∧ b < splayCost k t ∧ Window k b (splayCost k t) t t') ∨
    (splayP k b t = .ok (splay k t, 0) ∧ b = splayCost k t ∧ Window k b (splayCost k t) t (splay k t)) ∨
    ∃ b', splayP k b t = .ok (splay k t, b' + 1) ∧ b = splayCost k t + 1 + b' := by
  have h := splayP_spec k b t hs
  rcases hp : splayP k b t with t' | ⟨t', b'⟩
  · rw [hp] at h
    exact .inl ⟨t', rfl, h.window⟩
  · rw [hp] at h
    obtain ⟨h1, rfl⟩ := h
    cases b' with
    | zero => exact .inr (.inl ⟨rfl, by omega, window_here (splay_toList k t hne hs) (by omega)⟩)
    | succ b' => exact .inr (.inr ⟨b', rfl, by omega⟩)

theorem insertP_spec (b : Nat) (t : STree K V) (k : K) (v : V) (hs : Sorted t.toList) :
    (insertCost t k ≤ b → insertP b t k v = ((insert t k v).1, some (insert t k v).2)) ∧
    (b < insertCost t k → ∃ t', insertP b t k v = (t', none) ∧ Window k b (splayCost k t) t t') := by
  cases t with
  | nil => exact ⟨fun _ => by simp [insertP, insert, splay, splayLoop], fun h => absurd h (Nat.not_lt_zero _)⟩
  | node u l x w r =>
    simp only [insertCost, insertP, insert]
    rcases splayP_cases k b (.node u l x w r) hs (by simp) with ⟨t', h1, h2, h3⟩ | ⟨h1, h2, h3⟩ | ⟨b', h1, h2⟩
    · rw [h1]; exact ⟨fun h => by omega, fun _ => ⟨_, rfl, h3⟩⟩
    · rw [h1]; exact ⟨fun h => by omega, fun _ => ⟨_, rfl, h3⟩⟩
    · rw [h1]
      refine ⟨fun _ => ?_, fun h => by omega⟩
      cases splay k (.node u l x w r) with
      | nil => rfl
      | node => simp only; split_ifs <;> rfl

theorem getMutP_spec (b : Nat) (t : STree K V) (k : K) (f : V → V) (hs : Sorted t.toList) :
    (getMutCost t k ≤ b → getMutP b t k f = (some (getMut t k f).1, (getMut t k f).2)) ∧
    (b < getMutCost t k → ∃ t', getMutP b t k f = (none, t') ∧ Window k b (splayCost k t) t t') := by
  cases t with
  | nil => exact ⟨fun _ => by simp [getMutP, getMut, splay, splayLoop], fun h => absurd h (Nat.not_lt_zero _)⟩
  | node u l x w r =>
    simp only [getMutCost, getMutP, getMut]
    rcases splayP_cases k b (.node u l x w r) hs (by simp) with ⟨t', h1, h2, h3⟩ | ⟨h1, h2, h3⟩ | ⟨b', h1, h2⟩
    · rw [h1]; exact ⟨fun h => by omega, fun _ => ⟨_, rfl, h3⟩⟩
    · rw [h1]; exact ⟨fun h => by omega, fun _ => ⟨_, rfl, h3⟩⟩
    · rw [h1]
      refine ⟨fun _ => ?_, fun h => by omega⟩
      cases splay k (.node u l x w r) with
      | nil => rfl
      | node => simp only; split_ifs <;> rfl

theorem removeP_spec (b : Nat) (t : STree K V) (k : K) (hs : Sorted t.toList) :
    (removeCost t k ≤ b → removeP b t k = ((remove t k).1, some (remove t k).2)) ∧
    (b < removeCost t k → b ≤ splayCost k t → ∃ t', removeP b t k = (t', none) ∧ Window k b (splayCost k t) t t') ∧
    (b < removeCost t k → splayCost k t < b → removeP b t k = (.nil, none) ∧ (SL.find k t.toList).isSome) := by
  cases t with
  | nil =>
    exact ⟨fun _ => by simp [removeP, remove, splay, splayLoop], fun h => absurd h (Nat.not_lt_zero _),
      fun h => absurd h (Nat.not_lt_zero _)⟩
  | node u l x w r =>
    simp only [removeCost, removeP, remove]
    rcases splayP_cases k b (.node u l x w r) hs (by simp) with ⟨t', h1, h2, h3⟩ | ⟨h1, h2, h3⟩ | ⟨b', h1, h2⟩
    · rw [h1]; exact ⟨fun h => by omega, fun _ _ => ⟨_, rfl, h3⟩, fun _ h => by omega⟩
    · rw [h1]; exact ⟨fun h => by omega, fun _ _ => ⟨_, rfl, h3⟩, fun _ h => by omega⟩
    · rw [h1]
      have hl := splay_toList k (.node u l x w r) (by simp) hs
      rw [← hl]
      have hsp : Sorted (splay k (.node u l x w r)).toList := by rw [hl]; exact hs
      generalize splay k (.node u l x w r) = ts at hsp ⊢
      generalize splayCost k (.node u l x w r) = c at h2 ⊢
      cases ts with
      | nil => exact ⟨fun _ => rfl, fun _ h => by omega, fun h => by simp only at h; omega⟩
      | node u' l' x' w' r' =>
        simp only
        by_cases hk : k = x'
        · subst hk
          simp only [ne_eq, not_true, if_false]
          have hfind : (SL.find k (Bst.Tree.node u' l' k w' r').toList).isSome := by
            rw [SL.find_of_mem hsp (e := (k, w')) (by simp)]; rfl
          cases l' with
          | nil => exact ⟨fun _ => rfl, fun _ h => by omega, fun h => by simp only [leftCost] at h; omega⟩
          | node u'' ll lk lv lr =>
            simp only [leftCost]
            have hsl : Sorted (nd ll lk lv lr).toList := (SL.sorted_mid.1 hsp).1
            have hL := splayP_spec k b' (nd ll lk lv lr) hsl
            rcases hp : splayP k b' (nd ll lk lv lr) with t' | ⟨t', b''⟩
            · rw [hp] at hL
              have := hL.window.1
              change b' < splayCost k (.node u'' ll lk lv lr) at this
              exact ⟨fun h => by omega, fun _ h => by omega, fun _ _ => ⟨rfl, hfind⟩⟩
            · rw [hp] at hL
              obtain ⟨h3, rfl⟩ := hL
              change splayCost k (.node u'' ll lk lv lr) + b'' = b' at h3
              refine ⟨fun _ => ?_, fun _ h => by omega, fun h => by omega⟩
              cases splay k (nd ll lk lv lr) with
              | nil => rfl
              | node => rfl
        · simp only [ne_eq, hk, not_false_eq_true, if_true]
          exact ⟨fun _ => trivial, fun _ h => by omega, fun h => by omega⟩

/-- An ordinary call on a map whose `len` may be too large. -/
theorem step_over (t : STree K V) (n : Nat) (op : MapOp K V) (hs : Sorted t.toList) (hn : t.toList.length ≤ n) :
    ∃ s' r, step ⟨t, n⟩ op () = some (s', r) ∧
      Counted.Ret op ⟨SL.abs t.toList, n⟩ r ⟨SL.abs s'.tree.toList, s'.len⟩ ∧
      Sorted s'.tree.toList ∧ s'.tree.toList.length ≤ s'.len := by
  suffices H : ∃ s', step ⟨t, n⟩ op () = some (s', SL.countRes t.toList n op) ∧
      s'.tree.toList = SL.next t.toList op ∧ s'.len = SL.countNext t.toList n op by
    obtain ⟨s', h1, h2, h3⟩ := H
    refine ⟨s', _, h1, ?_⟩
    rw [h2, h3]
    exact SL.counted_ret hs op hn
  cases op with
  | insert k v =>
    obtain ⟨h1, h2⟩ := insert_spec t k v hs
    cases hf : SL.find k t.toList with
    | none =>
      rw [hf] at h1
      exact ⟨⟨(insert t k v).1, n + 1⟩, by simp [step, SplayMap.insert, h1, SL.countRes, SL.res, hf], h2,
        by simp [SL.countNext, hf]⟩
    | some e =>
      rw [hf] at h1
      exact ⟨⟨(insert t k v).1, n⟩, by simp [step, SplayMap.insert, h1, SL.countRes, SL.res, hf, decr], h2,
        by simp [SL.countNext, hf]⟩
  | remove k =>
    obtain ⟨h1, h2⟩ := remove_spec t k hs
    cases hf : SL.find k t.toList with
    | none =>
      rw [hf] at h1
      exact ⟨⟨(remove t k).1, n⟩, by simp [step, SplayMap.remove, h1, SL.countRes, SL.res, hf], h2,
        by simp [SL.countNext, hf]⟩
    | some e =>
      rw [hf] at h1
      have hp := List.length_pos_of_mem (SL.find_some_mem hf)
      obtain ⟨n', rfl⟩ : ∃ n', n = n' + 1 := ⟨n - 1, by omega⟩
      exact ⟨⟨(remove t k).1, n'⟩, by simp [step, SplayMap.remove, h1, SL.countRes, SL.res, hf, decr], h2,
        by simp [SL.countNext, hf]⟩
  | get k => exact ⟨⟨t, n⟩, by simp [step, SL.countRes, SL.res, Bst.Tree.get_eq t k hs], rfl, rfl⟩
  | containsKey k => exact ⟨⟨t, n⟩, by simp [step, SL.countRes, SL.res, Bst.Tree.get_eq t k hs], rfl, rfl⟩
  | getMut k f =>
    obtain ⟨h1, h2⟩ := getMut_spec t k f hs
    exact ⟨⟨(getMut t k f).2, n⟩, by simp [step, SL.countRes, SL.res, h1], h2, rfl⟩
  | floor k => exact ⟨⟨t, n⟩, by simp [step, SL.countRes, SL.res, Bst.Tree.floor_eq t k hs], rfl, rfl⟩
  | ceil k => exact ⟨⟨t, n⟩, by simp [step, SL.countRes, SL.res, Bst.Tree.ceil_eq t k hs], rfl, rfl⟩
  | min => exact ⟨⟨t, n⟩, by simp [step, SL.countRes, SL.res, Bst.Tree.min_eq], rfl, rfl⟩
  | max => exact ⟨⟨t, n⟩, by simp [step, SL.countRes, SL.res, Bst.Tree.max_eq], rfl, rfl⟩
  | len => exact ⟨⟨t, n⟩, rfl, rfl, rfl⟩
  | isEmpty => exact ⟨⟨t, n⟩, rfl, rfl, rfl⟩
  | iter => exact ⟨⟨t, n⟩, by simp [step, SL.countRes, SL.res, Iter.collect_start], rfl, rfl⟩
  | clear => exact ⟨⟨.nil, 0⟩, rfl, rfl, rfl⟩

/-- What a call that panics at comparison `b + 1` leaves behind (`c`: the comparisons of the first `splay`). -/
def Wreck (m : SplayMap K V) (b : Nat) : MapOp K V → SplayMap K V → Prop
  | .insert k _, m' => Window k b (splayCost k m.tree) m.tree m'.tree ∧ m'.len = m.len + 1
  | .remove k, m' => (b ≤ splayCost k m.tree → Window k b (splayCost k m.tree) m.tree m'.tree) ∧
      (splayCost k m.tree < b → m'.tree = .nil ∧ (SL.find k m.tree.toList).isSome) ∧ m'.len = m.len
  | .getMut k _, m' => Window k b (splayCost k m.tree) m.tree m'.tree ∧ m'.len = m.len
  | _, m' => m' = m

/-- A call makes `comparisons m op` comparisons.  If they all return, the call is the ordinary one; if one of them
panics, `Wreck` says what is left. -/
theorem stepP_cases (m : SplayMap K V) (op : MapOp K V) (b : Nat) (hs : Sorted m.tree.toList) :
    (comparisons m op ≤ b → stepP m op () b = (step m op ()).map fun p => (p.1, some p.2)) ∧
    (b < comparisons m op → ∃ m', stepP m op () b = some (m', none) ∧ Wreck m b op m') := by
  cases op with
  | insert k v =>
    obtain ⟨h1, h2⟩ := insertP_spec b m.tree k v hs
    simp only [comparisons, stepP, step, SplayMap.insertP, SplayMap.insert]
    refine ⟨fun h => ?_, fun h => ?_⟩
    · rw [h1 h]
      obtain ⟨t, _ | e⟩ := insert m.tree k v <;> rfl
    · obtain ⟨t', h3, h4⟩ := h2 h
      rw [h3]
      exact ⟨⟨t', m.len + 1⟩, rfl, h4, rfl⟩
  | remove k =>
    obtain ⟨h1, h2, h3⟩ := removeP_spec b m.tree k hs
    simp only [comparisons, stepP, step, SplayMap.removeP, SplayMap.remove]
    refine ⟨fun h => ?_, fun h => ?_⟩
    · rw [h1 h]
      obtain ⟨t, _ | e⟩ := remove m.tree k
      · rfl
      · cases decr m.len <;> simp
    · by_cases hb : b ≤ splayCost k m.tree
      · obtain ⟨t', h4, h5⟩ := h2 h hb
        rw [h4]
        exact ⟨⟨t', m.len⟩, rfl, fun _ => h5, fun h => by omega, rfl⟩
      · obtain ⟨h4, h5⟩ := h3 h (by omega)
        rw [h4]
        exact ⟨⟨.nil, m.len⟩, rfl, fun h => absurd h hb, fun _ => ⟨rfl, h5⟩, rfl⟩
  | getMut k f =>
    obtain ⟨h1, h2⟩ := getMutP_spec b m.tree k f hs
    simp only [comparisons, stepP, step]
    refine ⟨fun h => ?_, fun h => ?_⟩
    · rw [h1 h]; rfl
    · obtain ⟨t', h3, h4⟩ := h2 h
      rw [h3]
      exact ⟨⟨t', m.len⟩, rfl, h4, rfl⟩
  | get k =>
    simp only [stepP, comparisons, step, Bst.Tree.getP_eq]
    exact ⟨fun h => by rw [if_neg (by omega)]; rfl, fun h => ⟨m, by rw [if_pos h]; rfl, rfl⟩⟩
  | containsKey k =>
    simp only [stepP, comparisons, step, Bst.Tree.getP_eq]
    exact ⟨fun h => by rw [if_neg (by omega)]; rfl, fun h => ⟨m, by rw [if_pos h]; rfl, rfl⟩⟩
  | floor k =>
    simp only [stepP, comparisons, step, Bst.Tree.floorP_eq]
    exact ⟨fun h => by rw [if_neg (by omega)]; rfl, fun h => ⟨m, by rw [if_pos h]; rfl, rfl⟩⟩
  | ceil k =>
    simp only [stepP, comparisons, step, Bst.Tree.ceilP_eq]
    exact ⟨fun h => by rw [if_neg (by omega)]; rfl, fun h => ⟨m, by rw [if_pos h]; rfl, rfl⟩⟩
  | _ => exact ⟨fun _ => by simp [stepP, step], fun h => absurd h (Nat.not_lt_zero _)⟩

theorem Window.trimmed {k : K} {b c : Nat} {t t' : STree K V} (h : Window k b c t t') (hs : Sorted t.toList) :
    Trimmed k (SL.abs t.toList) (SL.abs t'.toList) ∧ Sorted t'.toList ∧ t'.toList.length ≤ t.toList.length := by
  obtain ⟨⟨pre, post, h1, h2, h3⟩, -⟩ := h
  rw [h1] at hs ⊢
  refine ⟨SL.trimmed_of_append hs h2 h3, ?_, by simp only [List.length_append]; omega⟩
  exact (SL.sorted_append.1 (SL.sorted_append.1 hs).1).2.1

/-- The simulation of `SplayMap` under panicking comparisons. -/
def panicSim (K V : Type) [LinearOrder K] :
    SL.PanicSim (panicImpl K V) Counted.empty Counted.Ret Counted.Trims where
  rel s σ := σ = ⟨SL.abs s.tree.toList, s.len⟩ ∧ Sorted s.tree.toList ∧ s.tree.toList.length ≤ s.len
  empty := ⟨rfl, by simp [panicImpl, SplayMap.new, Sorted], Nat.le_refl _⟩
  step := by
    rintro ⟨t, n⟩ σ op d b ⟨rfl, hs, hn⟩
    simp only [panicImpl]
    change Sorted t.toList at hs
    change t.toList.length ≤ n at hn
    change ∃ s' o σ', stepP ⟨t, n⟩ op () b = some (s', o) ∧ _
    obtain ⟨h1, h2⟩ := stepP_cases ⟨t, n⟩ op b hs
    by_cases hb : b < comparisons ⟨t, n⟩ op
    · obtain ⟨⟨t', n'⟩, h3, h4⟩ := h2 hb
      refine ⟨⟨t', n'⟩, none, ⟨SL.abs t'.toList, n'⟩, h3, ?_⟩
      cases op with
      | insert k v =>
        obtain ⟨h5, rfl⟩ := h4
        obtain ⟨h6, h7, h8⟩ := h5.trimmed hs
        exact ⟨⟨rfl, h7, by simp only at h8 ⊢; omega⟩, h6, rfl⟩
      | remove k =>
        obtain ⟨h5, h6, h0⟩ := h4
        obtain rfl : n' = n := h0
        by_cases hc : b ≤ splayCost k t
        · obtain ⟨h7, h8, h9⟩ := (h5 hc).trimmed hs
          exact ⟨⟨rfl, h8, by simp only at h9 ⊢; omega⟩, .inl h7, rfl⟩
        · obtain ⟨rfl, h7⟩ := h6 (by simp only; omega)
          refine ⟨⟨rfl, by simp [Sorted], by simp⟩, .inr ⟨?_, rfl⟩, rfl⟩
          obtain ⟨e, he⟩ := Option.isSome_iff_exists.1 h7
          simp [AMap.Has, SL.abs, he]
      | getMut k f =>
        obtain ⟨h5, h0⟩ := h4
        obtain rfl : n' = n := h0
        obtain ⟨h6, h7, h8⟩ := h5.trimmed hs
        exact ⟨⟨rfl, h7, by simp only at h8 ⊢; omega⟩, h6, rfl⟩
      | get k => cases h4; exact ⟨⟨rfl, hs, hn⟩, rfl⟩
      | containsKey k => cases h4; exact ⟨⟨rfl, hs, hn⟩, rfl⟩
      | floor k => cases h4; exact ⟨⟨rfl, hs, hn⟩, rfl⟩
      | ceil k => cases h4; exact ⟨⟨rfl, hs, hn⟩, rfl⟩
      | _ => simp [comparisons] at hb
    · obtain ⟨s', r, h3, h4, h5, h6⟩ := step_over t n op hs hn
      exact ⟨s', some r, _, by rw [h1 (by omega), h3]; rfl, ⟨rfl, h5, h6⟩, h4⟩

end Verif.Splay
