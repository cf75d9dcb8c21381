/- The expected number of links that the calls of a `SkipList` read, over all words the random generator may
deliver.  Documentation claim: skiplist/list.rs:79-81 ("This augmentation allows the list to get, remove, and insert at
an arbitrary index in `O(log N)` time").  Lists joined by `+` are not among the histories here. -/
import Verif.Skip.ListCost
import Mathlib.Tactic.Linarith

namespace Verif.Skip.Lst

open Verif.Spec Verif.Coins

variable {V : Type}

/-! ### Vocabulary -/

/-- What `rng.next_u32()` delivers (list.rs:126). -/
abbrev Word := Fin (2 ^ 32)

/-- The list after a history of calls, by the specification; `none` if one of them panics. -/
def listAfter : List V → List (SeqOp V) → Option (List V)
  | l, [] => some l
  | l, op :: ops => (op.exec l).bind fun p => listAfter p.1 ops

/-- The calls that create a node and so draw one word (list.rs:145, 251, 268). -/
def draws : SeqOp V → Bool
  | .insert _ _ => true
  | .pushFront _ => true
  | .pushBack _ => true
  | _ => false

/-- The number of words a history draws. -/
def inserts (ops : List (SeqOp V)) : Nat := ops.countP draws

/-- list.rs:125-127 `gen_random_height` for the `i`-th word: its leading zeros. -/
def heights {N : Nat} (w : Fin N → Word) (i : Nat) : Fin 33 :=
  if h : i < N then ⟨lz 32 (w ⟨i, h⟩), Nat.lt_succ_of_le (lz_le _)⟩ else 0

/-- The history in which the calls that draw receive `P n`, `P (n + 1)`, … -/
def assign (P : Nat → Draw) : Nat → List (SeqOp V) → List (SeqOp V × Draw)
  | _, [] => []
  | n, op :: ops => if draws op then (op, P n) :: assign P (n + 1) ops else (op, (0, 0)) :: assign P n ops

/-- The list after a history. -/
def exec (s : SkipList V) : List (SeqOp V × Draw) → Option (SkipList V)
  | [] => some s
  | (op, d) :: ops => (step s op d).bind fun p => exec p.1 ops

/-- The list after the history `ops`, if the random words are `w` and the allocator picks addresses by `off`. -/
def after (a : Addr) (ops : List (SeqOp V)) (off : Nat → Nat) (w : Fin (inserts ops) → Word) : Option (SkipList V) :=
  exec (SkipList.new a) (assign (fun i => (heights w i, off i)) 0 ops)

/-- The links read by the call `op` after the history `ops` (`C57_total`: there is a result unless a call panics). -/
def links (a : Addr) (ops : List (SeqOp V)) (off : Nat → Nat) (w : Fin (inserts ops) → Word)
    (op : SeqOp V) (d : Draw) : Nat :=
  ((after a ops off w).bind fun s => (stepC s op d).map (·.1)).getD 0

/-! ### The heights after a history -/

/-- The call, on the list of the numbers of the calls that inserted the elements. -/
def label (n : Nat) : SeqOp V → SeqOp Nat
  | .insert i _ => .insert i n
  | .remove i => .remove i
  | .pushFront _ => .pushFront n
  | .pushBack _ => .pushBack n
  | .popFront => .popFront
  | .popBack => .popBack
  | .get i => .get i
  | .index i => .index i
  | .getMut i _ => .get i
  | .len => .len
  | .isEmpty => .isEmpty
  | .clear => .clear
  | .iter k => .iter k
  | .iterMut _ => .len

def labels : Nat → List (SeqOp V) → List (SeqOp Nat)
  | _, [] => []
  | n, op :: ops => label n op :: labels (if draws op then n + 1 else n) ops

theorem updT_h (fs : List (V → V)) (T : List (Tower V)) : (updT fs T).map (·.h) = T.map (·.h) := by
  induction fs generalizing T with
  | nil => cases T <;> rfl
  | cons f fs ih =>
    cases T with
    | nil => rfl
    | cons t T => simp only [updT, List.map_cons, ih]; rfl

theorem getMut_h {ex : Prop} {s : SkipList V} {T : List (Tower V)} (h : Good ex s T) (idx : Nat) (f : V → V) :
    ∃ s' T', s.getMut idx f = some (s', (vals T)[idx]?) ∧ Good ex s' T' ∧ vals T' = (vals T).modify idx f ∧
      T'.map (·.h) = T.map (·.h) := by
  unfold SkipList.getMut
  rw [lookup_good h]
  cases ht : T[idx]? with
  | none =>
    refine ⟨s, T, by simp [ht], h, ?_, rfl⟩
    rw [List.modify_eq_self (by simpa using ht)]
  | some t =>
    obtain ⟨hi, h1⟩ := List.getElem?_eq_some_iff.1 ht
    have e : T = T.take idx ++ t :: T.drop (idx + 1) := by
      rw [← h1, List.getElem_cons_drop, List.take_append_drop]
    have h' := h
    rw [e] at h'
    obtain ⟨m, g1, g2⟩ := modify_ok h' f
    refine ⟨_, _, ?_, g2, ?_, ?_⟩
    · simp [g1, ht]
    · rw [List.modify_eq_take_cons_drop (by simpa using hi)]
      have h2 : (vals T)[idx]'(by simpa using hi) = t.e := by simp [vals, h1]
      rw [h2]
      simp [vals, Tower.set]
    · conv_rhs => rw [e]
      simp [Tower.set]

theorem step_h {s : SkipList V} {T : List (Tower V)} (h : Good False s T) (op : SeqOp V) (d : Draw) (n : Nat)
    (g : Nat → Nat) (L : List Nat) (hL : T.map (·.h) = L.map g) (hg : draws op = true → g n = d.1.val + 1)
    {p : List V × SeqRes V} (hp : op.exec (vals T) = some p) :
    ∃ s' T' q, step s op d = some (s', p.2) ∧ vals T' = p.1 ∧ Good False s' T' ∧ (label n op).exec L = some q ∧
      T'.map (·.h) = q.1.map g := by
  obtain ⟨l', r⟩ := p
  have hlen : s.len = T.length := h.2.1
  have hvl : (vals T).length = T.length := by simp [vals]
  have hLl : L.length = T.length := by
    have := congrArg List.length hL
    simpa using this.symm
  have hins : ∀ i v, g n = d.1.val + 1 → insertAt (vals T) i v = some (l', r) →
      ∃ s' T' q, (s.insert i v d.1 d.2).map (fun s => (s, SeqRes.unit)) = some (s', r) ∧
        vals T' = l' ∧ Good False s' T' ∧ insertAt L i n = some q ∧ T'.map (·.h) = q.1.map g := by
    intro i v hgn he
    unfold insertAt at he ⊢
    rw [hvl] at he
    rw [hLl]
    split at he
    · rename_i hi
      simp only [Option.some.injEq, Prod.mk.injEq] at he
      obtain ⟨rfl, rfl⟩ := he
      have hA : (T.take i).length = i := by simp; omega
      have h' : Good False s (T.take i ++ T.drop i) := by rw [List.take_append_drop]; exact h
      obtain ⟨s', g1, g2⟩ := insert_ok h' v d.1 d.2 (Nat.le_of_lt_succ d.1.2)
      rw [hA] at g1
      refine ⟨s', _, _, by rw [g1]; rfl, by simp [vals, List.map_append], g2, if_pos hi, ?_⟩
      simp only [List.map_append, List.map_cons, List.map_take, List.map_drop, hL, hgn]
    · simp at he
  have hrem : ∀ i, removeAt (vals T) i = some (l', r) →
      ∃ s' T' q, (s.remove i).map (fun (s, v) => (s, SeqRes.val v)) = some (s', r) ∧
        vals T' = l' ∧ Good False s' T' ∧ removeAt L i = some q ∧ T'.map (·.h) = q.1.map g := by
    intro i he
    unfold removeAt at he
    by_cases hi : i < T.length
    · have hA : (T.take i).length = i := by simp; omega
      have e : T = T.take i ++ T[i] :: T.drop (i + 1) := by rw [List.getElem_cons_drop, List.take_append_drop]
      have h' := h
      rw [e] at h'
      obtain ⟨s', g1, g2⟩ := remove_ok h'
      rw [hA] at g1
      have hv : (vals T)[i]? = some T[i].e := by simp [vals, hi]
      rw [hv] at he
      simp only [Option.some.injEq, Prod.mk.injEq] at he
      obtain ⟨rfl, rfl⟩ := he
      have hLi : L[i]? = some (L[i]'(by omega)) := List.getElem?_eq_getElem (by omega)
      refine ⟨s', _, (L.take i ++ L.drop (i + 1), .val (L[i]'(by omega))), by rw [g1]; rfl, by simp [vals, List.map_append],
        g2, by unfold removeAt; rw [hLi], ?_⟩
      simp only [List.map_append, List.map_take, List.map_drop, hL]
    · have hv : (vals T)[i]? = none := by simp [vals]; omega
      rw [hv] at he
      simp at he
  cases op with
  | insert i v => exact hins i v (hg rfl) hp
  | remove i => exact hrem i hp
  | pushFront v =>
    have e : insertAt (vals T) 0 v = some (v :: vals T, .unit) := by simp [insertAt]
    obtain ⟨s', T', q, h1, h2, h3, h4, h5⟩ := hins 0 v (hg rfl) (by rw [e]; exact hp)
    exact ⟨s', T', q, h1, h2, h3, by rw [← h4]; simp [label, SeqOp.exec, insertAt], h5⟩
  | pushBack v =>
    have e : insertAt (vals T) s.len v = some (vals T ++ [v], .unit) := by
      rw [hlen, ← hvl]; simp only [insertAt, Nat.le_refl, if_true, List.take_length, List.drop_length]
    obtain ⟨s', T', q, h1, h2, h3, h4, h5⟩ := hins s.len v (hg rfl) (by rw [e]; exact hp)
    refine ⟨s', T', q, h1, h2, h3, ?_, h5⟩
    rw [← h4, hlen, ← hLl]
    simp [label, SeqOp.exec, insertAt]
  | popFront => exact hrem 0 hp
  | popBack =>
    simp only [SeqOp.exec] at hp
    split at hp
    · simp at hp
    · rename_i hne
      have hpos : 0 < T.length := List.length_pos_iff.2 (by rintro rfl; exact hne rfl)
      rw [hvl] at hp
      obtain ⟨s', T', q, h1, h2, h3, h4, h5⟩ := hrem _ hp
      have e : sub s.len 1 = some (T.length - 1) := by rw [sub, hlen, if_pos (Nat.succ_le_of_lt hpos)]
      refine ⟨s', T', q, by simp only [step, e, Option.bind_some, h1], h2, h3, ?_, h5⟩
      have hLne : L ≠ [] := by rintro rfl; simp at hLl; omega
      simp only [label, SeqOp.exec, if_neg hLne, hLl, h4]
  | get i =>
    obtain ⟨s', T', h1, h2, h3⟩ := (step_ok h (.get i) d).2 l' r hp
    simp only [SeqOp.exec, Option.some.injEq, Prod.mk.injEq] at hp
    obtain ⟨rfl, rfl⟩ := hp
    exact ⟨s, T, _, by simp only [step, get_ok h]; simp [vals], rfl, h, rfl, hL⟩
  | index i =>
    obtain ⟨s', T', h1, h2, h3⟩ := (step_ok h (.index i) d).2 l' r hp
    simp only [SeqOp.exec] at hp
    cases hq : (vals T)[i]? with
    | none => rw [hq] at hp; simp at hp
    | some v =>
      rw [hq] at hp
      simp only [Option.map_some, Option.some.injEq, Prod.mk.injEq] at hp
      obtain ⟨rfl, rfl⟩ := hp
      obtain ⟨hi, -⟩ := List.getElem?_eq_some_iff.1 hq
      have hLi : L[i]? = some (L[i]'(by omega)) := List.getElem?_eq_getElem (by omega)
      refine ⟨s, T, (L, .val (L[i]'(by omega))), ?_, rfl, h, by simp only [label, SeqOp.exec, hLi]; rfl, hL⟩
      have hq' : T[i]?.map (fun t : Tower V => t.e) = some v := by rw [← hq]; simp [vals]
      simp only [step, get_ok h, hq']; rfl
  | getMut i f =>
    simp only [SeqOp.exec, Option.some.injEq, Prod.mk.injEq] at hp
    obtain ⟨rfl, rfl⟩ := hp
    obtain ⟨s', T', g1, g2, g3, g4⟩ := getMut_h h i f
    exact ⟨s', T', _, by simp only [step, g1]; rfl, g3, g2, rfl, g4.trans hL⟩
  | len =>
    simp only [SeqOp.exec, Option.some.injEq, Prod.mk.injEq] at hp
    obtain ⟨rfl, rfl⟩ := hp
    exact ⟨s, T, _, by simp only [step, hlen, hvl], rfl, h, rfl, hL⟩
  | isEmpty =>
    simp only [SeqOp.exec, Option.some.injEq, Prod.mk.injEq] at hp
    obtain ⟨rfl, rfl⟩ := hp
    exact ⟨s, T, _, by cases T <;> simp [step, hlen, vals], rfl, h, rfl, hL⟩
  | clear =>
    simp only [SeqOp.exec, Option.some.injEq, Prod.mk.injEq] at hp
    obtain ⟨rfl, rfl⟩ := hp
    obtain ⟨s', g1, g2⟩ := clear_ok h
    exact ⟨s', [], _, by simp only [step, g1]; rfl, rfl, g2.weaken (fun _ => trivial), rfl, rfl⟩
  | iter k =>
    obtain ⟨s', T', h1, h2, h3⟩ := (step_ok h (.iter k) d).2 l' r hp
    simp only [SeqOp.exec, Option.some.injEq, Prod.mk.injEq] at hp
    obtain ⟨rfl, rfl⟩ := hp
    obtain ⟨d', h4⟩ := bottom_first h.1
    have h5 := iterate_ok k [] T (by simpa using h.1)
    refine ⟨s, T, _, ?_, rfl, h, rfl, hL⟩
    simp only [step, SkipList.iter, h4, Option.bind_eq_bind, Option.bind_some, h5]
    rfl
  | iterMut fs =>
    simp only [SeqOp.exec, Option.some.injEq, Prod.mk.injEq] at hp
    obtain ⟨rfl, rfl⟩ := hp
    obtain ⟨d', h1⟩ := bottom_first h.1
    obtain ⟨m, h2, h3⟩ := iterateMut_ok fs [] T (by simpa using h)
    refine ⟨{ s with mem := m }, updT fs T, _, ?_, vals_updT fs T, by simpa using h3, rfl, (updT_h fs T).trans hL⟩
    simp only [step, SkipList.iterMut, h1, Option.bind_eq_bind, Option.bind_some, h2]
    rfl

theorem exec_ok (P : Nat → Draw) (ops : List (SeqOp V)) (n : Nat) {s : SkipList V} {T : List (Tower V)} (h : Good False s T)
    {L : List Nat} (hL : T.map (·.h) = L.map fun i => (P i).1.val + 1) {l : List V} (hl : listAfter (vals T) ops = some l) :
    ∃ s' T' L', exec s (assign P n ops) = some s' ∧ Good False s' T' ∧ vals T' = l ∧
      listAfter L (labels n ops) = some L' ∧ T'.map (·.h) = L'.map fun i => (P i).1.val + 1 := by
  induction ops generalizing n s T L with
  | nil =>
    simp only [listAfter, Option.some.injEq] at hl
    exact ⟨s, T, L, rfl, h, hl, rfl, hL⟩
  | cons op ops ih =>
    cases hq : op.exec (vals T) with
    | none => simp [listAfter, hq] at hl
    | some p =>
      simp only [listAfter, hq, Option.bind_some] at hl
      by_cases hd : draws op
      · obtain ⟨s1, T1, q, h1, h2, h3, h4, h5⟩ := step_h h op (P n) n _ L hL (fun _ => rfl) hq
        obtain ⟨s', T', L', g1, g2, g3, g4, g5⟩ := ih (n + 1) h3 h5 (by rw [h2]; exact hl)
        exact ⟨s', T', L', by simp only [assign, hd, if_true, exec, h1, Option.bind_some, g1], g2, g3,
          by simp only [labels, hd, if_true, listAfter, h4, Option.bind_some, g4], g5⟩
      · obtain ⟨s1, T1, q, h1, h2, h3, h4, h5⟩ := step_h h op (0, 0) n _ L hL (fun h => absurd h hd) hq
        obtain ⟨s', T', L', g1, g2, g3, g4, g5⟩ := ih n h3 h5 (by rw [h2]; exact hl)
        exact ⟨s', T', L', by simp only [assign, hd]; simp [exec, h1, g1], g2, g3,
          by simp only [labels, hd, listAfter, h4, Option.bind_some]; simpa using g4, g5⟩

/-- The numbers of the calls are different. -/
def Dist (n : Nat) (L : List Nat) : Prop := L.Nodup ∧ ∀ x ∈ L, x < n

theorem dist_sub {n : Nat} {L L' : List Nat} (h : Dist n L) (hs : L'.Sublist L) : Dist n L' :=
  ⟨h.1.sublist hs, fun e he => h.2 e (hs.mem he)⟩

theorem dist_perm {n : Nat} {L L' : List Nat} (h : Dist n L) (hp : L'.Perm (n :: L)) : Dist (n + 1) L' := by
  refine ⟨hp.nodup_iff.2 (List.nodup_cons.2 ⟨fun hc => Nat.lt_irrefl _ (h.2 n hc), h.1⟩), fun x hx => ?_⟩
  rcases List.mem_cons.1 (hp.mem_iff.1 hx) with rfl | hx
  · exact Nat.lt_succ_self _
  · have := h.2 x hx; omega

theorem dist_removeAt {n i : Nat} {L : List Nat} {q : List Nat × SeqRes Nat} (h : Dist n L) (hq : removeAt L i = some q) :
    Dist n q.1 := by
  unfold removeAt at hq
  split at hq
  · simp only [Option.some.injEq] at hq
    subst hq
    refine dist_sub h ?_
    conv_rhs => rw [← List.take_append_drop i L]
    exact List.Sublist.append (List.Sublist.refl _) (by
      rw [← List.drop_drop]; exact List.drop_sublist _ _)
  · simp at hq

theorem dist_insertAt {n i : Nat} {L : List Nat} {q : List Nat × SeqRes Nat} (h : Dist n L) (hq : insertAt L i n = some q) :
    Dist (n + 1) q.1 := by
  unfold insertAt at hq
  split at hq
  · simp only [Option.some.injEq] at hq
    subst hq
    refine dist_perm h ?_
    refine List.perm_middle.trans ?_
    rw [List.take_append_drop]
  · simp at hq

theorem dist_labels (ops : List (SeqOp V)) (n : Nat) {L L' : List Nat} (h : Dist n L)
    (hL : listAfter L (labels n ops) = some L') : Dist (n + inserts ops) L' := by
  induction ops generalizing n L with
  | nil =>
    simp only [labels, listAfter, Option.some.injEq] at hL
    subst hL
    exact h
  | cons op ops ih =>
    simp only [labels, listAfter] at hL
    cases hq : (label n op).exec L with
    | none => rw [hq] at hL; simp at hL
    | some q =>
      rw [hq, Option.bind_some] at hL
      have e : n + inserts (op :: ops) = (if draws op then n + 1 else n) + inserts ops := by
        unfold inserts
        rw [List.countP_cons]
        split <;> omega
      rw [e]
      refine ih _ ?_ hL
      cases op with
      | insert i v => exact dist_insertAt h hq
      | remove i => exact dist_removeAt h hq
      | pushFront v =>
        simp only [label, SeqOp.exec, Option.some.injEq] at hq
        subst hq
        exact dist_perm h (List.Perm.refl _)
      | pushBack v =>
        simp only [label, SeqOp.exec, Option.some.injEq] at hq
        subst hq
        exact dist_perm h (List.perm_append_singleton _ _)
      | popFront => exact dist_removeAt h hq
      | popBack =>
        simp only [label, SeqOp.exec] at hq
        split at hq
        · simp at hq
        · exact dist_removeAt h hq
      | index i =>
        simp only [label, SeqOp.exec] at hq
        cases hz : L[i]? with
        | none => rw [hz] at hq; simp at hq
        | some x =>
          rw [hz] at hq
          simp only [Option.map_some, Option.some.injEq] at hq
          subst hq
          exact h
      | clear =>
        simp only [label, SeqOp.exec, Option.some.injEq] at hq
        subst hq
        exact ⟨by simp, by simp⟩
      | _ =>
        simp only [label, SeqOp.exec, Option.some.injEq] at hq
        subst hq
        exact h

theorem lift_fin {N : Nat} (l : List Nat) (h : ∀ x ∈ l, x < N) : ∃ l' : List (Fin N), l'.map Fin.val = l := by
  induction l with
  | nil => exact ⟨[], rfl⟩
  | cons x l ih =>
    obtain ⟨l', h'⟩ := ih fun y hy => h y (by simp [hy])
    exact ⟨⟨x, h x (by simp)⟩ :: l', by simp [h']⟩

/-- The state after a history: its nodes, in order, have the heights drawn by distinct calls that do not depend on
the words. -/
theorem after_ok (a : Addr) {ops : List (SeqOp V)} {l : List V} (hl : listAfter [] ops = some l) :
    ∃ L : List (Fin (inserts ops)), L.Nodup ∧ L.length = l.length ∧ ∀ (off : Nat → Nat) (w : Fin (inserts ops) → Word),
      ∃ s T, after a ops off w = some s ∧ Good False s T ∧ vals T = l ∧ T.map dh = L.map fun x => lz 32 (w x) := by
  have hg : Good False (SkipList.new a : SkipList V) [] := (good_new a).weaken False.elim
  obtain ⟨s0, T0, L0, -, -, hv0, hc0, hh0⟩ := exec_ok (V := V) (fun _ => (0, 0)) ops 0 hg (L := []) rfl (l := l) hl
  have hd : Dist (inserts ops) L0 := by
    have := dist_labels ops 0 (L := []) ⟨by simp, by simp⟩ hc0
    rwa [Nat.zero_add] at this
  obtain ⟨L, hL⟩ := lift_fin L0 hd.2
  refine ⟨L, ?_, ?_, ?_⟩
  · have := hd.1
    rw [← hL] at this
    exact List.Nodup.of_map _ this
  · have h1 := congrArg List.length hh0
    have h2 := congrArg List.length hL
    have h3 := congrArg List.length hv0
    simp [vals] at h1 h2 h3
    omega
  · intro off w
    obtain ⟨s, T, L1, h1, h2, h3, h4, h5⟩ := exec_ok (fun i => (heights w i, off i)) ops 0 hg (L := []) rfl (l := l) hl
    rw [hc0] at h4
    cases h4
    refine ⟨s, T, h1, h2, h3, ?_⟩
    have e : T.map dh = (T.map (·.h)).map (· - 1) := by rw [List.map_map]; rfl
    rw [e, h5, ← hL, List.map_map, List.map_map]
    refine List.map_congr_left fun x _ => ?_
    simp [heights, x.isLt]

/-- No history fails if none of its calls has to panic, and neither does the next call; the counting code returns what
the code returns. -/
theorem C57_total (a : Addr) {ops : List (SeqOp V)} {l : List V} (hl : listAfter [] ops = some l)
    (off : Nat → Nat) (w : Fin (inserts ops) → Word) (op : SeqOp V) (d : Draw) (hop : (op.exec l).isSome) :
    ∃ s r, after a ops off w = some s ∧ s.len = l.length ∧ stepC s op d = some (links a ops off w op d, r) ∧
      step s op d = some r := by
  obtain ⟨L, -, -, h⟩ := after_ok a hl
  obtain ⟨s, T, h1, h2, rfl, -⟩ := h off w
  obtain ⟨c, r, h3, -⟩ := stepC_ok h2 op d hop
  refine ⟨s, r, h1, by rw [h2.2.1]; simp [vals], ?_, ?_⟩
  · simp [links, h1, h3]
  · rw [← stepC_erase, h3]; rfl

/-! ### The expected number of links -/

/-- Averaged over all words, the call `op` after the history `ops` reads at most `33 + H + n / 2^H` links, where `n` is
the number of elements, for every `H` up to 32. -/
theorem C57_links_general (a : Addr) {ops : List (SeqOp V)} {l : List V} (hl : listAfter [] ops = some l)
    (off : (Fin (inserts ops) → Word) → Nat → Nat) (op : SeqOp V) (d : Draw) (hop : (op.exec l).isSome) (H : Nat)
    (hH : H ≤ 32) :
    2 ^ H * ∑ w : Fin (inserts ops) → Word, links a ops (off w) w op d ≤
      ((33 + H) * 2 ^ H + l.length) * (2 ^ 32) ^ inserts ops := by
  obtain ⟨L, hnd, hlen, h⟩ := after_ok a hl
  obtain ⟨LA, hLA⟩ : ∃ LA, LA = L.take (place l.length op) := ⟨_, rfl⟩
  have hndA : LA.Nodup := by rw [hLA]; exact hnd.sublist (List.take_sublist _ _)
  have hlenA : LA.length ≤ l.length := by rw [hLA, List.length_take]; omega
  have hcost : ∀ w : Fin (inserts ops) → Word, links a ops (off w) w op d ≤
      33 + (∑ i ∈ Finset.range H, tail i (LA.map fun x => lz 32 (w x))) + tall H (LA.map fun x => lz 32 (w x)) := by
    intro w
    obtain ⟨s, T, h1, h2, h3, h4⟩ := h (off w) w
    subst h3
    obtain ⟨c, r, h5, h6⟩ := stepC_ok h2 op d hop
    have hc : links a ops (off w) w op d = c := by simp [links, h1, h5]
    have h7 := cost_le (T.take (place T.length op)) hH
    have e : (T.take (place T.length op)).map dh = LA.map fun x => lz 32 (w x) := by
      rw [List.map_take, h4, hLA, ← List.map_take]
      simp [vals]
    rw [e] at h7
    rw [hc]
    exact h6.trans h7
  have hcard : (2 ^ 32) ^ inserts ops = Fintype.card (Fin (inserts ops) → Word) := by
    rw [Fintype.card_fun, Fintype.card_fin, Fintype.card_fin]
  rw [hcard]
  have hsum := Finset.sum_le_sum fun w (_ : w ∈ (Finset.univ : Finset (Fin (inserts ops) → Word))) => hcost w
  refine (Nat.mul_le_mul_left (2 ^ H) hsum).trans ?_
  rw [Finset.sum_add_distrib, Finset.sum_add_distrib]
  have t1 : ∑ _w : Fin (inserts ops) → Word, 33 = 33 * Fintype.card (Fin (inserts ops) → Word) := by
    rw [Finset.sum_const_nat (m := 33) fun _ _ => rfl, Finset.card_univ, Nat.mul_comm]
  have t2 : ∑ w : Fin (inserts ops) → Word, ∑ i ∈ Finset.range H, tail i (LA.map fun x => lz 32 (w x)) ≤
      H * Fintype.card (Fin (inserts ops) → Word) := by
    rw [Finset.sum_comm]
    refine (Finset.sum_le_sum (g := fun _ => Fintype.card (Fin (inserts ops) → Word)) fun i hi => ?_).trans ?_
    · rw [Finset.mem_range] at hi
      exact sum_tail_le (by omega) LA hndA
    · rw [Finset.sum_const_nat (m := Fintype.card (Fin (inserts ops) → Word)) fun _ _ => rfl, Finset.card_range]
  have t3 := sum_tall (W := 32) H (by omega) LA
  generalize Fintype.card (Fin (inserts ops) → Word) = c at *
  generalize (∑ w : Fin (inserts ops) → Word, ∑ i ∈ Finset.range H, tail i (LA.map fun x => lz 32 (w x))) = x2 at *
  generalize (∑ w : Fin (inserts ops) → Word, tall H (LA.map fun x => lz 32 (w x))) = x3 at *
  rw [t1]
  clear hsum t1 hcost
  have t2' := Nat.mul_le_mul_left (2 ^ H) t2
  have t4 := Nat.mul_le_mul_right c hlenA
  nlinarith [t2', t3, t4]

/-- C57 for lists of fewer than `2^32` elements.  After any history, every call reads on average (over all words the
generator may deliver for the nodes of the list) at most `log₂ n + 35` links to find its place. -/
theorem C57_links_partial (a : Addr) {ops : List (SeqOp V)} {l : List V} (hl : listAfter [] ops = some l)
    (off : (Fin (inserts ops) → Word) → Nat → Nat) (op : SeqOp V) (d : Draw) (hop : (op.exec l).isSome)
    (hn : l.length < 2 ^ 32) :
    ∑ w : Fin (inserts ops) → Word, links a ops (off w) w op d ≤
      (Nat.log2 l.length + 35) * (2 ^ 32) ^ inserts ops := by
  have hlog : Nat.log2 l.length + 1 ≤ 32 := by
    by_cases h0 : l.length = 0
    · rw [h0]; decide
    · have := (Nat.log2_lt h0).2 hn
      omega
  have h1 := C57_links_general a hl off op d hop (Nat.log2 l.length + 1) hlog
  refine Nat.le_of_mul_le_mul_left (h1.trans ?_) (Nat.two_pow_pos (Nat.log2 l.length + 1))
  rw [← Nat.mul_assoc]
  refine Nat.mul_le_mul_right _ ?_
  have h2 : l.length < 2 ^ (Nat.log2 l.length + 1) := Nat.lt_log2_self
  generalize 2 ^ (Nat.log2 l.length + 1) = p at *
  nlinarith [h2]

/-! ### Longer lists -/

/-- No node is higher than 33 levels (list.rs:21), so one element in `2^32` is on the highest level, and a call at the end
of the list passes all of those: on average `n / 2^32` of `n`. -/
theorem C57_lower (a : Addr) {ops : List (SeqOp V)} {l : List V} (hl : listAfter [] ops = some l)
    (off : (Fin (inserts ops) → Word) → Nat → Nat) (v : V) (d : Draw) :
    (33 * 2 ^ 32 + l.length) * (2 ^ 32) ^ inserts ops ≤
      2 ^ 32 * ∑ w : Fin (inserts ops) → Word, links a ops (off w) w (.pushBack v) d := by
  obtain ⟨L, hnd, hlen, h⟩ := after_ok a hl
  have hcost : ∀ w : Fin (inserts ops) → Word, 33 + tall 32 (L.map fun x => lz 32 (w x)) ≤
      links a ops (off w) w (.pushBack v) d := by
    intro w
    obtain ⟨s, T, h1, h2, h3, h4⟩ := h (off w) w
    obtain ⟨s', h5⟩ := insertC_ok (A := T) (B := []) (by simpa using h2) v d.1 d.2 (Nat.le_of_lt_succ d.1.2)
    have h6 := cost_ge T fun t ht => (h2.1.sub.pos t ht).2
    rw [h4] at h6
    have hc : links a ops (off w) w (.pushBack v) d = cost T maxHeight := by
      simp [links, h1, stepC, h2.2.1, h5]
    rw [hc]
    exact h6
  have hcard : (2 ^ 32) ^ inserts ops = Fintype.card (Fin (inserts ops) → Word) := by
    rw [Fintype.card_fun, Fintype.card_fin, Fintype.card_fin]
  rw [hcard]
  have hsum := Finset.sum_le_sum fun w (_ : w ∈ (Finset.univ : Finset (Fin (inserts ops) → Word))) => hcost w
  refine Nat.le_trans ?_ (Nat.mul_le_mul_left (2 ^ 32) hsum)
  rw [Finset.sum_add_distrib]
  have t1 : ∑ _w : Fin (inserts ops) → Word, 33 = 33 * Fintype.card (Fin (inserts ops) → Word) := by
    rw [Finset.sum_const_nat (m := 33) fun _ _ => rfl, Finset.card_univ, Nat.mul_comm]
  have t3 := sum_tall (W := 32) 32 (Nat.le_refl _) L
  rw [hlen] at t3
  rw [t1, Nat.mul_add, t3]
  refine le_of_eq ?_
  ring

theorem listAfter_pushBack (n : Nat) (l : List V) (v : V) :
    listAfter l (List.replicate n (.pushBack v)) = some (l ++ List.replicate n v) := by
  induction n generalizing l with
  | zero => simp [listAfter]
  | succ n ih =>
    rw [List.replicate_succ, listAfter]
    simp only [SeqOp.exec, Option.bind_some, ih, List.replicate_succ, List.append_assoc]
    rfl

theorem exists_big (c : Nat) : ∃ m, c * (m + 33) < 2 ^ m := by
  refine ⟨2 * (c + 35) + 2, ?_⟩
  have h : c + 35 < 2 ^ (c + 35) := Nat.lt_two_pow_self
  have e : 2 ^ (2 * (c + 35) + 2) = 4 * (2 ^ (c + 35) * 2 ^ (c + 35)) := by
    rw [pow_add, Nat.two_mul, pow_add]; ring
  rw [e]
  generalize 2 ^ (c + 35) = p at *
  nlinarith [Nat.mul_le_mul (Nat.le_of_lt h) (Nat.le_of_lt h)]

/-- C57 fails without the bound on the length: no multiple of `log₂ n + 1` bounds the average. -/
theorem C57_violated (a : Addr) (c : Nat) :
    ∃ (ops : List (SeqOp Unit)) (l : List Unit), listAfter [] ops = some l ∧ ∃ op : SeqOp Unit, (op.exec l).isSome ∧
      ∀ (off : (Fin (inserts ops) → Word) → Nat → Nat) (d : Draw),
        c * (Nat.log2 l.length + 1) * (2 ^ 32) ^ inserts ops <
          ∑ w : Fin (inserts ops) → Word, links a ops (off w) w op d := by
  obtain ⟨m, hm⟩ := exists_big c
  obtain ⟨n, hn⟩ : ∃ n, n = 2 ^ (32 + m) := ⟨_, rfl⟩
  have hc := listAfter_pushBack n ([] : List Unit) ()
  refine ⟨_, _, hc, .pushBack (), rfl, fun off d => ?_⟩
  have h1 := C57_lower a hc off () d
  simp only [List.nil_append, List.length_replicate] at h1 ⊢
  have hlog : Nat.log2 n = 32 + m := by rw [hn, Nat.log2_two_pow]
  rw [hlog]
  generalize (∑ w : Fin (inserts (List.replicate n (SeqOp.pushBack ()))) → Word,
    links a (List.replicate n (SeqOp.pushBack ())) (off w) w (.pushBack ()) d) = S at *
  have hpos : 0 < (2 ^ 32) ^ inserts (List.replicate n (SeqOp.pushBack ())) := Nat.pow_pos (by decide)
  generalize (2 ^ 32) ^ inserts (List.replicate n (SeqOp.pushBack ())) = Q at *
  refine Nat.lt_of_mul_lt_mul_left (a := 2 ^ 32) (Nat.lt_of_lt_of_le ?_ h1)
  rw [← Nat.mul_assoc]
  refine Nat.mul_lt_mul_of_pos_right ?_ hpos
  have : 2 ^ 32 * (c * (32 + m + 1)) < 2 ^ 32 * 2 ^ m :=
    Nat.mul_lt_mul_of_pos_left (by rw [show 32 + m + 1 = m + 33 by omega]; exact hm) (by decide)
  rw [hn, pow_add]
  omega

/-! ### Examples -/

/-- A history to which `C57_links_partial` applies. -/
def exOps : List (SeqOp Nat) := [.pushBack 3, .insert 0 1, .insert 1 2, .pushFront 0, .pushBack 9, .popBack]

example : listAfter [] exOps = some [0, 1, 2, 3] ∧ inserts exOps = 5 := by decide

example : ∑ w : Fin 5 → Word, links 0 exOps (fun i => i) w (.get 3) (0, 0) ≤ 37 * (2 ^ 32) ^ 5 :=
  C57_links_partial 0 (ops := exOps) (l := [0, 1, 2, 3]) (by decide) (fun _ i => i) (.get 3) (0, 0) rfl (by decide)

-- two choices of words: all nodes on the bottom level only, and the node of the third element two levels higher
example : links 0 exOps (fun i => i) (fun _ => ⟨2 ^ 31, by decide⟩) (.get 3) (0, 0) = 36 := by decide +kernel
example : links 0 exOps (fun i => i) (fun j => if j.val = 2 then ⟨2 ^ 29, by decide⟩ else ⟨2 ^ 31, by decide⟩)
    (.get 3) (0, 0) = 34 := by decide +kernel

end Verif.Skip.Lst
