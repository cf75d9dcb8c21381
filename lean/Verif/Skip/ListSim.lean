/- Iteration, `clear`, `drop` and concatenation of `SkipList`, and the simulation by plain lists. -/
import Verif.Skip.ListRemove

namespace Verif.Skip.Lst

open Verif.Spec

variable {V : Type}

/-- Addresses in list order. -/
abbrev addrs (T : List (Tower V)) : List Addr := T.map fun t => t.addr
/-- Values in list order. -/
abbrev vals (T : List (Tower V)) : List V := T.map fun t => t.e

theorem lvp_zero (k : Nat) {T : List (Tower V)} (h : ∀ t ∈ T, 0 < t.h) : (lvp 0 k T).map (·.1) = addrs T := by
  induction T generalizing k with
  | nil => rfl
  | cons t T ih => rw [lvp_pos (h t (by simp)), List.map_cons, ih (k + 1) fun t ht => h t (by simp [ht])]; rfl

/-- Bottom links. -/
theorem bottom_link {ex : Prop} {m : LHeap V} {head : Addr} {A B : List (Tower V)} {t : Tower V} (h : Rep ex m head (A ++ t :: B)) :
    ∃ d, getLink m t.addr 0 = some ⟨(addrs B).head?, d⟩ := by
  have hc := h.chain 0 (Nat.zero_le _)
  rw [lvp_append, chainP_append, lvp_pos (h.sub.pos t (by simp)).1] at hc
  obtain ⟨d, _, _, c⟩ := hc.2
  obtain ⟨d', h'⟩ := chainP_link c
  rw [lvp_zero _ fun t ht => (h.sub.pos t (by simp [ht])).1] at h'
  exact ⟨d', h'⟩

theorem bottom_first {ex : Prop} {m : LHeap V} {head : Addr} {T : List (Tower V)} (h : Rep ex m head T) :
    ∃ d, getLink m head 0 = some ⟨(addrs T).head?, d⟩ := by
  obtain ⟨d', h'⟩ := chainP_link (h.chain 0 (Nat.zero_le _))
  rw [lvp_zero _ fun t ht => (h.sub.pos t ht).1] at h'
  exact ⟨d', h'⟩

/-! ### Writing through references -/

theorem lvp_congr {i k : Nat} {T T' : List (Tower V)} (h : T.map (fun t => (t.addr, t.h)) = T'.map fun t => (t.addr, t.h)) :
    lvp i k T = lvp i k T' := by
  induction T generalizing k T' with
  | nil => cases T' with
    | nil => rfl
    | cons _ _ => simp at h
  | cons t T ih =>
    cases T' with
    | nil => simp at h
    | cons t' T' =>
      simp only [List.map_cons, List.cons.injEq, Prod.mk.injEq] at h
      obtain ⟨⟨h1, h2⟩, h3⟩ := h
      by_cases hh : i < t.h
      · rw [lvp_pos hh, lvp_pos (h2 ▸ hh), ih h3, h1]
      · rw [lvp_neg hh, lvp_neg (h2 ▸ hh), ih h3]

/-- A tower with another value. -/
def Tower.set (t : Tower V) (v : V) : Tower V := ⟨t.addr, v, t.h⟩

theorem modify_ok {ex : Prop} {s : SkipList V} {A B : List (Tower V)} {t : Tower V} (h : Good ex s (A ++ t :: B)) (f : V → V) :
    ∃ m, modifyAt s.mem t.addr f = some (m, t.e) ∧ Good ex { s with mem := m } (A ++ Tower.set t (f t.e) :: B) := by
  obtain ⟨hr, hlen, hb⟩ := h
  obtain ⟨ls, h1, h2⟩ := shape_eq (hr.sub.tow t (by simp))
  have hsh : ∀ a, shape (s.mem.put t.addr ⟨some (f t.e), ls⟩) a = if a = t.addr then some (some (f t.e), t.h) else shape s.mem a := by
    intro a; rw [shape_put, h2]
  have hgl : ∀ a j, getLink (s.mem.put t.addr ⟨some (f t.e), ls⟩) a j = getLink s.mem a j := by
    intro a j
    rw [getLink_put]
    split
    · rename_i ha; subst ha; simp [getLink, h1]
    · rfl
  have haddr : (A ++ Tower.set t (f t.e) :: B).map (fun x => x.addr) = (A ++ t :: B).map (fun x => x.addr) := by simp [Tower.set]
  have hnd := hr.sub.nodup
  have hne : ∀ a ∈ s.head :: addrs (A ++ B), a ≠ t.addr := by
    have p : (s.head :: addrs (A ++ t :: B)).Perm (t.addr :: s.head :: addrs (A ++ B)) := by
      simp only [addrs, List.map_append, List.map_cons]
      rw [← List.cons_append, ← List.cons_append]
      exact List.perm_middle
    have := (List.nodup_cons.1 (p.nodup_iff.1 hnd)).1
    rintro a ha rfl
    exact this ha
  refine ⟨s.mem.put t.addr ⟨some (f t.e), ls⟩, by simp [modifyAt, h1], ⟨⟨?_, ?_, ?_, ?_⟩, ?_, ?_⟩, ?_, ?_⟩
  · simp only; rw [hsh, if_neg (hne _ (by simp))]; exact hr.sub.hd
  · intro x hx
    simp only
    rw [hsh]
    simp only [List.mem_append, List.mem_cons] at hx
    rcases hx with hx | rfl | hx
    · rw [if_neg (hne _ (by simp only [addrs, List.map_append, List.mem_cons, List.mem_append]; right; left; exact List.mem_map.2 ⟨x, hx, rfl⟩))]
      exact hr.sub.tow x (by simp [hx])
    · rw [if_pos (by rfl)]; rfl
    · rw [if_neg (hne _ (by simp only [addrs, List.map_append, List.mem_cons, List.mem_append]; right; right; exact List.mem_map.2 ⟨x, hx, rfl⟩))]
      exact hr.sub.tow x (by simp [hx])
  · intro x hx
    simp only [List.mem_append, List.mem_cons] at hx
    rcases hx with hx | rfl | hx
    · exact hr.sub.pos x (by simp [hx])
    · exact hr.sub.pos t (by simp)
    · exact hr.sub.pos x (by simp [hx])
  · rw [haddr]; exact hnd
  · intro a ha hn
    rw [haddr] at hn
    simp only
    rw [hsh, if_neg (by rintro rfl; exact hn (by simp [addrs]))]
    exact hr.only a ha hn
  · intro i hi
    have e : lvp i 0 (A ++ Tower.set t (f t.e) :: B) = lvp i 0 (A ++ t :: B) := lvp_congr (by simp [Tower.set])
    have e2 : (A ++ Tower.set t (f t.e) :: B).length = (A ++ t :: B).length := by simp
    rw [e, e2]
    exact chainP_frame (hr.chain i hi) fun y _ => hgl _ _
  · simp only [hlen]; simp
  · intro a ha
    have : t.addr ≠ a := by
      rintro rfl; rw [hb _ ha] at h1; simp at h1
    simp only [Heap.put]
    rw [if_neg this.symm]
    exact hb a ha

theorem getMut_ok {ex : Prop} {s : SkipList V} {T : List (Tower V)} (h : Good ex s T) (idx : Nat) (f : V → V) :
    ∃ s' T', s.getMut idx f = some (s', (vals T)[idx]?) ∧ Good ex s' T' ∧ vals T' = (vals T).modify idx f := by
  unfold SkipList.getMut
  rw [lookup_good h]
  cases ht : T[idx]? with
  | none =>
    refine ⟨s, T, by simp [ht], h, ?_⟩
    rw [List.modify_eq_self (by simpa using ht)]
  | some t =>
    obtain ⟨hi, h1⟩ := List.getElem?_eq_some_iff.1 ht
    have e : T = T.take idx ++ t :: T.drop (idx + 1) := by
      rw [← h1, List.getElem_cons_drop, List.take_append_drop]
    have h' := h
    rw [e] at h'
    obtain ⟨m, g1, g2⟩ := modify_ok h' f
    refine ⟨_, _, ?_, g2, ?_⟩
    · simp [g1, ht]
    · rw [List.modify_eq_take_cons_drop (by simpa using hi)]
      have h2 : (vals T)[idx]'(by simpa using hi) = t.e := by simp [vals, h1]
      rw [h2]
      simp [vals, Tower.set]

/-! ### Iteration -/

theorem iterate_none (m : LHeap V) (n : Nat) : iterate m n none = some (List.replicate n none) := by
  induction n with
  | zero => rfl
  | succ n ih => simp [iterate, ih, List.replicate_succ]

theorem iterate_ok {ex : Prop} {m : LHeap V} {head : Addr} (n : Nat) (A B : List (Tower V)) (h : Rep ex m head (A ++ B)) :
    iterate m n (addrs B).head? = some ((List.range n).map fun i => (vals B)[i]?) := by
  induction n generalizing A B with
  | zero => cases B <;> rfl
  | succ n ih =>
    cases B with
    | nil =>
      simp only [addrs, vals, List.map_nil, List.head?_nil, iterate_none, List.getElem?_nil]
      congr 1
      refine (List.eq_replicate_iff.2 ⟨by simp, by simp⟩).symm
    | cons t B =>
      obtain ⟨d, h1⟩ := bottom_link h
      have h2 := ih (A ++ [t]) B (by simpa using h)
      have h3 := entryAt_of_shape (h.sub.tow t (by simp))
      rw [List.range_succ_eq_map]
      simp only [addrs, List.map_cons, List.head?_cons, iterate, h3, h1, Option.bind_eq_bind, Option.bind_some]
      simp only [addrs] at h2
      rw [h2]
      simp [Function.comp_def, vals]

/-- Update the first towers. -/
def updT : List (V → V) → List (Tower V) → List (Tower V)
  | f :: fs, t :: T => Tower.set t (f t.e) :: updT fs T
  | _, T => T

theorem vals_updT (fs : List (V → V)) (T : List (Tower V)) : vals (updT fs T) = updateEach fs (vals T) := by
  induction fs generalizing T with
  | nil => cases T <;> rfl
  | cons f fs ih =>
    cases T with
    | nil => rfl
    | cons t T =>
      have := ih T
      simp only [vals] at this
      simp [updT, vals, updateEach, this, Tower.set]

theorem iterateMut_none (m : LHeap V) (fs : List (V → V)) : iterateMut m fs none = some (m, List.replicate fs.length none) := by
  induction fs with
  | nil => rfl
  | cons f fs ih => simp [iterateMut, ih, List.replicate_succ]

theorem iterateMut_ok {ex : Prop} {s : SkipList V} (fs : List (V → V)) (A B : List (Tower V)) (h : Good ex s (A ++ B)) :
    ∃ m, iterateMut s.mem fs (addrs B).head? = some (m, (List.range fs.length).map fun i => (vals B)[i]?) ∧
      Good ex { s with mem := m } (A ++ updT fs B) := by
  induction fs generalizing A B s with
  | nil => exact ⟨s.mem, by cases B <;> rfl, by cases B <;> exact h⟩
  | cons f fs ih =>
    cases B with
    | nil =>
      refine ⟨s.mem, ?_, h⟩
      simp only [addrs, vals, List.map_nil, List.head?_nil, iterateMut_none, List.getElem?_nil]
      congr 2
      exact (List.eq_replicate_iff.2 ⟨by simp, by simp⟩).symm
    | cons t B =>
      obtain ⟨m1, a1, a2⟩ := modify_ok h f
      obtain ⟨d, h1⟩ := bottom_link a2.1
      obtain ⟨m2, b1, b2⟩ := ih (s := { s with mem := m1 }) (A ++ [Tower.set t (f t.e)]) B (by simpa using a2)
      refine ⟨m2, ?_, by simpa [updT] using b2⟩
      have h1' : getLink m1 t.addr 0 = some ⟨(addrs B).head?, d⟩ := h1
      simp only at b1
      rw [List.length_cons, List.range_succ_eq_map]
      simp only [addrs, List.map_cons, List.head?_cons, iterateMut, a1, h1', Option.bind_eq_bind, Option.bind_some]
      simp only [addrs] at b1
      rw [b1]
      simp [Function.comp_def, vals]

/-! ### `clear` and `drop` -/

theorem freeAll_ok {m : LHeap V} {o : Option Addr} {l : List Addr} (hn : l.Nodup)
    (hs : ∀ a ∈ l, ∃ p, shape m a = some p)
    (hc : o = l.head? ∧ ∀ a Q, (∃ P, l = P ++ a :: Q) → ∃ d, getLink m a 0 = some ⟨Q.head?, d⟩) :
    ∃ m', freeAll m l.length o = some m' ∧ (∀ a, shape m' a = if a ∈ l then none else shape m a) ∧
      ∀ a j, a ∉ l → getLink m' a j = getLink m a j := by
  induction l generalizing m o with
  | nil =>
    rw [hc.1]
    exact ⟨m, by simp [freeAll], by simp, by simp⟩
  | cons a l ih =>
    obtain ⟨rfl, hc⟩ := hc
    obtain ⟨p, hp⟩ := hs a (by simp)
    obtain ⟨m1, h1, h2, h3⟩ := free_ok hp
    have hal : a ∉ l := (List.nodup_cons.1 hn).1
    obtain ⟨m2, g1, g2, g3⟩ := ih (m := m1) (o := l.head?) (List.nodup_cons.1 hn).2
      (fun b hb => by
        rw [h2, if_neg (by rintro rfl; exact hal hb)]
        exact hs b (by simp [hb]))
      ⟨rfl, fun b Q hbQ => by
        obtain ⟨P, hP⟩ := hbQ
        rw [h3, if_neg (by rintro rfl; exact hal (by rw [hP]; simp))]
        exact hc b Q ⟨a :: P, by rw [hP]; rfl⟩⟩
    refine ⟨m2, ?_, ?_, ?_⟩
    · obtain ⟨d, this⟩ := hc a l ⟨[], rfl⟩
      simp [freeAll, this, h1, g1]
    · intro b
      rw [g2, h2]
      by_cases hb : b = a
      · subst hb; simp
      · simp [hb]
    · intro b j hb
      simp only [List.mem_cons, not_or] at hb
      rw [g3 b j hb.2, h3, if_neg hb.1]

theorem bottom_links {ex : Prop} {m : LHeap V} {head : Addr} {T : List (Tower V)} (h : Rep ex m head T) :
    ∀ a Q, (∃ P, addrs T = P ++ a :: Q) → ∃ d, getLink m a 0 = some ⟨Q.head?, d⟩ := by
  rintro a Q ⟨P, hP⟩
  obtain ⟨A, B', hT, h1, h2⟩ := List.map_eq_append_iff.1 hP
  obtain ⟨t, B, hB, h3, h4⟩ := List.map_eq_cons_iff.1 h2
  subst hT
  subst hB
  subst h3
  subst h4
  exact bottom_link h

theorem clear_ok {ex : Prop} {s : SkipList V} {T : List (Tower V)} (h : Good ex s T) :
    ∃ s', s.clear = some s' ∧ Good True s' [] := by
  obtain ⟨hr, hlen, hb⟩ := h
  have hnd := hr.sub.nodup
  obtain ⟨m1, h1, h2, h3⟩ := freeAll_ok (m := s.mem) (o := (addrs T).head?) (List.nodup_cons.1 hnd).2
    (fun a ha => by
      obtain ⟨t, ht, rfl⟩ := List.mem_map.1 ha
      exact ⟨_, hr.sub.tow t ht⟩)
    ⟨rfl, bottom_links hr⟩
  have hhd : shape m1 s.head = some (none, maxHeight + 1) := by
    rw [h2, if_neg (List.nodup_cons.1 hnd).1]; exact hr.sub.hd
  obtain ⟨m2, g1, g2, g3⟩ := zeroLinks_ok hhd Link.zero
  obtain ⟨d, hl⟩ := bottom_first hr
  rw [List.length_map] at h1
  refine ⟨{ s with mem := m2, len := 0 }, ?_, ⟨⟨?_, by simp, by simp, by simp⟩, ?_, ?_⟩, rfl, ?_⟩
  · unfold SkipList.clear
    rw [hl]
    simp only [Option.bind_eq_bind, Option.bind_some, hlen, h1, g1]
    rfl
  · rw [g2]; exact hhd
  · intro a ha _
    simp only
    rw [g2, h2]
    split
    · rfl
    · exact hr.only a ha (by assumption)
  · intro i hi
    refine ⟨0, ?_, by simp, by simp⟩
    show getLink m2 s.head i = some Link.zero
    rw [g3, if_pos rfl, if_pos (by omega)]
  · intro a ha
    have : shape m2 a = none := by
      rw [g2, h2]
      split
      · rfl
      · simp [shape, hb a ha]
    simpa [shape] using this

/-- Dropping a list frees every node exactly once and leaves nothing allocated. -/
theorem drop_ok {ex : Prop} {s : SkipList V} {T : List (Tower V)} (h : Good ex s T) :
    ∃ m, s.drop = some m ∧ ∀ a, m a = none := by
  obtain ⟨hr, hlen, hb⟩ := h
  have hnd := hr.sub.nodup
  obtain ⟨d, hl⟩ := bottom_first hr
  obtain ⟨m0, e1, e2, e3⟩ := free_ok hr.sub.hd
  have hne : ∀ a ∈ addrs T, a ≠ s.head := by
    rintro a ha rfl; exact (List.nodup_cons.1 hnd).1 ha
  obtain ⟨m1, h1, h2, h3⟩ := freeAll_ok (m := m0) (o := (addrs T).head?) (List.nodup_cons.1 hnd).2
    (fun a ha => by
      rw [e2, if_neg (hne a ha)]
      obtain ⟨t, ht, rfl⟩ := List.mem_map.1 ha
      exact ⟨_, hr.sub.tow t ht⟩)
    ⟨rfl, fun b Q hbQ => by
      rw [e3, if_neg (hne b (by obtain ⟨P, hP⟩ := hbQ; simp only [addrs]; rw [hP]; simp))]
      exact bottom_links hr b Q hbQ⟩
  rw [List.length_map] at h1
  refine ⟨m1, ?_, ?_⟩
  · unfold SkipList.drop
    rw [hl]
    simp only [Option.bind_eq_bind, Option.bind_some, hlen, e1, h1]
  · intro a
    have : shape m1 a = none := by
      rw [h2, e2]
      split
      · rfl
      · split
        · rfl
        · exact hr.only a (by assumption) (by assumption)
    simpa [shape] using this

theorem good_new (a : Addr) : Good True (SkipList.new a : SkipList V) [] := by
  refine ⟨⟨⟨?_, by simp, by simp, by simp⟩, ?_, ?_⟩, rfl, ?_⟩
  · simp [SkipList.new, shape, Heap.put, headNode]
  · intro b hb _
    simp only [SkipList.new] at hb
    simp [SkipList.new, shape, Heap.put, hb]
  · intro i hi
    refine ⟨0, ?_, by simp, by simp⟩
    simp [lk, SkipList.new, getLink, Heap.put, headNode, Nat.lt_succ_of_le hi, Link.zero]
  · intro b hb
    simp only [SkipList.new] at hb
    simp [SkipList.new, Heap.put, Nat.ne_of_gt hb]

/-! ### The simulation -/

/-- Calls that remove an element. -/
def removes : SeqOp V → Bool
  | .remove _ => true
  | .popFront => true
  | .popBack => true
  | _ => false

theorem step_ok {ex : Prop} {s : SkipList V} {T : List (Tower V)} (h : Good ex s T) (op : SeqOp V) (d : Draw) :
    (op.exec (vals T) = none → step s op d = none) ∧
    ∀ l' r, op.exec (vals T) = some (l', r) → ∃ s' T', step s op d = some (s', r) ∧ vals T' = l' ∧
      Good (ex ∧ removes op = false) s' T' := by
  have hlen : s.len = T.length := h.2.1
  have hvl : (vals T).length = T.length := by simp [vals]
  have hsame : Good (ex ∧ false = false) s T := h.weaken (fun h => h.1)
  have hins : ∀ i v, (insertAt (vals T) i v = none → (s.insert i v d.1 d.2).map (fun s => (s, (SeqRes.unit : SeqRes V))) = none) ∧
      ∀ l' r, insertAt (vals T) i v = some (l', r) → ∃ s' T', (s.insert i v d.1 d.2).map (fun s => (s, SeqRes.unit)) = some (s', r) ∧
        vals T' = l' ∧ Good (ex ∧ false = false) s' T' := by
    intro i v
    unfold insertAt
    rw [hvl]
    by_cases hi : i ≤ T.length
    · rw [if_pos hi]
      refine ⟨by simp, ?_⟩
      intro l' r e
      simp only [Option.some.injEq, Prod.mk.injEq] at e
      obtain ⟨rfl, rfl⟩ := e
      have hA : (T.take i).length = i := by simp; omega
      have h' : Good ex s (T.take i ++ T.drop i) := by rw [List.take_append_drop]; exact h
      obtain ⟨s', g1, g2⟩ := insert_ok h' v d.1 d.2 (Nat.le_of_lt_succ d.1.2)
      rw [hA] at g1
      refine ⟨s', _, by rw [g1]; rfl, ?_, g2.weaken (fun h => h.1)⟩
      simp [vals, List.map_append]
    · rw [if_neg hi]
      refine ⟨fun _ => ?_, by simp⟩
      unfold SkipList.insert
      rw [if_neg (by rw [hlen]; exact hi)]; rfl
  have hrem : ∀ i, (removeAt (vals T) i = none → (s.remove i).map (fun (s, v) => (s, SeqRes.val v)) = none) ∧
      ∀ l' r, removeAt (vals T) i = some (l', r) → ∃ s' T', (s.remove i).map (fun (s, v) => (s, SeqRes.val v)) = some (s', r) ∧
        vals T' = l' ∧ Good (ex ∧ true = false) s' T' := by
    intro i
    unfold removeAt
    by_cases hi : i < T.length
    · have hA : (T.take i).length = i := by simp; omega
      have e : T = T.take i ++ T[i] :: T.drop (i + 1) := by rw [List.getElem_cons_drop, List.take_append_drop]
      have h' := h
      rw [e] at h'
      obtain ⟨s', g1, g2⟩ := remove_ok h'
      rw [hA] at g1
      have hv : (vals T)[i]? = some T[i].e := by simp [vals, hi]
      rw [hv]
      refine ⟨by simp, ?_⟩
      intro l' r e
      simp only [Option.some.injEq, Prod.mk.injEq] at e
      obtain ⟨rfl, rfl⟩ := e
      exact ⟨s', _, by rw [g1]; rfl, by simp [vals, List.map_append], g2.weaken (fun h => by simp at h)⟩
    · have hv : (vals T)[i]? = none := by simp [vals]; omega
      rw [hv]
      refine ⟨fun _ => ?_, by simp⟩
      unfold SkipList.remove
      rw [if_neg (by rw [hlen]; exact hi)]; rfl
  have hgetv : ∀ i : Nat, T[i]?.map (fun t : Tower V => t.e) = (vals T)[i]? := fun i => by simp [vals]
  cases op with
  | insert i v => exact hins i v
  | remove i => exact hrem i
  | pushFront v =>
    have := hins 0 v
    have e : insertAt (vals T) 0 v = some (v :: vals T, .unit) := by simp [insertAt]
    rw [e] at this
    exact this
  | pushBack v =>
    have := hins s.len v
    have e : insertAt (vals T) s.len v = some (vals T ++ [v], .unit) := by
      rw [hlen, ← hvl]; simp only [insertAt, Nat.le_refl, if_true, List.take_length, List.drop_length]
    rw [e] at this
    exact this
  | popFront => exact hrem 0
  | popBack =>
    simp only [step, SeqOp.exec, hlen]
    cases T with
    | nil => simp [sub, vals]
    | cons t T =>
      have e : sub (t :: T).length 1 = some T.length := by simp [sub]
      have := hrem T.length
      rw [e]
      have e2 : (vals (t :: T)).length - 1 = T.length := by simp [vals]
      rw [e2, if_neg (by simp [vals])]
      exact this
  | get i =>
    refine ⟨by simp [SeqOp.exec], fun l' r e => ?_⟩
    simp only [SeqOp.exec, Option.some.injEq, Prod.mk.injEq] at e
    obtain ⟨rfl, rfl⟩ := e
    exact ⟨s, T, by simp only [step, get_ok h, hgetv]; rfl, rfl, hsame⟩
  | index i =>
    simp only [SeqOp.exec, step, get_ok h, hgetv, Option.bind_some]
    refine ⟨fun e => ?_, fun l' r e => ?_⟩
    · cases hx : (vals T)[i]? with
      | none => rfl
      | some v => rw [hx] at e; simp at e
    · cases hx : (vals T)[i]? with
      | none => rw [hx] at e; simp at e
      | some v =>
        rw [hx] at e
        simp only [Option.map_some, Option.some.injEq, Prod.mk.injEq] at e
        obtain ⟨rfl, rfl⟩ := e
        exact ⟨s, T, rfl, rfl, hsame⟩
  | getMut i f =>
    refine ⟨by simp [SeqOp.exec], fun l' r e => ?_⟩
    simp only [SeqOp.exec, Option.some.injEq, Prod.mk.injEq] at e
    obtain ⟨rfl, rfl⟩ := e
    obtain ⟨s', T', g1, g2, g3⟩ := getMut_ok h i f
    exact ⟨s', T', by simp only [step, g1]; rfl, g3, g2.weaken (fun h => h.1)⟩
  | len =>
    refine ⟨by simp [SeqOp.exec], fun l' r e => ?_⟩
    simp only [SeqOp.exec, Option.some.injEq, Prod.mk.injEq] at e
    obtain ⟨rfl, rfl⟩ := e
    exact ⟨s, T, by simp only [step, hlen, hvl], rfl, hsame⟩
  | isEmpty =>
    refine ⟨by simp [SeqOp.exec], fun l' r e => ?_⟩
    simp only [SeqOp.exec, Option.some.injEq, Prod.mk.injEq] at e
    obtain ⟨rfl, rfl⟩ := e
    exact ⟨s, T, by cases T <;> simp [step, hlen, vals], rfl, hsame⟩
  | clear =>
    refine ⟨by simp [SeqOp.exec], fun l' r e => ?_⟩
    simp only [SeqOp.exec, Option.some.injEq, Prod.mk.injEq] at e
    obtain ⟨rfl, rfl⟩ := e
    obtain ⟨s', g1, g2⟩ := clear_ok h
    exact ⟨s', [], by simp only [step, g1]; rfl, rfl, g2.weaken (fun _ => trivial)⟩
  | iter n =>
    refine ⟨by simp [SeqOp.exec], fun l' r e => ?_⟩
    simp only [SeqOp.exec, Option.some.injEq, Prod.mk.injEq] at e
    obtain ⟨rfl, rfl⟩ := e
    obtain ⟨d, h1⟩ := bottom_first h.1
    have h2 := iterate_ok n [] T (by simpa using h.1)
    refine ⟨s, T, ?_, rfl, hsame⟩
    simp only [step, SkipList.iter, h1, Option.bind_eq_bind, Option.bind_some, h2]
    rfl
  | iterMut fs =>
    refine ⟨by simp [SeqOp.exec], fun l' r e => ?_⟩
    simp only [SeqOp.exec, Option.some.injEq, Prod.mk.injEq] at e
    obtain ⟨rfl, rfl⟩ := e
    obtain ⟨d, h1⟩ := bottom_first h.1
    obtain ⟨m, h2, h3⟩ := iterateMut_ok fs [] T (by simpa using h)
    refine ⟨{ s with mem := m }, updT fs T, ?_, vals_updT fs T, by simpa using h3.weaken (fun h : ex ∧ _ => h.1)⟩
    simp only [step, SkipList.iterMut, h1, Option.bind_eq_bind, Option.bind_some, h2]
    rfl

/-- The simulation of `SkipList` by lists. -/
def sim (V : Type) (a : Addr) : SeqSim (impl V a) where
  rel s l := ∃ T, Good False s T ∧ vals T = l
  empty := ⟨[], (good_new a).weaken False.elim, rfl⟩
  step := by
    rintro s l op d ⟨T, h, rfl⟩
    obtain ⟨h1, h2⟩ := step_ok h op d
    simp only [impl]
    cases he : op.exec (vals T) with
    | none =>
      rw [h1 he]
      exact ⟨rfl, by simp⟩
    | some p =>
      obtain ⟨l', r⟩ := p
      obtain ⟨s', T', g1, g2, g3⟩ := h2 l' r he
      rw [g1]
      refine ⟨rfl, ?_⟩
      intro s2 r2 l2 r2' e1 e2
      simp only [Option.some.injEq, Prod.mk.injEq] at e1 e2
      obtain ⟨rfl, _⟩ := e1
      obtain ⟨rfl, _⟩ := e2
      exact ⟨T', g3.weaken (fun h => h.elim), g2⟩

end Verif.Skip.Lst
