/- The number of links a call of a skip list reads on its way to an index: the code with a counter, and its value
in terms of the heights of the nodes. -/
import Verif.Skip.ListSim
import Verif.Lib.Coins
import Mathlib.Algebra.Order.BigOperators.Group.Finset
import Mathlib.Algebra.BigOperators.Ring.Finset
import Mathlib.Tactic.ByContra

namespace Verif.Skip.Lst

open Verif.Spec Verif.Coins

variable {V : Type}

/-! ### The searches, counting the links they read -/

/-- `walk` (list.rs:154-160, 210-215, 331-336, 371-376), with the number of links its condition looked at. -/
def walkC (m : LHeap V) (i : Nat) : Nat → Addr → Nat → Nat → Option (Nat × Cursor)
  | 0, _, _, _ => none
  | f + 1, cur, index, walked =>
    match getLink m cur i with
    | none => none
    | some ⟨none, d⟩ => some (1, ⟨cur, index, walked, ⟨none, d⟩⟩)
    | some ⟨some b, d⟩ =>
      if d ≤ index then (walkC m i f b (index - d) (walked + d)).map fun r => (r.1 + 1, r.2)
      else some (1, ⟨cur, index, walked, ⟨some b, d⟩⟩)

/-- `insertDown` (list.rs:153-178) with the links read. -/
def insertDownC (fuel : Nat) (new : Addr) (nh : Nat) : Nat → LHeap V → Addr → Nat → List (Addr × Nat) →
    Option (Nat × LHeap V × List (Addr × Nat))
  | i, m, cur, index, acc =>
    match walkC m i fuel cur index 0 with
    | none => none
    | some (n, c) =>
      match linkNew new nh i c m with
      | none => none
      | some m =>
        match i with
        | 0 => some (n, m, (c.cur, c.walked) :: acc)
        | i + 1 => (insertDownC fuel new nh i m c.cur c.index ((c.cur, c.walked) :: acc)).map fun r => (n + r.1, r.2)

/-- `insert` (list.rs:143-190) with the links read on the way down; the way up (180-188) adjusts two links on each of
the 32 upper levels. -/
def SkipList.insertC (s : SkipList V) (index : Nat) (value : V) (nh off : Nat) : Option (Nat × SkipList V) :=
  if index ≤ s.len then do
    let new := s.bump + off
    let mem := s.mem.put new ⟨some value, List.replicate (nh + 1) .zero⟩
    let (n, mem, last) ← insertDownC (s.len + 1) new nh maxHeight mem s.head index []
    match last with
    | [] => none
    | (_, w) :: rest =>
      let mem ← fixUp new nh 1 w rest mem
      return (n, ⟨mem, s.head, s.len + 1, new + 1⟩)
  else none

/-- `removeDown` (list.rs:209-234) with the links read. -/
def removeDownC (fuel : Nat) : Nat → LHeap V → Addr → Nat → Option (Nat × LHeap V × V)
  | i, m, cur, index =>
    match walkC m i fuel cur index 0 with
    | none => none
    | some (n, c) =>
      match unlink i c m with
      | none => none
      | some (m, o) =>
        match i, o with
        | 0, none => none
        | 0, some b => do
          let v ← entryAt m b
          let m ← m.free b
          return (n, m, v)
        | i + 1, _ => (removeDownC fuel i m c.cur c.index).map fun r => (n + r.1, r.2)

/-- `remove` (list.rs:203-236) with the links read. -/
def SkipList.removeC (s : SkipList V) (index : Nat) : Option (Nat × SkipList V × V) :=
  if index < s.len then do
    let (n, m, v) ← removeDownC (s.len + 1) maxHeight s.mem s.head index
    let k ← sub s.len 1
    return (n, ⟨m, s.head, k, s.bump⟩, v)
  else none

/-- `lookup` (list.rs:325-350, 365-390) with the links read. -/
def lookupC (m : LHeap V) (fuel : Nat) : Nat → Addr → Nat → Option (Nat × Option Addr)
  | i, cur, index =>
    match walkC m i fuel cur index 0 with
    | none => none
    | some (n, c) =>
      match c.link.next, decide (c.link.dist = c.index + 1), i with
      | some b, true, _ => some (n, some b)
      | _, _, 0 => some (n, none)
      | _, _, i + 1 => (lookupC m fuel i c.cur c.index).map fun r => (n + r.1, r.2)

/-- `get` (list.rs:325-350) with the links read. -/
def SkipList.getC (s : SkipList V) (index : Nat) : Option (Nat × Option V) := do
  let (n, o) ← lookupC s.mem (s.len + 1) maxHeight s.head index
  match o with
  | none => some (n, none)
  | some b => (entryAt s.mem b).map fun v => (n, some v)

/-- `get_mut` (list.rs:365-390) with the links read. -/
def SkipList.getMutC (s : SkipList V) (index : Nat) (f : V → V) : Option (Nat × SkipList V × Option V) := do
  let (n, o) ← lookupC s.mem (s.len + 1) maxHeight s.head index
  match o with
  | none => some (n, s, none)
  | some b => (modifyAt s.mem b f).map fun (m, v) => (n, { s with mem := m }, some v)

/-- `step`, with the number of links read on the way to the index.  `len`, `is_empty`, `clear`, `iter` and `iter_mut`
do not search for an index. -/
def stepC (s : SkipList V) : SeqOp V → Draw → Option (Nat × SkipList V × SeqRes V)
  | .insert i v, d => (s.insertC i v d.1 d.2).map fun (n, s) => (n, s, .unit)
  | .remove i, _ => (s.removeC i).map fun (n, s, v) => (n, s, .val v)
  | .pushFront v, d => (s.insertC 0 v d.1 d.2).map fun (n, s) => (n, s, .unit)
  | .pushBack v, d => (s.insertC s.len v d.1 d.2).map fun (n, s) => (n, s, .unit)
  | .popFront, _ => (s.removeC 0).map fun (n, s, v) => (n, s, .val v)
  | .popBack, _ => (sub s.len 1).bind fun i => (s.removeC i).map fun (n, s, v) => (n, s, .val v)
  | .get i, _ => (s.getC i).map fun (n, o) => (n, s, .opt o)
  | .index i, _ => (s.getC i).bind fun (n, o) => o.map fun v => (n, s, .val v)
  | .getMut i f, _ => (s.getMutC i f).map fun (n, s, o) => (n, s, .opt o)
  | .len, d => (step s .len d).map fun r => (0, r)
  | .isEmpty, d => (step s .isEmpty d).map fun r => (0, r)
  | .clear, d => (step s .clear d).map fun r => (0, r)
  | .iter n, d => (step s (.iter n) d).map fun r => (0, r)
  | .iterMut fs, d => (step s (.iterMut fs) d).map fun r => (0, r)

/-! ### The counter changes nothing else -/

theorem walkC_erase (m : LHeap V) (i fuel : Nat) (cur : Addr) (idx w : Nat) :
    (walkC m i fuel cur idx w).map (·.2) = walk m i fuel cur idx w := by
  induction fuel generalizing cur idx w with
  | zero => rfl
  | succ f ih =>
    unfold walkC walk
    cases getLink m cur i with
    | none => rfl
    | some l =>
      obtain ⟨o, d⟩ := l
      cases o with
      | none => rfl
      | some b =>
        dsimp only
        split
        · rw [← ih, Option.map_map]; rfl
        · rfl

theorem insertDownC_erase (fuel : Nat) (new : Addr) (nh i : Nat) (m : LHeap V) (cur : Addr) (idx : Nat)
    (acc : List (Addr × Nat)) :
    (insertDownC fuel new nh i m cur idx acc).map (·.2) = insertDown fuel new nh i m cur idx acc := by
  induction i generalizing m cur idx acc with
  | zero =>
    rw [insertDownC.eq_def, insertDown.eq_def]
    dsimp only
    rw [← walkC_erase]
    cases walkC m 0 fuel cur idx 0 with
    | none => rfl
    | some r =>
      dsimp only [Option.map_some]
      cases linkNew new nh 0 r.2 m <;> rfl
  | succ i ih =>
    rw [insertDownC.eq_def, insertDown.eq_def]
    dsimp only
    rw [← walkC_erase]
    cases walkC m (i + 1) fuel cur idx 0 with
    | none => rfl
    | some r =>
      dsimp only [Option.map_some]
      cases linkNew new nh (i + 1) r.2 m with
      | none => rfl
      | some m' =>
        dsimp only
        rw [← ih, Option.map_map]; rfl

theorem insertC_erase (s : SkipList V) (idx : Nat) (v : V) (nh off : Nat) :
    (s.insertC idx v nh off).map (·.2) = s.insert idx v nh off := by
  unfold SkipList.insertC SkipList.insert
  split
  · dsimp only
    rw [← insertDownC_erase]
    cases insertDownC (s.len + 1) (s.bump + off) nh maxHeight
      (s.mem.put (s.bump + off) ⟨some v, List.replicate (nh + 1) .zero⟩) s.head idx [] with
    | none => rfl
    | some r =>
      obtain ⟨n, m, last⟩ := r
      simp only [Option.bind_eq_bind, Option.bind_some, Option.map_some]
      cases last with
      | nil => rfl
      | cons x rest =>
        dsimp only
        cases fixUp (s.bump + off) nh 1 x.2 rest m <;> rfl
  · rfl

theorem removeDownC_erase (fuel i : Nat) (m : LHeap V) (cur : Addr) (idx : Nat) :
    (removeDownC fuel i m cur idx).map (·.2) = removeDown fuel i m cur idx := by
  induction i generalizing m cur idx with
  | zero =>
    rw [removeDownC.eq_def, removeDown.eq_def]
    dsimp only
    rw [← walkC_erase]
    cases walkC m 0 fuel cur idx 0 with
    | none => rfl
    | some r =>
      dsimp only [Option.map_some]
      cases unlink 0 r.2 m with
      | none => rfl
      | some q =>
        obtain ⟨m', o⟩ := q
        cases o with
        | none => rfl
        | some b =>
          simp only [Option.bind_eq_bind]
          cases entryAt m' b with
          | none => rfl
          | some v =>
            simp only [Option.bind_some]
            cases m'.free b <;> rfl
  | succ i ih =>
    rw [removeDownC.eq_def, removeDown.eq_def]
    dsimp only
    rw [← walkC_erase]
    cases walkC m (i + 1) fuel cur idx 0 with
    | none => rfl
    | some r =>
      dsimp only [Option.map_some]
      cases unlink (i + 1) r.2 m with
      | none => rfl
      | some q =>
        obtain ⟨m', o⟩ := q
        dsimp only
        rw [← ih, Option.map_map]; rfl

theorem removeC_erase (s : SkipList V) (idx : Nat) : (s.removeC idx).map (·.2) = s.remove idx := by
  unfold SkipList.removeC SkipList.remove
  split
  · rw [← removeDownC_erase]
    cases removeDownC (s.len + 1) maxHeight s.mem s.head idx with
    | none => rfl
    | some r =>
      simp only [Option.bind_eq_bind, Option.bind_some, Option.map_some]
      cases sub s.len 1 <;> rfl
  · rfl

theorem lookupC_erase (m : LHeap V) (fuel i : Nat) (cur : Addr) (idx : Nat) :
    (lookupC m fuel i cur idx).map (·.2) = lookup m fuel i cur idx := by
  induction i generalizing cur idx with
  | zero =>
    rw [lookupC.eq_def, lookup.eq_def]
    dsimp only
    rw [← walkC_erase]
    cases walkC m 0 fuel cur idx 0 with
    | none => rfl
    | some r =>
      dsimp only [Option.map_some]
      cases r.2.link.next with
      | none => rfl
      | some b => cases decide (r.2.link.dist = r.2.index + 1) <;> rfl
  | succ i ih =>
    rw [lookupC.eq_def, lookup.eq_def]
    dsimp only
    rw [← walkC_erase]
    cases walkC m (i + 1) fuel cur idx 0 with
    | none => rfl
    | some r =>
      dsimp only [Option.map_some]
      cases r.2.link.next with
      | none => dsimp only; rw [← ih, Option.map_map]; rfl
      | some b =>
        cases decide (r.2.link.dist = r.2.index + 1) with
        | true => rfl
        | false => dsimp only; rw [← ih, Option.map_map]; rfl

theorem getC_erase (s : SkipList V) (idx : Nat) : (s.getC idx).map (·.2) = s.get idx := by
  unfold SkipList.getC SkipList.get
  rw [← lookupC_erase]
  cases lookupC s.mem (s.len + 1) maxHeight s.head idx with
  | none => rfl
  | some r =>
    obtain ⟨n, o⟩ := r
    cases o with
    | none => rfl
    | some b =>
      simp only [Option.bind_eq_bind, Option.bind_some, Option.map_some, Option.map_map]
      rfl

theorem getMutC_erase (s : SkipList V) (idx : Nat) (f : V → V) : (s.getMutC idx f).map (·.2) = s.getMut idx f := by
  unfold SkipList.getMutC SkipList.getMut
  rw [← lookupC_erase]
  cases lookupC s.mem (s.len + 1) maxHeight s.head idx with
  | none => rfl
  | some r =>
    obtain ⟨n, o⟩ := r
    cases o with
    | none => rfl
    | some b =>
      simp only [Option.bind_eq_bind, Option.bind_some, Option.map_some, Option.map_map]
      rfl

/-- The counting code does what the code does. -/
theorem stepC_erase (s : SkipList V) (op : SeqOp V) (d : Draw) : (stepC s op d).map (·.2) = step s op d := by
  cases op with
  | insert i v => simp only [stepC, step, ← insertC_erase, Option.map_map]; rfl
  | remove i => simp only [stepC, step, ← removeC_erase, Option.map_map]; rfl
  | pushFront v => simp only [stepC, step, ← insertC_erase, Option.map_map]; rfl
  | pushBack v => simp only [stepC, step, ← insertC_erase, Option.map_map]; rfl
  | popFront => simp only [stepC, step, ← removeC_erase, Option.map_map]; rfl
  | popBack =>
    simp only [stepC, step, ← removeC_erase]
    cases sub s.len 1 with
    | none => rfl
    | some i => simp only [Option.bind_some, Option.map_map]; rfl
  | get i => simp only [stepC, step, ← getC_erase, Option.map_map]; rfl
  | index i =>
    simp only [stepC, step, ← getC_erase]
    cases s.getC i with
    | none => rfl
    | some r =>
      obtain ⟨n, o⟩ := r
      cases o <;> rfl
  | getMut i f => simp only [stepC, step, ← getMutC_erase, Option.map_map]; rfl
  | len => simp only [stepC, Option.map_map]; exact Option.map_id'
  | isEmpty => simp only [stepC, Option.map_map]; exact Option.map_id'
  | clear => simp only [stepC, Option.map_map]; exact Option.map_id'
  | iter n => simp only [stepC, Option.map_map]; exact Option.map_id'
  | iterMut fs => simp only [stepC, Option.map_map]; exact Option.map_id'

/-! ### The links read in terms of the heights -/

/-- The drawn height of a tower. -/
def dh (t : Tower V) : Nat := t.h - 1

/-- What is left to walk on level `i` when the search comes from level `i + 1`. -/
theorem cur_downP' (i k : Nat) (x : Addr × Nat) (A : List (Tower V)) (hp : ∀ t ∈ A, 0 < t.h) :
    ∃ P1 P2, lvp i k A = P1 ++ P2 ∧ lastP x (lvp (i + 1) k A) = lastP x P1 ∧ P2.length = tail i (A.map dh) ∧
      (P1 = [] ↔ lvp (i + 1) k A = []) := by
  induction A generalizing x k with
  | nil => exact ⟨[], [], rfl, rfl, rfl, by simp⟩
  | cons t A ih =>
    have hp' : ∀ t ∈ A, 0 < t.h := fun x hx => hp x (by simp [hx])
    have ht := hp t (by simp)
    by_cases h1 : i + 1 < t.h
    · obtain ⟨P1, P2, h, h', h2, _⟩ := ih (k + 1) (t.addr, k + 1) hp'
      rw [lvp_pos h1, lvp_pos (by omega : i < t.h), h]
      refine ⟨(t.addr, k + 1) :: P1, P2, rfl, h', ?_, by simp⟩
      rw [h2, List.map_cons, tail, if_neg (by simp only [dh]; omega)]
      rfl
    · rw [lvp_neg h1]
      obtain ⟨P1, P2, h, h', h4, h5⟩ := ih (k + 1) x hp'
      have hall : (∀ b ∈ A.map dh, b ≤ i) ↔ lvp (i + 1) (k + 1) A = [] := by
        constructor
        · intro hb
          exact lvp_top _ fun u hu => by
            have := hb (dh u) (List.mem_map.2 ⟨u, hu, rfl⟩)
            simp only [dh] at this
            omega
        · intro hb y hy
          obtain ⟨u, hu, rfl⟩ := List.mem_map.1 hy
          by_contra hc
          have hu' : i + 1 < u.h := by simp only [dh] at hc; omega
          clear h h' h4 h5 ih hp hp'
          generalize k + 1 = q at hb
          induction A generalizing q with
          | nil => simp at hu
          | cons z A ihA =>
            rcases List.mem_cons.1 hu with rfl | hu
            · rw [lvp_pos hu'] at hb; simp at hb
            · by_cases hz : i + 1 < z.h
              · rw [lvp_pos hz] at hb; simp at hb
              · rw [lvp_neg hz] at hb
                exact ihA hu (List.mem_map.2 ⟨u, hu, rfl⟩) (q + 1) hb
      by_cases h2 : i < t.h
      · rw [lvp_pos h2, h]
        by_cases h3 : P1 = []
        · subst h3
          refine ⟨[], (t.addr, k + 1) :: P2, rfl, h', ?_, h5⟩
          rw [List.map_cons, tail, if_pos ⟨by simp only [dh]; omega, hall.2 (h5.1 rfl)⟩, ← h4]
          rfl
        · refine ⟨(t.addr, k + 1) :: P1, P2, rfl, ?_, ?_, ?_⟩
          · rw [h']
            cases P1 with
            | nil => exact absurd rfl h3
            | cons b P => rfl
          · rw [List.map_cons, tail, if_neg fun hc => h3 (h5.2 (hall.1 hc.2)), ← h4]
            rfl
          · simp only [reduceCtorEq, false_iff]
            exact fun hc => h3 (h5.2 hc)
      · rw [lvp_neg h2]
        refine ⟨P1, P2, h, h', ?_, h5⟩
        rw [List.map_cons, tail, if_neg (by simp only [dh]; omega), ← h4]
        rfl

theorem walkC_ok {m : LHeap V} {i : Nat} {ex : Prop} {n idx : Nat} {x : Addr × Nat} {P Q : List (Addr × Nat)} {fuel w : Nat}
    (hc : ChainP (lk m i) ex n x (P ++ Q)) (hx : x.2 ≤ idx) (hP : ∀ y ∈ P, y.2 ≤ idx) (hQ : ∀ y ∈ Q, idx < y.2)
    (hf : P.length < fuel) :
    ∃ c, walkC m i fuel x.1 (idx - x.2) w = some (P.length + 1, c) := by
  induction P generalizing x fuel w with
  | nil =>
    obtain ⟨f, rfl⟩ : ∃ f, fuel = f + 1 := ⟨fuel - 1, by simp at hf; omega⟩
    cases Q with
    | nil =>
      obtain ⟨d, h1, h2, h3⟩ := hc
      have h1' : getLink m x.1 i = some ⟨none, d⟩ := h1
      simp [walkC, h1']
    | cons y Q =>
      obtain ⟨d, h1, h2, h3⟩ := hc
      have := hQ y (by simp)
      have h1' : getLink m x.1 i = some ⟨some y.1, d⟩ := h1
      have hnd : ¬ d ≤ idx - x.2 := by omega
      simp [walkC, h1', hnd]
  | cons y P ih =>
    obtain ⟨f, rfl⟩ : ∃ f, fuel = f + 1 := ⟨fuel - 1, by simp at hf; omega⟩
    obtain ⟨d, h1, h2, h3⟩ := hc
    have hy := hP y (by simp)
    have h1' : getLink m x.1 i = some ⟨some y.1, d⟩ := h1
    obtain ⟨c, g⟩ := ih (x := y) (fuel := f) (w := w + d) h3 hy (fun z hz => hP z (by simp [hz])) (by simp at hf; omega)
    have hd : d ≤ idx - x.2 := by omega
    have e : idx - x.2 - d = idx - y.2 := by omega
    exact ⟨c, by simp only [walkC, h1', hd, if_true, e, g]; rfl⟩

/-- The links read on level `i`. -/
theorem walkC_level {m : LHeap V} {head : Addr} {A B : List (Tower V)} {i fuel idx n w : Nat} {ex : Prop}
    (hch : ChainP (lk m i) ex n (head, 0) (lvp i 0 (A ++ B))) (hA : A.length ≤ idx) (hB : B = [] ∨ A.length = idx)
    (hp : ∀ t ∈ A, 0 < t.h) (hf : A.length < fuel) :
    ∃ l, getLink m (lst head A i).1 i = some l ∧
      walkC m i fuel (lst head A (i + 1)).1 (idx - (lst head A (i + 1)).2) w =
        some (tail i (A.map dh) + 1,
          ⟨(lst head A i).1, idx - (lst head A i).2, w + ((lst head A i).2 - (lst head A (i + 1)).2), l⟩) := by
  obtain ⟨l, g1, g2⟩ := walk_level (w := w) hch hA hB hf
  refine ⟨l, g1, ?_⟩
  obtain ⟨P1, P2, h1, h2, h3, _⟩ := cur_downP' i 0 (head, 0) A hp
  have hmem : ∀ y ∈ P1 ++ P2, y.2 ≤ idx := by
    intro y hy; rw [← h1] at hy; have := (mem_lvp hy).2.1; omega
  have hch' := hch
  rw [lvp_append, h1, List.append_assoc, chainP_append] at hch'
  have hlen := lvp_length_le i 0 A
  rw [h1, List.length_append] at hlen
  have hx : (lastP (head, 0) P1).2 ≤ idx := by
    rcases List.mem_cons.1 (lastP_mem (head, 0) P1) with h | h
    · rw [h]; omega
    · exact hmem _ (by simp [h])
  obtain ⟨c, g⟩ := walkC_ok (w := w) (fuel := fuel) (idx := idx) hch'.2 hx
    (fun y hy => hmem y (by simp [hy])) (fun y hy => by
      have h3 := (mem_lvp hy).1
      rcases hB with h4 | h4
      · subst h4; simp at hy
      · omega) (by omega)
  have e2 : lst head A (i + 1) = lastP (head, 0) P1 := h2
  have h4 := walkC_erase m i fuel (lst head A (i + 1)).1 (idx - (lst head A (i + 1)).2) w
  rw [e2, g, Option.map_some] at h4
  rw [e2] at g2
  rw [g2] at h4
  simp only [Option.some.injEq] at h4
  rw [e2, g, h4, h3]

/-- The links read on the levels up to `i`, on the way past the towers `A`. -/
def cost (A : List (Tower V)) (i : Nat) : Nat := ∑ j ∈ Finset.range (i + 1), (tail j (A.map dh) + 1)

theorem cost_succ (A : List (Tower V)) (i : Nat) : cost A (i + 1) = tail (i + 1) (A.map dh) + 1 + cost A i := by
  unfold cost
  rw [Finset.sum_range_succ]
  exact Nat.add_comm _ _

theorem cost_zero (A : List (Tower V)) : cost A 0 = tail 0 (A.map dh) + 1 := by
  simp [cost]

theorem insertDownC_ok {m0 : LHeap V} {head new : Addr} {A B : List (Tower V)} {nh fuel n : Nat} {v : V} {ex : Prop}
    (hS : Sub (shape m0) head (A ++ B)) (hn : shape m0 new = some (some v, nh + 1)) (hnew : new ∉ head :: A.map (·.addr))
    (hch : ∀ i ≤ maxHeight, ChainP (lk m0 i) ex n (head, 0) (lvp i 0 (A ++ B))) (hf : A.length < fuel) :
    ∀ (i : Nat) (m : LHeap V) (acc : List (Addr × Nat)), i ≤ maxHeight → shape m = shape m0 →
      (∀ a j, getLink m a j = if i < j then post1 m0 head A new nh j a else getLink m0 a j) →
      ∃ r, insertDownC fuel new nh i m (lst head A (i + 1)).1 (A.length - (lst head A (i + 1)).2) acc =
          some (cost A i, r) := by
  have hp : ∀ t ∈ A, 0 < t.h := fun t ht => (hS.pos t (by simp [ht])).1
  intro i
  induction i with
  | zero =>
    intro m acc hi hsh hm
    have hm0 : ∀ a, getLink m a 0 = getLink m0 a 0 := fun a => by rw [hm, if_neg (Nat.lt_irrefl _)]
    have hc : ChainP (lk m 0) ex n (head, 0) (lvp 0 0 (A ++ B)) := chainP_frame (hch 0 hi) fun y _ => hm0 y.1
    obtain ⟨l, g1, g2⟩ := walkC_level (w := 0) (idx := A.length) hc (Nat.le_refl _) (.inr rfl) hp hf
    obtain ⟨m', b1, -, -, -⟩ := linkNew_ok (m0 := m0) (c := ⟨(lst head A 0).1, A.length - (lst head A 0).2,
      0 + ((lst head A 0).2 - (lst head A (0 + 1)).2), l⟩) (by rw [hsh]; exact hS) (by rw [hsh]; exact hn) hnew hi hm0 rfl g1
    rw [insertDownC.eq_def]
    simp only [g2, b1, cost_zero]
    exact ⟨_, rfl⟩
  | succ i ih =>
    intro m acc hi hsh hm
    have hm0 : ∀ a, getLink m a (i + 1) = getLink m0 a (i + 1) := fun a => by rw [hm, if_neg (Nat.lt_irrefl _)]
    have hc : ChainP (lk m (i + 1)) ex n (head, 0) (lvp (i + 1) 0 (A ++ B)) := chainP_frame (hch _ hi) fun y _ => hm0 y.1
    obtain ⟨l, g1, g2⟩ := walkC_level (w := 0) (idx := A.length) hc (Nat.le_refl _) (.inr rfl) hp hf
    obtain ⟨m', b1, b2, b3, b4⟩ := linkNew_ok (m0 := m0) (c := ⟨(lst head A (i + 1)).1, A.length - (lst head A (i + 1)).2,
      0 + ((lst head A (i + 1)).2 - (lst head A (i + 1 + 1)).2), l⟩) (by rw [hsh]; exact hS) (by rw [hsh]; exact hn) hnew
      hi hm0 rfl g1
    obtain ⟨r, d1⟩ := ih m' (((lst head A (i + 1)).1, 0 + ((lst head A (i + 1)).2 - (lst head A (i + 1 + 1)).2)) :: acc)
      (by omega) (by rw [b2, hsh]) (by
      intro a j
      by_cases hj : j = i + 1
      · subst hj; rw [b3, if_pos (by omega)]
      · rw [b4 _ _ hj, hm]
        by_cases h2 : i + 1 < j
        · rw [if_pos h2, if_pos (by omega)]
        · rw [if_neg h2, if_neg (by omega)])
    rw [insertDownC.eq_def]
    simp only [g2, b1, d1, cost_succ]
    exact ⟨_, rfl⟩

/-- `insert` reads `cost A 32` links, where `A` are the nodes before the index. -/
theorem insertC_ok {ex : Prop} {s : SkipList V} {A B : List (Tower V)} (h : Good ex s (A ++ B)) (v : V) (nh off : Nat)
    (hnh : nh ≤ maxHeight) : ∃ s', s.insertC A.length v nh off = some (cost A maxHeight, s') := by
  obtain ⟨s', h1, -⟩ := insert_ok h v nh off hnh
  obtain ⟨hr, hlen, hb⟩ := h
  have h2 := insertC_erase s A.length v nh off
  rw [h1] at h2
  refine ⟨s', ?_⟩
  obtain ⟨new, hnewdef⟩ : ∃ n, n = s.bump + off := ⟨_, rfl⟩
  have hfree : s.mem new = none := hb _ (by rw [hnewdef]; exact Nat.le_add_right _ _)
  have hfresh : new ∉ s.head :: (A ++ B).map (·.addr) := by
    intro hc
    rcases List.mem_cons.1 hc with hc | hc
    · have := hr.sub.hd
      rw [← hc] at this
      simp [shape, hfree] at this
    · obtain ⟨t, ht, he⟩ := List.mem_map.1 hc
      have := hr.sub.tow t ht
      rw [he] at this
      simp [shape, hfree] at this
  have hfreshA : new ∉ s.head :: A.map (·.addr) := by
    intro hc; apply hfresh
    simp only [List.map_append, List.mem_cons, List.mem_append] at hc ⊢
    rcases hc with hc | hc
    · exact .inl hc
    · exact .inr (.inl hc)
  obtain ⟨mem0, hmem0⟩ : ∃ m, m = s.mem.put new ⟨some v, List.replicate (nh + 1) .zero⟩ := ⟨_, rfl⟩
  have hsh : ∀ a, shape mem0 a = if a = new then some (some v, nh + 1) else shape s.mem a := by
    intro a; rw [hmem0]; simp only [shape_put, List.length_replicate]
  have hgl : ∀ a j, a ≠ new → getLink mem0 a j = getLink s.mem a j := by
    intro a j ha; rw [hmem0]; simp only [getLink_put, if_neg ha]
  have hold : ∀ a ∈ s.head :: (A ++ B).map (·.addr), a ≠ new := fun a ha hc => hfresh (hc ▸ ha)
  have hS : Sub (shape mem0) s.head (A ++ B) := by
    refine ⟨by rw [hsh, if_neg (hold _ (by simp))]; exact hr.sub.hd, fun t ht => ?_, hr.sub.pos, hr.sub.nodup⟩
    rw [hsh, if_neg (hold _ (List.mem_cons_of_mem _ (List.mem_map.2 ⟨t, ht, rfl⟩)))]
    exact hr.sub.tow t ht
  have hnS : shape mem0 new = some (some v, nh + 1) := by rw [hsh, if_pos rfl]
  have hch : ∀ i ≤ maxHeight, ChainP (lk mem0 i) ex (A ++ B).length (s.head, 0) (lvp i 0 (A ++ B)) := by
    intro i hi
    refine chainP_frame (hr.chain i hi) fun y hy => ?_
    refine hgl _ _ (hold _ ?_)
    rcases List.mem_cons.1 hy with rfl | hy
    · simp
    · exact List.mem_cons_of_mem _ ((lvp_sublist i 0 _).mem (List.mem_map.2 ⟨y, hy, rfl⟩))
  have htop := hS.lst_top
  obtain ⟨r, a1⟩ := insertDownC_ok (fuel := s.len + 1) hS hnS hfreshA hch (by rw [hlen]; simp; omega) maxHeight mem0 []
    (Nat.le_refl _) rfl (by
      intro a j
      split
      · rename_i hj
        rw [post1, if_neg (by omega)]
      · rfl)
  rw [htop] at a1
  simp only [Nat.sub_zero] at a1
  have hc : ∀ p, s.insertC A.length v nh off = some p → p.1 = cost A maxHeight := by
    intro p hp
    unfold SkipList.insertC at hp
    rw [if_pos (by rw [hlen]; simp)] at hp
    simp only [← hnewdef, ← hmem0, a1, Option.bind_eq_bind, Option.bind_some] at hp
    obtain ⟨m, last⟩ := r
    cases last with
    | nil => simp at hp
    | cons x rest =>
      simp only at hp
      cases hq : fixUp new nh 1 x.2 rest m with
      | none => rw [hq] at hp; simp at hp
      | some m' =>
        rw [hq] at hp
        simp only [Option.bind_some, Option.pure_def, Option.some.injEq] at hp
        rw [← hp]
  cases hq : s.insertC A.length v nh off with
  | none => rw [hq] at h2; simp at h2
  | some p =>
    have h3 := hc p hq
    rw [hq] at h2
    simp only [Option.map_some, Option.some.injEq] at h2
    rw [← h2, ← h3]

theorem removeDownC_ok {m0 : LHeap V} {head : Addr} {A B : List (Tower V)} {t : Tower V} {n fuel : Nat} {ex : Prop}
    (hS : Sub (shape m0) head (A ++ t :: B)) (hch : ∀ i ≤ maxHeight, ChainP (lk m0 i) ex n (head, 0) (lvp i 0 (A ++ t :: B)))
    (hf : A.length < fuel) :
    ∀ (i : Nat) (m : LHeap V), i ≤ maxHeight → shape m = shape m0 →
      (∀ a j, j ≤ maxHeight → getLink m a j = if i < j then post3 m0 head A t j a else getLink m0 a j) →
      ∃ r, removeDownC fuel i m (lst head A (i + 1)).1 (A.length - (lst head A (i + 1)).2) = some (cost A i, r) := by
  have hp : ∀ t ∈ A, 0 < t.h := fun t ht => (hS.pos t (by simp [ht])).1
  intro i
  induction i with
  | zero =>
    intro m hi hsh hm
    have hm0 : ∀ a, getLink m a 0 = getLink m0 a 0 := fun a => by rw [hm _ _ hi, if_neg (Nat.lt_irrefl _)]
    have hc : ChainP (lk m 0) ex n (head, 0) (lvp 0 0 (A ++ t :: B)) := chainP_frame (hch 0 hi) fun y _ => hm0 y.1
    obtain ⟨l, g1, g2⟩ := walkC_level (w := 0) (idx := A.length) hc (Nat.le_refl _) (.inr rfl) hp hf
    obtain ⟨m', o, b1, b2, b3, b4, b5⟩ := unlink_ok (m0 := m0) (m := m) (c := ⟨(lst head A 0).1, A.length - (lst head A 0).2,
      0 + ((lst head A 0).2 - (lst head A (0 + 1)).2), l⟩) (by rw [hsh]; exact hS) (hch 0 hi) hi hm0 rfl rfl g1
    obtain rfl := b3 rfl
    have hsm : shape m' t.addr = some (some t.e, t.h) := by rw [b2, hsh]; exact hS.tow t (by simp)
    obtain ⟨m2, c1, c2, c3⟩ := free_ok hsm
    rw [removeDownC.eq_def]
    simp only [g2, b1, entryAt_of_shape hsm, Option.bind_eq_bind, Option.bind_some, c1, cost_zero]
    exact ⟨_, rfl⟩
  | succ i ih =>
    intro m hi hsh hm
    have hm0 : ∀ a, getLink m a (i + 1) = getLink m0 a (i + 1) := fun a => by rw [hm _ _ hi, if_neg (Nat.lt_irrefl _)]
    have hc : ChainP (lk m (i + 1)) ex n (head, 0) (lvp (i + 1) 0 (A ++ t :: B)) := chainP_frame (hch _ hi) fun y _ => hm0 y.1
    obtain ⟨l, g1, g2⟩ := walkC_level (w := 0) (idx := A.length) hc (Nat.le_refl _) (.inr rfl) hp hf
    obtain ⟨m', o, b1, b2, b3, b4, b5⟩ := unlink_ok (m0 := m0) (m := m) (c := ⟨(lst head A (i + 1)).1,
      A.length - (lst head A (i + 1)).2, 0 + ((lst head A (i + 1)).2 - (lst head A (i + 1 + 1)).2), l⟩)
      (by rw [hsh]; exact hS) (hch _ hi) hi hm0 rfl rfl g1
    obtain ⟨r, d1⟩ := ih m' (by omega) (by rw [b2, hsh]) (by
      intro a j hj'
      by_cases hj : j = i + 1
      · subst hj; rw [b4, if_pos (by omega)]
      · rw [b5 _ _ hj, hm _ _ hj']
        by_cases h2 : i + 1 < j
        · rw [if_pos h2, if_pos (by omega)]
        · rw [if_neg h2, if_neg (by omega)])
    rw [removeDownC.eq_def]
    simp only [g2, b1, d1, cost_succ]
    exact ⟨_, rfl⟩

/-- `remove` reads `cost A 32` links, where `A` are the nodes before the index. -/
theorem removeC_ok {ex : Prop} {s : SkipList V} {A B : List (Tower V)} {t : Tower V} (h : Good ex s (A ++ t :: B)) :
    ∃ r, s.removeC A.length = some (cost A maxHeight, r) := by
  obtain ⟨hr, hlen, hb⟩ := h
  have hS := hr.sub
  have htop := hS.lst_top
  obtain ⟨r, a1⟩ := removeDownC_ok (m0 := s.mem) (fuel := s.len + 1) hS hr.chain (by rw [hlen]; simp; omega) maxHeight s.mem
    (Nat.le_refl _) rfl (fun a j hj => by rw [if_neg (by omega)])
  rw [htop] at a1
  simp only [Nat.sub_zero] at a1
  unfold SkipList.removeC
  rw [if_pos (by rw [hlen]; simp), a1]
  have e : sub s.len 1 = some (s.len - 1) := by rw [sub, if_pos (by rw [hlen]; simp; omega)]
  simp only [Option.bind_eq_bind, Option.bind_some, e]
  exact ⟨_, rfl⟩

theorem lookupC_ok {m : LHeap V} {head : Addr} {A B : List (Tower V)} {n fuel idx : Nat} {ex : Prop}
    (hS : Sub (shape m) head (A ++ B)) (hch : ∀ i ≤ maxHeight, ChainP (lk m i) ex n (head, 0) (lvp i 0 (A ++ B)))
    (hA : A.length ≤ idx) (hB : B = [] ∨ A.length = idx) (hf : A.length < fuel) :
    ∀ i : Nat, i ≤ maxHeight →
      ∃ c o, lookupC m fuel i (lst head A (i + 1)).1 (idx - (lst head A (i + 1)).2) = some (c, o) ∧ c ≤ cost A i ∧
        (o = none → c = cost A i) := by
  have hp : ∀ t ∈ A, 0 < t.h := fun t ht => (hS.pos t (by simp [ht])).1
  intro i
  induction i with
  | zero =>
    intro hi
    obtain ⟨l, g1, g2⟩ := walkC_level (w := 0) (idx := idx) (hch 0 hi) hA hB hp hf
    rw [lookupC.eq_def]
    simp only [g2, cost_zero]
    cases l.next with
    | none => exact ⟨_, _, rfl, Nat.le_refl _, fun _ => rfl⟩
    | some b => cases decide (l.dist = idx - (lst head A 0).2 + 1) <;> exact ⟨_, _, rfl, Nat.le_refl _, fun _ => rfl⟩
  | succ i ih =>
    intro hi
    obtain ⟨l, g1, g2⟩ := walkC_level (w := 0) (idx := idx) (hch _ hi) hA hB hp hf
    obtain ⟨c, o, h1, h2, h3⟩ := ih (by omega)
    rw [lookupC.eq_def]
    simp only [g2, cost_succ]
    cases l.next with
    | none =>
      simp only [h1]
      exact ⟨_, _, rfl, by omega, fun h => by rw [h3 h]⟩
    | some b =>
      cases decide (l.dist = idx - (lst head A (i + 1)).2 + 1) with
      | true => exact ⟨_, _, rfl, by omega, by simp⟩
      | false =>
        simp only [h1]
        exact ⟨_, _, rfl, by omega, fun h => by rw [h3 h]⟩

theorem lookupC_good {ex : Prop} {s : SkipList V} {T : List (Tower V)} (h : Good ex s T) (idx : Nat) :
    ∃ c, lookupC s.mem (s.len + 1) maxHeight s.head idx = some (c, T[idx]?.map (·.addr)) ∧
      c ≤ cost (T.take idx) maxHeight ∧ (T.length ≤ idx → c = cost T maxHeight) := by
  have h0 := lookup_good h idx
  obtain ⟨hr, hlen, hb⟩ := h
  have e : T = T.take idx ++ T.drop idx := (List.take_append_drop _ _).symm
  have hS := hr.sub
  have hch := hr.chain
  rw [e] at hS
  obtain ⟨c, o, h1, h2, h3⟩ := lookupC_ok (idx := idx) (fuel := s.len + 1) hS (fun i hi => by rw [← e]; exact hch i hi)
    (by simp)
    (by
      by_cases h : idx ≤ T.length
      · right; simp; omega
      · left; exact List.drop_of_length_le (by omega)) (by rw [hlen]; simp) maxHeight (Nat.le_refl _)
  rw [hS.lst_top] at h1
  simp only [Nat.sub_zero] at h1
  have h4 := lookupC_erase s.mem (s.len + 1) maxHeight s.head idx
  rw [h1, h0] at h4
  simp only [Option.map_some, Option.some.injEq] at h4
  refine ⟨c, by rw [h1, h4], h2, fun hi => ?_⟩
  rw [h3 (by rw [h4, List.getElem?_eq_none hi]; rfl), List.take_of_length_le hi]

/-- How many nodes are before the place a call works at, in a list of `n`. -/
def place (n : Nat) : SeqOp V → Nat
  | .insert i _ => i
  | .remove i => i
  | .pushFront _ => 0
  | .pushBack _ => n
  | .popFront => 0
  | .popBack => n - 1
  | .get i => i
  | .index i => i
  | .getMut i _ => i
  | _ => 0

/-- The links read by a call that does not panic. -/
theorem stepC_ok {ex : Prop} {s : SkipList V} {T : List (Tower V)} (h : Good ex s T) (op : SeqOp V) (d : Draw)
    (hop : (op.exec (vals T)).isSome) :
    ∃ c r, stepC s op d = some (c, r) ∧ c ≤ cost (T.take (place T.length op)) maxHeight := by
  have hlen : s.len = T.length := h.2.1
  have hvl : (vals T).length = T.length := by simp [vals]
  have hins : ∀ i v, i ≤ T.length → ∃ s', s.insertC i v d.1 d.2 = some (cost (T.take i) maxHeight, s') := by
    intro i v hi
    have h' : Good ex s (T.take i ++ T.drop i) := by rw [List.take_append_drop]; exact h
    have := insertC_ok h' v d.1 d.2 (Nat.le_of_lt_succ d.1.2)
    rwa [show (T.take i).length = i by simp; omega] at this
  have hrem : ∀ i, i < T.length → ∃ r, s.removeC i = some (cost (T.take i) maxHeight, r) := by
    intro i hi
    have e : T = T.take i ++ T[i] :: T.drop (i + 1) := by rw [List.getElem_cons_drop, List.take_append_drop]
    have h' := h
    rw [e] at h'
    have := removeC_ok h'
    rwa [show (T.take i).length = i by simp; omega] at this
  have hremAt : ∀ i, (removeAt (vals T) i).isSome → i < T.length := by
    intro i hi
    unfold removeAt at hi
    cases hq : (vals T)[i]? with
    | none => rw [hq] at hi; simp at hi
    | some x =>
      obtain ⟨hi, -⟩ := List.getElem?_eq_some_iff.1 hq
      omega
  have hzero : ∀ o : SeqOp V, (o.exec (vals T)).isSome → ∃ r, step s o d = some r := by
    intro o ho
    cases hq : o.exec (vals T) with
    | none => rw [hq] at ho; simp at ho
    | some p =>
      obtain ⟨s', T', h1, -⟩ := (step_ok h o d).2 p.1 p.2 hq
      exact ⟨_, h1⟩
  have hget : ∀ i, ∃ c, s.getC i = some (c, (vals T)[i]?) ∧ c ≤ cost (T.take i) maxHeight := by
    intro i
    obtain ⟨c, h1, h2, -⟩ := lookupC_good h i
    refine ⟨c, ?_, h2⟩
    have h3 := getC_erase s i
    rw [get_ok h] at h3
    have h4 : ∀ p, s.getC i = some p → p.1 = c := by
      intro p hp
      unfold SkipList.getC at hp
      rw [h1] at hp
      cases hq : T[i]? with
      | none => simp [hq] at hp; rw [← hp]
      | some t =>
        simp only [hq, Option.map_some, Option.bind_eq_bind, Option.bind_some] at hp
        cases hz : entryAt s.mem t.addr with
        | none => rw [hz] at hp; simp at hp
        | some v => rw [hz] at hp; simp at hp; rw [← hp]
    cases hq : s.getC i with
    | none => rw [hq] at h3; simp at h3
    | some p =>
      rw [hq] at h3
      simp only [Option.map_some, Option.some.injEq] at h3
      have := h4 p hq
      obtain ⟨x, y⟩ := p
      simp only at h3 this
      rw [this, h3]
      simp [vals]
  cases op with
  | insert i v =>
    have hi : i ≤ T.length := by
      simp only [SeqOp.exec, insertAt] at hop
      split at hop
      · omega
      · simp at hop
    obtain ⟨s', h1⟩ := hins i v hi
    exact ⟨_, _, by simp only [stepC, h1]; rfl, Nat.le_refl _⟩
  | remove i =>
    obtain ⟨r, h1⟩ := hrem i (hremAt i hop)
    exact ⟨_, _, by simp only [stepC, h1]; rfl, Nat.le_refl _⟩
  | pushFront v =>
    obtain ⟨s', h1⟩ := hins 0 v (Nat.zero_le _)
    exact ⟨_, _, by simp only [stepC, h1]; rfl, Nat.le_refl _⟩
  | pushBack v =>
    obtain ⟨s', h1⟩ := hins T.length v (Nat.le_refl _)
    exact ⟨_, _, by simp only [stepC, hlen, h1]; rfl, Nat.le_refl _⟩
  | popFront =>
    obtain ⟨r, h1⟩ := hrem 0 (hremAt 0 hop)
    exact ⟨_, _, by simp only [stepC, h1]; rfl, Nat.le_refl _⟩
  | popBack =>
    have hi : T.length - 1 < T.length := by
      simp only [SeqOp.exec] at hop
      split at hop
      · simp at hop
      · rename_i hne
        have : T ≠ [] := by rintro rfl; exact hne rfl
        have := List.length_pos_iff.2 this
        omega
    obtain ⟨r, h1⟩ := hrem _ hi
    have e : sub s.len 1 = some (T.length - 1) := by rw [sub, hlen, if_pos (by omega)]
    exact ⟨_, _, by simp only [stepC, e, Option.bind_some, h1]; rfl, Nat.le_refl _⟩
  | get i =>
    obtain ⟨c, h1, h2⟩ := hget i
    exact ⟨c, _, by simp only [stepC, h1]; rfl, h2⟩
  | index i =>
    obtain ⟨c, h1, h2⟩ := hget i
    cases hq : (vals T)[i]? with
    | none => simp [SeqOp.exec, hq] at hop
    | some v => exact ⟨c, _, by simp only [stepC, h1, hq]; rfl, h2⟩
  | getMut i f =>
    obtain ⟨c, h1, h2, -⟩ := lookupC_good h i
    obtain ⟨s', T', h3, -⟩ := getMut_ok h i f
    have h4 := getMutC_erase s i f
    rw [h3] at h4
    have h5 : ∀ p, s.getMutC i f = some p → p.1 = c := by
      intro p hp
      unfold SkipList.getMutC at hp
      rw [h1] at hp
      cases hq : T[i]? with
      | none => simp [hq] at hp; rw [← hp]
      | some t =>
        simp only [hq, Option.map_some, Option.bind_eq_bind, Option.bind_some] at hp
        cases hz : modifyAt s.mem t.addr f with
        | none => rw [hz] at hp; simp at hp
        | some v => rw [hz] at hp; simp at hp; rw [← hp]
    cases hq : s.getMutC i f with
    | none => rw [hq] at h4; simp at h4
    | some p =>
      exact ⟨p.1, _, by simp only [stepC, hq]; rfl, by rw [h5 p hq]; exact h2⟩
  | len => obtain ⟨r, h1⟩ := hzero _ hop; exact ⟨0, r, by simp only [stepC, h1]; rfl, Nat.zero_le _⟩
  | isEmpty => obtain ⟨r, h1⟩ := hzero _ hop; exact ⟨0, r, by simp only [stepC, h1]; rfl, Nat.zero_le _⟩
  | clear => obtain ⟨r, h1⟩ := hzero _ hop; exact ⟨0, r, by simp only [stepC, h1]; rfl, Nat.zero_le _⟩
  | iter n => obtain ⟨r, h1⟩ := hzero _ hop; exact ⟨0, r, by simp only [stepC, h1]; rfl, Nat.zero_le _⟩
  | iterMut fs => obtain ⟨r, h1⟩ := hzero _ hop; exact ⟨0, r, by simp only [stepC, h1]; rfl, Nat.zero_le _⟩

/-- The cost split at a level `H`. -/
theorem cost_le (A : List (Tower V)) {H : Nat} (hH : H ≤ maxHeight) :
    cost A maxHeight ≤ 33 + ∑ i ∈ Finset.range H, tail i (A.map dh) + tall H (A.map dh) := by
  obtain ⟨m, hm⟩ := Nat.exists_eq_add_of_le hH
  have h1 : cost A maxHeight = ∑ i ∈ Finset.range (H + (m + 1)), tail i (A.map dh) + 33 := by
    unfold cost
    rw [Finset.sum_add_distrib, Finset.sum_const_nat (m := 1) fun _ _ => rfl, Finset.card_range,
      show H + (m + 1) = maxHeight + 1 by omega]
    rfl
  have h2 := tail_le H (m + 1) (A.map dh)
  rw [h1, Finset.sum_range_add]
  omega

/-- All nodes of full height are passed one by one. -/
theorem cost_ge (A : List (Tower V)) (hA : ∀ t ∈ A, t.h ≤ maxHeight + 1) :
    33 + tall 32 (A.map dh) ≤ cost A maxHeight := by
  have h1 : cost A maxHeight = ∑ i ∈ Finset.range 32, tail i (A.map dh) + tail 32 (A.map dh) + 33 := by
    unfold cost
    rw [Finset.sum_add_distrib, Finset.sum_const_nat (m := 1) fun _ _ => rfl, Finset.card_range]
    show ∑ i ∈ Finset.range (32 + 1), tail i (A.map dh) + 33 * 1 = _
    rw [Finset.sum_range_succ]
  have h2 : tail 32 (A.map dh) = tall 32 (A.map dh) := by
    clear h1
    induction A with
    | nil => rfl
    | cons t A ih =>
      have ih := ih fun t ht => hA t (by simp [ht])
      have ht : t.h ≤ 33 := hA t (by simp)
      have hall : ∀ b ∈ A.map dh, b ≤ 32 := by
        intro b hb
        obtain ⟨u, hu, rfl⟩ := List.mem_map.1 hb
        have : u.h ≤ 33 := hA u (by simp [hu])
        simp only [dh]; omega
      rw [List.map_cons, tail, ih]
      unfold tall
      rw [List.countP_cons]
      congr 1
      have : dh t = 32 ↔ 32 ≤ dh t := by simp only [dh]; omega
      simp only [decide_eq_true_eq, this]
      by_cases h : 32 ≤ dh t
      · rw [if_pos ⟨h, hall⟩, if_pos h]
      · rw [if_neg (fun hc => h hc.1), if_neg h]
  omega

end Verif.Skip.Lst
