/- C90, consuming iteration: `into_iter` of a SkipMap after panics (map.rs:952-1027). -/
import Verif.Skip.WebSetsProps

namespace Verif.Skip.Map.Torn

open Verif.Spec Verif.SL

variable {K V : Type} [LinearOrder K]

omit [LinearOrder K] in
theorem shape_of_entry {m : MHeap K V} {a : Addr} {e : K × V} (h : entryAt m a = some e) :
    ∃ n, shape m a = some (some e, n) := by
  unfold entryAt at h
  unfold shape
  cases hm : m a with
  | none => rw [hm] at h; simp at h
  | some n => rw [hm] at h; exact ⟨n.links.length, by simp_all⟩

omit [LinearOrder K] in
theorem linked_of {m : MHeap K V} {L : List (Addr × (K × V))} (he : ∀ p ∈ L, ∃ n, shape m p.1 = some (some p.2, n))
    (hc : ∀ a Q, (∃ P, L.map (·.1) = P ++ a :: Q) → getLink m a 0 = some Q.head?) :
    Linked id m (L.map (·.1)).head? L := by
  induction L with
  | nil => rfl
  | cons p L ih =>
    have h1 : getLink m p.1 0 = some (L.map (·.1)).head? := hc p.1 (L.map (·.1)) ⟨[], rfl⟩
    refine ⟨rfl, (L.map (·.1)).head?, h1, he p (by simp), ?_⟩
    refine ih (fun x hx => he x (by simp [hx])) ?_
    rintro a Q ⟨P, hP⟩
    exact hc a Q ⟨p.1 :: P, by simp [hP]⟩

omit [LinearOrder K] in
theorem zip_entries {ent : Addr → Option (K × V)} {T : List Addr} (h : ∀ a ∈ T, ∃ e, ent a = some e) :
    ∃ L : List (Addr × (K × V)), L.map (·.1) = T ∧ L.map (·.2) = T.filterMap ent ∧ ∀ p ∈ L, ent p.1 = some p.2 := by
  induction T with
  | nil => exact ⟨[], by simp⟩
  | cons a T ih =>
    obtain ⟨L, h1, h2, h3⟩ := ih fun b hb => h b (by simp [hb])
    obtain ⟨e, he⟩ := h a (by simp)
    refine ⟨(a, e) :: L, by simp [h1], by simp [he, h2], ?_⟩
    intro p hp
    rcases List.mem_cons.1 hp with rfl | hp
    · exact he
    · exact h3 p hp

/-- C90, `into_iter`: take any SkipMap, whatever comparisons panicked in the calls that made it, and let `l` be what
iteration shows.  After `n` steps the consuming iterator has handed out the first `n` entries of `l`; dropping it drops
every other entry of `l` twice, as in C16; and then exactly those nodes are still allocated that dropping the map itself
would have left. -/
theorem C90_into_iter {s : SkipMap K V} (hs : Reached s) {l : List (K × V)} (hl : s.iter = some l) (n : Nat) :
    ∃ it it₁ it₂ m, s.intoIter = some it ∧ it.advance id n = some it₁ ∧ it₁.drop id s.len = some it₂ ∧
      it₂.handed = l.take n ∧ it₂.dropped = (l.drop n).flatMap (fun e => [e, e]) ∧
      s.drop = some m ∧ ∀ a, it₂.mem a = none ↔ m a = none := by
  obtain ⟨⟨σ, A, T, U, hh, rfl⟩, -⟩ := ok_of_reached hs
  have hb := hh.body
  have hA : A 0 s.head := hb.web.hd 0 (Nat.zero_le _)
  have hnh := List.nodup_cons.1 hb.nodupT
  have hch := chn_chain hb.chn
  obtain ⟨k, hk⟩ := hb.web.link hA
  obtain ⟨p, hp⟩ := shape_of_link hk
  have hne : ∀ a ∈ T, a ≠ s.head := by rintro a ha rfl; exact hnh.1 ha
  have hent : ∀ a ∈ T, ∃ e, entryAt s.mem a = some e := fun a ha => by
    have := hb.web.some_ent (hb.memT ha).1 (hb.memT ha).2
    exact this
  obtain ⟨L, L1, L2, L3⟩ := zip_entries hent
  have hfst : getLink s.mem s.head 0 = some T.head? := chain_link hch
  -- what iteration shows
  obtain rfl : l = L.map (·.2) := by
    obtain ⟨o, h1, h2⟩ := collect_chn hb.chn (fun x hx => hb.web.some_ent (hb.memT hx).1 (hb.memT hx).2) U.length
    have : s.iter = some (T.filterMap (entryAt s.mem)) := by simp [SkipMap.iter, h1, hh.len, h2]
    rw [this] at hl
    rw [L2]; exact (Option.some.inj hl).symm
  -- dropping the map
  obtain ⟨m0, e1, e2, e3⟩ := free_ok hp
  obtain ⟨md, h1, h2, -⟩ := freeAll_ok (m := m0) (o := T.head?) hnh.2
    (fun a ha => by
      rw [e2, if_neg (hne a ha)]
      obtain ⟨l, hl⟩ := hb.web.link (hb.memT ha).1
      exact shape_of_link hl)
    ⟨rfl, fun b Q hbQ => by
      rw [e3, if_neg (hne b (by obtain ⟨P, hP⟩ := hbQ; rw [hP]; simp))]
      exact chain_next (lk := lk s.mem 0) hch b Q hbQ⟩
  have h1' := freeAll_more (f' := s.len) (by rw [hh.len]; omega) h1
  have hdrop : s.drop = some md := by
    unfold SkipMap.drop
    rw [hfst]
    simp only [Option.bind_eq_bind, Option.bind_some, e1, h1']
  -- the iterator
  obtain ⟨m1, a1, a2, a3⟩ := zeroLinks_ok hp none
  obtain ⟨m2, b1, b2, b3⟩ := free_ok (m := m1) (by rw [a2]; exact hp)
  have hshape : ∀ a, a ≠ s.head → shape m2 a = shape s.mem a := fun a ha => by rw [b2, if_neg ha, a2]
  have hLmem : ∀ p ∈ L, p.1 ∈ T := fun p hp => by rw [← L1]; exact List.mem_map_of_mem hp
  have hlinked : Linked id m2 T.head? L := by
    rw [← L1]
    refine linked_of (fun q hq => ?_) ?_
    · rw [hshape _ (hne _ (hLmem q hq))]
      exact shape_of_entry (L3 q hq)
    · intro a Q hP
      rw [L1] at hP
      have ha : a ∈ T := by obtain ⟨P, hP⟩ := hP; rw [hP]; simp
      rw [b3, if_neg (hne a ha), a3, if_neg (hne a ha)]
      exact chain_next (lk := lk s.mem 0) hch a Q hP
  have hn2 : (L.map (·.1)).Nodup := by rw [L1]; exact hnh.2
  obtain ⟨it1, c1, c2, c3, c4, c5⟩ := advance_ok (it := ⟨m2, T.head?, [], []⟩) n hn2 hlinked
  have hn3 : ((L.drop n).map (·.1)).Nodup := by
    rw [List.map_drop]; exact hn2.sublist (List.drop_sublist _ _)
  have hlen : (L.drop n).length ≤ s.len := by
    have : L.length = T.length := by rw [← L1]; simp
    rw [List.length_drop, hh.len]; omega
  obtain ⟨it2, d1, d2, d3, d4⟩ := drop_all_ok (it := it1) s.len hlen hn3 c4
  refine ⟨⟨m2, T.head?, [], []⟩, it1, it2, md, ?_, c1, d1, ?_, ?_, hdrop, ?_⟩
  · simp [SkipMap.intoIter, hfst, a1, b1]
  · rw [d2, c2]; simp
  · rw [d3, c3]; simp [List.map_drop]
  · intro a
    have hsh : ∀ m : MHeap K V, m a = none ↔ shape m a = none := fun m => by simp [shape]
    rw [hsh, hsh, d4, c5, h2, e2]
    have hT : a ∈ T ↔ a ∈ (L.take n).map (·.1) ∨ a ∈ (L.drop n).map (·.1) := by
      rw [← List.mem_append, ← List.map_append, List.take_append_drop, L1]
    simp only [b2, a2]
    by_cases q1 : a ∈ (L.drop n).map (·.1)
    · rw [if_pos q1, if_pos (hT.2 (.inr q1))]
    · rw [if_neg q1]
      by_cases q2 : a ∈ (L.take n).map (·.1)
      · rw [if_pos q2, if_pos (hT.2 (.inl q2))]
      · rw [if_neg q2, if_neg (fun h => (hT.1 h).elim q2 q1)]

/-- A map in which 5 was inserted halfway: the consuming iterator hands out 2 and 4, and 8 is dropped twice; the node of 5,
which iteration does not show, stays allocated. -/
example : (((panicImpl Nat String 0).run (SkipMap.new 0) halfway).bind fun r =>
    (SkipMap.intoIter (K := Nat) (V := String) r.1).bind fun it => (it.advance id 2).bind fun it =>
      (it.drop id (SkipMap.len r.1)).map fun it => (it.handed, it.dropped, (List.range 6).filter fun a => (it.mem a).isSome)) =
    some ([(2, "a"), (4, "b")], [(8, "c"), (8, "c")], [4]) := by decide +kernel

end Verif.Skip.Map.Torn
