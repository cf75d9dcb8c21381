/- The set operations of `SkipMap`s after panics. -/
import Verif.Skip.WebClean

namespace Verif.Skip.Map.Torn

open Verif.Spec Verif.SL

variable {K V : Type} [LinearOrder K]

/-- The map without the nodes that iteration does not show. -/
def inner (s : SkipMap K V) (T : List Addr) : SkipMap K V :=
  ⟨fun a => if a ∈ s.head :: T then s.mem a else none, s.head, T.length, s.bump⟩

/-- The nodes that iteration does not show. -/
def outer (s : SkipMap K V) (T : List Addr) : MHeap K V := fun a => if a ∈ s.head :: T then none else s.mem a

omit [LinearOrder K] in
theorem over_inner (s : SkipMap K V) (T : List Addr) : over (outer s T) (inner s T).mem = s.mem := by
  funext a
  simp only [over, outer, inner]
  split
  · cases s.mem a <;> rfl
  · rfl

theorem inner_laid {s : SkipMap K V} {A : Nat → Addr → Prop} {T U : List Addr} (h : Holds s A T U) (hf : Fit s) :
    ∃ L : List (Tower (K × V)), Laid (inner s T) L ∧ addrs L = T ∧ s.iter = some (L.map (·.e)) ∧ Sorted (L.map (·.e)) := by
  have hb := h.body
  have hin : ∀ a ∈ s.head :: T, (inner s T).mem a = s.mem a := fun a ha => by simp only [inner, if_pos ha]
  have hsh : ∀ a ∈ s.head :: T, shape (inner s T).mem a = shape s.mem a := fun a ha => by simp only [shape, hin a ha]
  have hen : ∀ a ∈ s.head :: T, entryAt (inner s T).mem a = entryAt s.mem a := fun a ha => by simp only [entryAt, hin a ha]
  obtain ⟨E, hE1, hE2, hE3⟩ : ∃ E : List (K × V), T.map (entryAt s.mem) = E.map some ∧ s.iter = some E ∧ Sorted E := by
    obtain ⟨o, h1, h2⟩ := collect_chn hb.chn (fun x hx => hb.web.some_ent (hb.memT hx).1 (hb.memT hx).2) U.length
    refine ⟨T.filterMap (entryAt s.mem), ?_, by simp [SkipMap.iter, h1, h.len, h2], hb.ascending⟩
    have : ∀ l : List Addr, (∀ x ∈ l, ∃ e, entryAt s.mem x = some e) →
        l.map (entryAt s.mem) = (l.filterMap (entryAt s.mem)).map some := by
      intro l hl
      induction l with
      | nil => rfl
      | cons a l ih =>
        obtain ⟨e, he⟩ := hl a (by simp)
        simp only [List.map_cons, List.filterMap_cons, he]
        rw [ih fun x hx => hl x (List.mem_cons_of_mem _ hx)]
    exact this T fun x hx => hb.web.some_ent (hb.memT hx).1 (hb.memT hx).2
  have hnode : ∀ a ∈ s.head :: T, ∃ n, s.mem a = some n ∧ 0 < n.links.length ∧ n.links.length ≤ maxHeight + 1 := by
    intro a ha
    have hA : A 0 a := by
      rcases List.mem_cons.1 ha with rfl | ha
      · exact hb.web.hd 0 (Nat.zero_le _)
      · exact (hb.memT ha).1
    obtain ⟨l, hl⟩ := hb.web.link hA
    unfold getLink at hl
    cases hm : s.mem a with
    | none => simp [hm] at hl
    | some n =>
      simp only [hm] at hl
      exact ⟨n, rfl, by have := (List.getElem?_eq_some_iff.1 hl).1; omega, (hf a n hm).1⟩
  obtain ⟨L, h1, h2, h3⟩ := towers_of (m := (inner s T).mem) T E
    (by rw [← hE1]; exact List.map_congr_left fun a ha => hen a (List.mem_cons_of_mem _ ha)) (fun a ha => by
      obtain ⟨n, g1, g2, g3⟩ := hnode a (List.mem_cons_of_mem _ ha)
      obtain ⟨e, he⟩ := hb.web.some_ent (hb.memT ha).1 (hb.memT ha).2
      refine ⟨e, n.links.length, ?_, g2, g3⟩
      rw [hsh a (List.mem_cons_of_mem _ ha)]
      simp only [entryAt, g1] at he
      simp [shape, g1, he])
  have h1' : L.map (·.addr) = T := h1
  refine ⟨L, ⟨?_, fun t ht => (h3 t ht).1, fun t ht => (h3 t ht).2, ?_, ?_, ?_, ?_, ?_⟩, h1, ?_, ?_⟩
  · show shape (inner s T).mem s.head = _
    rw [hsh _ (by simp)]
    obtain ⟨n, g1, g2, g3⟩ := hnode s.head (by simp)
    obtain ⟨l, hl⟩ := hb.web.link (hb.web.hd maxHeight (Nat.le_refl _))
    have hne := hb.web.no_ent
    simp only [entryAt, g1] at hne
    simp only [getLink, g1] at hl
    have := (List.getElem?_eq_some_iff.1 hl).1
    simp only [shape, g1, hne, Option.map_some, Option.some.injEq, Prod.mk.injEq, true_and]
    omega
  · rw [h1']; exact hb.nodupT
  · intro a e1 e2
    rw [h1'] at e2
    simp only [shape, inner, Option.map_eq_none_iff]
    rw [if_neg (by rintro h; rcases List.mem_cons.1 h with h | h; exact e1 h; exact e2 h)]
  · rw [h1]
    refine chain_frame (chn_chain hb.chn) fun x hx => ?_
    show getLink (inner s T).mem x 0 = getLink s.mem x 0
    simp only [getLink, hin x hx]
  · show T.length = L.length
    rw [← h1']; simp
  · intro a ha
    simp only [inner]
    split
    · by_contra hne
      obtain ⟨n, hn⟩ := Option.ne_none_iff_exists'.1 hne
      exact absurd (hf a n hn).2 (Nat.not_lt.2 ha)
    · rfl
  · rw [h2]; exact hE2
  · rw [h2]; exact hE3

omit [LinearOrder K] in
/-- Dropping a map leaves the nodes that iteration does not show. -/
theorem drop_exact {s : SkipMap K V} {L : List (Tower (K × V))} (h : Laid (inner s (addrs L)) L) (hlen : L.length ≤ s.len) :
    ∃ m, s.drop = some m ∧ ∀ x, m x ≠ none ↔ outer s (addrs L) x ≠ none := by
  have hap : Apart (outer s (addrs L)) (inner s (addrs L)).mem := by
    intro a ha
    simp only [inner] at ha
    split at ha
    · rename_i e; simp only [outer, if_pos e]
    · exact absurd rfl ha
  obtain ⟨m0, e1, e2, e3⟩ := free_ok h.hd
  have hnh := List.nodup_cons.1 h.nodup
  have hne : ∀ a ∈ addrs L, a ≠ (inner s (addrs L)).head := by rintro a ha rfl; exact hnh.1 ha
  obtain ⟨m1, h1, h2, h3⟩ := freeAll_ok (m := m0) (o := (addrs L).head?) hnh.2
    (fun a ha => by
      rw [e2, if_neg (hne a ha)]
      obtain ⟨t, ht, rfl⟩ := List.mem_map.1 ha
      exact ⟨_, h.tow t ht⟩)
    ⟨rfl, fun b Q hbQ => by
      rw [e3, if_neg (hne b (by obtain ⟨P, hP⟩ := hbQ; show b ∈ L.map (·.addr); rw [hP]; simp))]
      exact chain_next (lk := lk (inner s (addrs L)).mem 0) h.chain b Q hbQ⟩
  have h1' := freeAll_more (f' := s.len) (by simpa using hlen) h1
  have hd : SkipMap.drop ⟨(inner s (addrs L)).mem, s.head, s.len, s.bump⟩ = some m1 := by
    unfold SkipMap.drop
    rw [show getLink (inner s (addrs L)).mem s.head 0 = some (addrs L).head? from chain_link h.chain]
    simp only [Option.bind_eq_bind, Option.bind_some]
    rw [show (inner s (addrs L)).mem.free s.head = some m0 from e1]
    exact h1'
  have hov := drop_over (F := outer s (addrs L)) (s := ⟨(inner s (addrs L)).mem, s.head, s.len, s.bump⟩) hap hd
  simp only [over_inner] at hov
  refine ⟨_, hov, fun x => ?_⟩
  have hz : m1 x = none := by
    have h4 := h2 x
    have h5 := e2 x
    have h6 : shape m1 x = none := by
      rw [h4]
      split
      · rfl
      · rename_i hx
        rw [h5]
        split
        · rfl
        · rename_i hx'
          exact h.only x hx' hx
    simpa [shape] using h6
  simp [over, hz]

/-- The set operations on maps after panics, in terms of the lists of their nodes. -/
theorem mergeWith_torn {pick : Merge K V → Option (Merge K V × Option Addr)} (hfr : Frames pick)
    (off : Nat) {l r : SkipMap K V} {L R : List (Tower (K × V))} (hl : Laid (inner l (addrs L)) L)
    (hr : Laid (inner r (addrs R)) R) (hfl : Fit l) (hfrr : Fit r) (hd : Disjoint l r) :
    ∃ s head F, MInv s head l.head r.head [] L R [] ∧ Apart F s.mem ∧ l.head ≠ r.head ∧
      (∀ a, head ≤ a → a ≠ l.head ∧ a ≠ r.head) ∧ (∀ t ∈ L ++ R, t.addr < head) ∧
      (∀ x, F x ≠ none ↔ outer l (addrs L) x ≠ none ∨ outer r (addrs R) x ≠ none) ∧
      (∀ x n, F x = some n → n.links.length ≤ maxHeight + 1 ∧ x < head) ∧
      (∀ s', mergeLoop pick 0 (l.len + r.len) s = some s' → ∀ m m', s'.mem.free l.head = some m → m.free r.head = some m' →
        mergeWith pick 0 l r off = some ⟨over F m', head, s'.len, head + 1⟩ ∧ Apart F m') ∧
      (mergeLoop pick 0 (l.len + r.len) (ov F s) = none → mergeWith pick 0 l r off = none) := by
  have hli : ∀ a, (inner l (addrs L)).mem a = none ∨ (inner l (addrs L)).mem a = l.mem a := by
    intro a; simp only [inner]; split <;> simp
  have hri : ∀ a, (inner r (addrs R)).mem a = none ∨ (inner r (addrs R)).mem a = r.mem a := by
    intro a; simp only [inner]; split <;> simp
  have hd' : Disjoint (inner l (addrs L)) (inner r (addrs R)) := by
    intro a
    rcases hd a with h | h
    · rcases hli a with h1 | h1
      · exact .inl h1
      · exact .inl (h1.trans h)
    · rcases hri a with h1 | h1
      · exact .inr h1
      · exact .inr (h1.trans h)
  obtain ⟨s, head, hinv, hlrh, hbnd, hinit⟩ := mergeInit_ok off hl hr hd'
  have hhead : head = Nat.max l.bump r.bump + off := by
    simp only [mergeInit, Option.bind_eq_bind, Option.bind_eq_some_iff] at hinit
    obtain ⟨_, _, _, _, _, _, _, _, h⟩ := hinit
    simp only [Option.pure_def, Option.some.injEq, Prod.mk.injEq] at h
    exact h.2.symm
  have hlb : ∀ a n, l.mem a = some n → n.links.length ≤ maxHeight + 1 ∧ a < head := fun a n h =>
    ⟨(hfl a n h).1, Nat.lt_of_lt_of_le (hfl a n h).2 (by rw [hhead]; exact Nat.le_trans (Nat.le_max_left _ _) (Nat.le_add_right _ _))⟩
  have hrb : ∀ a n, r.mem a = some n → n.links.length ≤ maxHeight + 1 ∧ a < head := fun a n h =>
    ⟨(hfrr a n h).1, Nat.lt_of_lt_of_le (hfrr a n h).2 (by rw [hhead]; exact Nat.le_trans (Nat.le_max_right _ _) (Nat.le_add_right _ _))⟩
  obtain ⟨F, hFdef⟩ : ∃ F : MHeap K V, F = fun a => (outer l (addrs L) a).or (outer r (addrs R) a) := ⟨_, rfl⟩
  have hFn : ∀ x n, F x = some n → l.mem x = some n ∨ r.mem x = some n := by
    intro x n h
    rw [hFdef] at h
    simp only [outer] at h
    split at h <;> split at h <;> simp only [Option.none_or, Option.or_none, Option.or_eq_some_iff] at h
    · simp at h
    · exact .inr h
    · exact .inl h
    · exact h.imp_right And.right
  have hFb : ∀ x n, F x = some n → n.links.length ≤ maxHeight + 1 ∧ x < head := by
    intro x n h
    rcases hFn x n h with h | h
    · exact hlb x n h
    · exact hrb x n h
  have hmem : (fun a => (l.mem a).or (r.mem a)) = over F (fun a => ((inner l (addrs L)).mem a).or ((inner r (addrs R)).mem a)) := by
    funext a
    simp only [over, hFdef, inner, outer]
    rcases hd a with h | h
    · simp only [h]; split <;> split <;> cases r.mem a <;> rfl
    · simp only [h]; split <;> split <;> cases l.mem a <;> rfl
  have hap0 : Apart F (Heap.put (fun a => ((inner l (addrs L)).mem a).or ((inner r (addrs R)).mem a)) head headNode) := by
    intro a ha
    by_contra hc
    obtain ⟨n, hn⟩ := Option.ne_none_iff_exists'.1 hc
    have hne : a ≠ head := Nat.ne_of_lt (hFb a n hn).2
    simp only [Heap.put, if_neg hne] at ha
    rw [hFdef] at hn
    simp only [outer, inner] at hn ha
    rcases hd a with h | h
    · simp only [h, ite_self, Option.none_or] at hn ha
      split at hn
      · simp at hn
      · rename_i e; rw [if_neg e] at ha; exact ha rfl
    · simp only [h, ite_self, Option.or_none] at hn ha
      split at hn
      · simp at hn
      · rename_i e; rw [if_neg e] at ha; exact ha rfl
  have hinit' : mergeInit l r off = some (ov F s, head) ∧ Apart F s.mem := by
    simp only [mergeInit, Option.bind_eq_bind] at hinit ⊢
    rw [show Nat.max (inner l (addrs L)).bump (inner r (addrs R)).bump + off = head from hhead.symm] at hinit
    obtain ⟨lf, i1, hinit⟩ := Option.bind_eq_some_iff.1 hinit
    obtain ⟨rf, i2, hinit⟩ := Option.bind_eq_some_iff.1 hinit
    obtain ⟨m1, i3, hinit⟩ := Option.bind_eq_some_iff.1 hinit
    obtain ⟨m2, i4, hinit⟩ := Option.bind_eq_some_iff.1 hinit
    simp only [Option.pure_def, Option.some.injEq, Prod.mk.injEq] at hinit
    obtain ⟨rfl, -⟩ := hinit
    rw [← hhead, hmem, over_put]
    rw [show getLink _ l.head 0 = some lf from getLink_over i1, Option.bind_some,
      show getLink _ r.head 0 = some rf from getLink_over i2, Option.bind_some,
      show zeroLinks _ none l.head = some _ from zeroLinks_over i3, Option.bind_some,
      show zeroLinks _ none r.head = some _ from zeroLinks_over i4, Option.bind_some]
    exact ⟨rfl, (hap0.thins (zeroLinks_thins i3)).thins (zeroLinks_thins i4)⟩
  have hmw : mergeWith pick 0 l r off = (mergeLoop pick 0 (l.len + r.len) (ov F s)).bind
      fun s => (s.mem.free l.head).bind fun mem => (mem.free r.head).bind fun mem => some ⟨mem, head, s.len, head + 1⟩ := by
    have e : mergeWith pick 0 l r off = (mergeInit l r off).bind fun (s, head) =>
        (mergeLoop pick 0 (l.len + r.len) s).bind fun s => (s.mem.free l.head).bind fun mem =>
          (mem.free r.head).bind fun mem => some ⟨mem, head, s.len, head + 1⟩ := by
      unfold mergeWith mergeInit
      simp only [Option.bind_eq_bind, Option.bind_assoc]
      rfl
    rw [e, hinit'.1]
    rfl
  have nn : ∀ {m : MHeap K V} {a p}, Skip.shape m a = some p → m a ≠ none := by
    intro m a p h hc; simp [Skip.shape, hc] at h
  refine ⟨s, head, F, hinv, hinit'.2, hlrh, ?_, ?_, ?_, hFb, ?_, ?_⟩
  · intro a ha
    obtain ⟨h1, h2⟩ := hbnd a ha
    refine ⟨?_, ?_⟩
    · rintro rfl; exact nn hl.hd h1
    · rintro rfl; exact nn hr.hd h2
  · intro t ht
    by_contra hlt
    obtain ⟨h1, h2⟩ := hbnd t.addr (Nat.le_of_not_lt hlt)
    rcases List.mem_append.1 ht with ht | ht
    · exact nn (hl.tow t ht) h1
    · exact nn (hr.tow t ht) h2
  · intro x
    rw [hFdef]
    simp only [ne_eq, Option.or_eq_none_iff]
    tauto
  · intro s' h1 m m' h2 h3
    obtain ⟨h4, h5⟩ := mergeLoop_over hfr hinit'.2 h1
    have hap' := hinit'.2.thins h5
    rw [hmw, h4, Option.bind_some, show (ov F s').mem.free l.head = some _ from free_over hap' h2, Option.bind_some,
      free_over (hap'.thins (free_thins h2)) h3]
    exact ⟨rfl, (hap'.thins (free_thins h2)).thins (free_thins h3)⟩
  · intro h1
    rw [hmw, h1]
    rfl

end Verif.Skip.Map.Torn
