/- The representation of a skip map in memory and the correctness of its single-map operations. -/
import Verif.Skip.MapModel
import Verif.Skip.Tower
import Verif.Lib.SortedList

namespace Verif.Skip.Map

open Verif.Spec Verif.SL

variable {K V : Type}

/-- The level-`i` links. -/
def lk (m : MHeap K V) (i : Nat) : Addr → Option (Option Addr) := fun a => getLink m a i

theorem chain_link {m : MHeap K V} {i : Nat} {a : Addr} {Q : List Addr} (h : Chain (lk m i) a Q) :
    getLink m a i = some Q.head? := chain_head (lk := lk m i) h

theorem walk_ok {m : MHeap K V} {p : K × V → Bool} {i : Nat} {P Q : List Addr} {a : Addr} {fuel : Nat}
    (hc : Chain (lk m i) a (P ++ Q)) (hP : ∀ b ∈ P, ∃ e, entryAt m b = some e ∧ p e = true)
    (hQ : ∀ b, Q.head? = some b → ∃ e, entryAt m b = some e ∧ p e = false) (hf : P.length < fuel) :
    walk m p i fuel a = some (lastD a P, Q.head?) := by
  induction P generalizing a fuel with
  | nil =>
    obtain ⟨f, rfl⟩ : ∃ f, fuel = f + 1 := ⟨fuel - 1, by simp at hf; omega⟩
    have h1 : getLink m a i = some Q.head? := chain_link hc
    unfold walk
    rw [h1]
    cases h2 : Q.head? with
    | none => rfl
    | some b =>
      obtain ⟨e, he, hp⟩ := hQ b h2
      simp [he, hp]
  | cons b P ih =>
    obtain ⟨f, rfl⟩ : ∃ f, fuel = f + 1 := ⟨fuel - 1, by simp at hf; omega⟩
    have h1 : getLink m a i = some (some b) := hc.1
    obtain ⟨e, he, hp⟩ := hP b (by simp)
    unfold walk
    rw [h1]
    simp only [he, hp, if_true, lastD_cons]
    exact ih hc.2 (fun c hc => hP c (List.mem_cons_of_mem _ hc)) (by simp at hf; omega)

/-- The memory contains the head and the towers of `T`. -/
structure Sub (S : Addr → Option (Option (K × V) × Nat)) (head : Addr) (T : List (Tower (K × V))) :
    Prop where
  hd : S head = some (none, maxHeight + 1)
  tow : ∀ t ∈ T, S t.addr = some (some t.e, t.h)
  pos : ∀ t ∈ T, 0 < t.h ∧ t.h ≤ maxHeight + 1
  nodup : (head :: T.map (·.addr)).Nodup

/-- The shape of memory: the head, the towers of `T`, nothing else. -/
def Shape (S : Addr → Option (Option (K × V) × Nat)) (head : Addr) (T : List (Tower (K × V))) : Prop :=
  Sub S head T ∧ ∀ a, a ≠ head → a ∉ T.map (·.addr) → S a = none

theorem Sub.sub {S : Addr → Option (Option (K × V) × Nat)} {head : Addr} {T T' : List (Tower (K × V))}
    (h : Sub S head T) (hs : T'.Sublist T) : Sub S head T' :=
  ⟨h.hd, fun t ht => h.tow t (hs.mem ht), fun t ht => h.pos t (hs.mem ht),
    h.nodup.sublist ((hs.map _).cons_cons _)⟩

theorem Sub.congr {S S' : Addr → Option (Option (K × V) × Nat)} {head : Addr} {T : List (Tower (K × V))}
    (h : Sub S head T) (hs : ∀ a ∈ head :: T.map (·.addr), S' a = S a) : Sub S' head T :=
  ⟨by rw [hs _ (by simp)]; exact h.hd,
    fun t ht => by rw [hs _ (List.mem_cons_of_mem _ (List.mem_map.2 ⟨t, ht, rfl⟩))]; exact h.tow t ht,
    h.pos, h.nodup⟩

/-- The memory `m` holds the skip list with towers `T` behind `head`. -/
structure Rep (m : MHeap K V) (head : Addr) (T : List (Tower (K × V))) : Prop where
  shp : Shape (Skip.shape m) head T
  chain : ∀ i ≤ maxHeight, Chain (lk m i) head (lv i T)

/-- A map in a good state, with its entries. -/
def Good [LinearOrder K] (s : SkipMap K V) (T : List (Tower (K × V))) : Prop :=
  Rep s.mem s.head T ∧ s.len = T.length ∧ Sorted (T.map (·.e)) ∧
    (∀ a, s.bump ≤ a → s.mem a = none)

theorem Sub.len_of_mem {S} {head : Addr} {T : List (Tower (K × V))} (h : Sub S head T) {i : Nat} {a : Addr}
    (hi : i ≤ maxHeight) (ha : a ∈ head :: lv i T) : ∃ e n, S a = some (e, n) ∧ i < n := by
  rcases List.mem_cons.1 ha with rfl | ha
  · exact ⟨_, _, h.hd, by omega⟩
  · obtain ⟨t, ht, h1, rfl⟩ := mem_lv.1 ha
    exact ⟨_, _, h.tow t ht, h1⟩

theorem entry_lv {m : MHeap K V} {head : Addr} {T : List (Tower (K × V))} (h : Sub (shape m) head T)
    {i : Nat} {b : Addr} (hb : b ∈ lv i T) : ∃ t ∈ T, t.addr = b ∧ entryAt m b = some t.e := by
  obtain ⟨t, ht, _, rfl⟩ := mem_lv.1 hb
  exact ⟨t, ht, rfl, entryAt_of_shape (h.tow t ht)⟩

/-- Walking level `i` from a node of the prefix `A` ends at the last node of `A` on that level. -/
theorem walk_level {m : MHeap K V} {head : Addr} {A B : List (Tower (K × V))} {p : K × V → Bool} {i fuel : Nat}
    {cur : Addr} (hS : ∀ t ∈ A ++ B, entryAt m t.addr = some t.e)
    (hch : Chain (lk m i) head (lv i (A ++ B)))
    (hA : ∀ t ∈ A, p t.e = true) (hB : ∀ t ∈ B, p t.e = false) (hf : A.length < fuel)
    (hcur : ∃ P1 P2, lv i A = P1 ++ P2 ∧ cur = lastD head P1) :
    walk m p i fuel cur = some (lastD head (lv i A), (lv i B).head?) := by
  obtain ⟨P1, P2, h1, rfl⟩ := hcur
  rw [lv_append, h1, List.append_assoc, chain_append] at hch
  rw [h1, lastD_append]
  refine walk_ok hch.2 ?_ ?_ ?_
  · intro b hb
    have : b ∈ lv i A := by rw [h1]; simp [hb]
    obtain ⟨t, ht, _, rfl⟩ := mem_lv.1 this
    exact ⟨_, hS t (by simp [ht]), hA t ht⟩
  · intro b hb
    obtain ⟨t, ht, _, rfl⟩ := mem_lv.1 (List.mem_of_mem_head? hb)
    exact ⟨_, hS t (by simp [ht]), hB t ht⟩
  · have := lv_length_le i A
    rw [h1] at this
    simp at this
    omega

variable [LinearOrder K]

omit [LinearOrder K] in
theorem downFrom_ind {body : Nat → Work K V → Option (Work K V)} (I : Nat → Work K V → Prop)
    (Finish : Work K V → Prop)
    (hs : ∀ i w, I (i + 1) w → ∃ w', body (i + 1) w = some w' ∧ I i w')
    (h0 : ∀ w, I 0 w → ∃ w', body 0 w = some w' ∧ Finish w') (i : Nat) (w : Work K V) (h : I i w) :
    ∃ w', downFrom body i w = some w' ∧ Finish w' := by
  induction i generalizing w with
  | zero => exact h0 w h
  | succ i ih =>
    obtain ⟨w1, h1, h2⟩ := hs i w h
    obtain ⟨w2, h3, h4⟩ := ih w1 h2
    exact ⟨w2, by simp [downFrom, h1, h3], h4⟩

/-- Unlinking at a level above the bottom. -/
theorem unlink_links {m : MHeap K V} {head : Addr} {A X B : List (Tower (K × V))} {key : K} {i : Nat}
    {w : Work K V} (hm : w.mem = m) (hS : Sub (shape m) head (A ++ X ++ B)) (hi : i ≤ maxHeight)
    (hch : Chain (lk m i) head (lv i (A ++ X ++ B)))
    (hX : X = [] ∨ ∃ x, X = [x] ∧ x.e.1 = key) (hB : ∀ t ∈ B, key < t.e.1)
    (hcur : w.cur = lastD head (lv i A)) :
    ∃ m', (shape m' = shape m ∧ (∀ b j, j ≠ i → getLink m' b j = getLink m b j) ∧
      Chain (lk m' i) head (lv i (A ++ B)) ∧ ∀ b ∉ head :: (A ++ X ++ B).map (·.addr), getLink m' b i = getLink m b i) ∧
      ((∃ x, X = [x] ∧ i < x.h ∧
          unlink key i w (lv i (X ++ B)).head? = release i x.addr x.e { w with mem := m' }) ∨
        ((X = [] ∨ ∃ x, X = [x] ∧ ¬ i < x.h) ∧ unlink key i w (lv i (X ++ B)).head? = some { w with mem := m' })) := by
  subst hm
  have hstay : lv i X = [] → unlink key i w (lv i (X ++ B)).head? = some w := by
    intro hx
    rw [lv_append, hx, List.nil_append]
    cases hq : (lv i B).head? with
    | none => rfl
    | some b =>
      obtain ⟨t, ht, _, rfl⟩ := mem_lv.1 (List.mem_of_mem_head? hq)
      have he : entryAt w.mem t.addr = some t.e := entryAt_of_shape (hS.tow t (by simp [ht]))
      simp only [unlink, he]
      rw [if_neg (ne_of_gt (hB t ht))]
  have hsame : lv i X = [] → Chain (lk w.mem i) head (lv i (A ++ B)) := by
    intro hx
    rw [lv_append, lv_append, hx, List.append_nil] at hch
    rw [lv_append]; exact hch
  rcases hX with rfl | ⟨x, rfl, hx⟩
  · refine ⟨w.mem, ⟨rfl, fun _ _ _ => rfl, hsame rfl, fun _ _ => rfl⟩, .inr ⟨.inl rfl, hstay rfl⟩⟩
  · by_cases hxi : i < x.h
    · have hn : (head :: lv i (A ++ [x] ++ B)).Nodup := nodup_lv hS.nodup
      have e1 : lv i (A ++ [x] ++ B) = lv i A ++ x.addr :: lv i B := by
        simp [lv_append, lv_cons_pos _ hxi]
      rw [e1] at hch hn
      have hch2 := (chain_append.1 hch).2
      have hlast : lastD head (lv i A) ∈ head :: lv i (A ++ [x] ++ B) := by
        have := lastD_mem head (lv i A)
        simp only [List.append_assoc, lv_append, List.mem_cons, List.mem_append] at this ⊢
        tauto
      obtain ⟨e, n, hsh, hin⟩ := hS.len_of_mem hi hlast
      obtain ⟨m', h1, h2, h3⟩ := setLink_ok hsh hin ((lv i B).head?)
      refine ⟨m', ⟨h2, ?_, ?_, ?_⟩, .inl ⟨x, rfl, hxi, ?_⟩⟩
      · intro b j hj; rw [h3, if_neg (by simp [hj])]
      · rw [lv_append]
        refine chain_splice (Q := x.addr :: lv i B) hn hch ?_ ?_
        · intro y _ hne
          simp only [lk]
          rw [h3, if_neg (by simp [hne])]
        · refine chain_of_tail hch2.2 ?_ ?_
          · simp only [lk]
            rw [h3, if_pos ⟨rfl, rfl⟩]
            exact (chain_link hch2.2).symm
          · intro y hy
            simp only [lk]
            rw [h3, if_neg]
            rintro ⟨rfl, _⟩
            rw [← List.cons_append, List.nodup_append] at hn
            exact hn.2.2 _ (lastD_mem head (lv i A)) _ (List.mem_cons_of_mem _ hy) rfl
      · intro b hb
        rw [h3, if_neg]
        rintro ⟨rfl, _⟩
        apply hb
        rcases List.mem_cons.1 hlast with h | h
        · rw [h]; simp
        · exact List.mem_cons_of_mem _ (mem_lv_addr h)
      · have e2 : (lv i ([x] ++ B)).head? = some x.addr := by
          simp [lv_cons_pos _ hxi]
        have he : entryAt w.mem x.addr = some x.e := entryAt_of_shape (hS.tow x (by simp))
        have hl : getLink w.mem x.addr i = some (lv i B).head? := chain_link hch2.2
        rw [e2]
        simp only [unlink, he, hx, if_true, hl, hcur, Option.bind_eq_bind, Option.bind_some, h1]
    · have hx0 : lv i [x] = [] := by rw [lv_cons_neg _ hxi, lv_nil]
      exact ⟨w.mem, ⟨rfl, fun _ _ _ => rfl, hsame hx0, fun _ _ => rfl⟩,
        .inr ⟨.inr ⟨x, rfl, hxi⟩, hstay hx0⟩⟩

omit [LinearOrder K] in
theorem linkNew_ok {head : Addr} {A B : List (Tower (K × V))} {i : Nat} {w : Work K V} {nt : Tower (K × V)}
    {nh : Nat} (hh : nt.h = nh + 1) (hnew : shape w.mem nt.addr = some (some nt.e, nt.h))
    (hlen : ∃ e n, shape w.mem (lastD head (lv i A)) = some (e, n) ∧ i < n)
    (hn : (head :: lv i (A ++ B)).Nodup) (hni : nt.addr ∉ head :: lv i (A ++ B))
    (hch : Chain (lk w.mem i) head (lv i (A ++ B))) (hcur : w.cur = lastD head (lv i A)) :
    ∃ m', linkNew nt.addr nh i w = some { w with mem := m' } ∧ shape m' = shape w.mem ∧
      (∀ b j, j ≠ i → getLink m' b j = getLink w.mem b j) ∧
      Chain (lk m' i) head (lv i (A ++ nt :: B)) := by
  unfold linkNew
  by_cases hi : i ≤ nh
  · rw [if_pos hi]
    rw [lv_append] at hch hn hni
    have hch2 := (chain_append.1 hch).2
    have hl : getLink w.mem w.cur i = some (lv i B).head? := by rw [hcur]; exact chain_link hch2
    obtain ⟨e, n, hs, hin⟩ := hlen
    obtain ⟨m1, h1, h2, h3⟩ := setLink_ok hs hin (some nt.addr)
    rw [← h2] at hnew
    obtain ⟨m2, g1, g2, g3⟩ := setLink_ok hnew (by omega : i < nt.h) (lv i B).head?
    have hlm := lastD_mem head (lv i A)
    have hne : lastD head (lv i A) ≠ nt.addr := by
      rintro h
      rw [h] at hlm
      apply hni
      simp only [List.mem_cons, List.mem_append] at hlm ⊢
      tauto
    refine ⟨m2, by rw [hcur] at hl; simp [hl, hcur, h1, g1], by rw [g2, h2], ?_, ?_⟩
    · intro b j hj
      rw [g3, if_neg (by simp [hj]), h3, if_neg (by simp [hj])]
    · rw [lv_append, lv_cons_pos _ (by omega : i < nt.h)]
      refine chain_splice (Q := lv i B) hn hch ?_ ⟨?_, ?_⟩
      · intro y hy hne'
        simp only [lk]
        rw [g3, if_neg, h3, if_neg (by simp [hne'])]
        rintro ⟨rfl, _⟩
        apply hni
        simp only [List.mem_cons, List.mem_append] at hy ⊢
        tauto
      · simp only [lk]
        rw [g3, if_neg (by simp [hne]), h3, if_pos ⟨rfl, rfl⟩]
      · refine chain_of_tail hch2 ?_ ?_
        · simp only [lk]
          rw [g3, if_pos ⟨rfl, rfl⟩]
          exact (chain_link hch2).symm
        · intro y hy
          simp only [lk]
          rw [g3, if_neg, h3, if_neg]
          · rintro ⟨rfl, _⟩
            rw [← List.cons_append, List.nodup_append] at hn
            exact hn.2.2 _ hlm _ hy rfl
          · rintro ⟨rfl, _⟩
            apply hni
            simp [hy]
  · rw [if_neg hi]
    refine ⟨w.mem, rfl, rfl, fun _ _ _ => rfl, ?_⟩
    rw [lv_append, lv_cons_neg _ (by omega : ¬ i < nt.h), ← lv_append]
    exact hch

/-- A sorted list splits at a key. -/
theorem split_at (key : K) (T : List (Tower (K × V))) (hs : Sorted (T.map (·.e))) :
    ∃ A X B, T = A ++ X ++ B ∧ (∀ t ∈ A, t.e.1 < key) ∧ (X = [] ∨ ∃ x, X = [x] ∧ x.e.1 = key) ∧
      ∀ t ∈ B, key < t.e.1 := by
  induction T with
  | nil => exact ⟨[], [], [], rfl, by simp, .inl rfl, by simp⟩
  | cons t T ih =>
    rw [List.map_cons] at hs
    have hs' := List.pairwise_cons.1 hs
    rcases lt_trichotomy t.e.1 key with h | h | h
    · obtain ⟨A, X, B, rfl, h1, h2, h3⟩ := ih hs'.2
      exact ⟨t :: A, X, B, rfl, by simpa using ⟨h, h1⟩, h2, h3⟩
    · refine ⟨[], [t], T, rfl, by simp, .inr ⟨t, rfl, h⟩, fun x hx => ?_⟩
      rw [← h]; exact hs'.1 _ (List.mem_map.2 ⟨x, hx, rfl⟩)
    · refine ⟨[], [], t :: T, rfl, by simp, .inl rfl, fun x hx => ?_⟩
      rcases List.mem_cons.1 hx with rfl | hx
      · exact h
      · exact lt_trans h (hs'.1 _ (List.mem_map.2 ⟨x, hx, rfl⟩))

/-- The situation before level `i` is processed: higher levels are done, the others untouched. -/
structure Mid (S : Addr → Option (Option (K × V) × Nat)) (head : Addr) (A X N B : List (Tower (K × V)))
    (len : Nat) (i : Nat) (w : Work K V) : Prop where
  shp : Skip.shape w.mem = S
  done : ∀ j ≤ maxHeight, i < j → Chain (lk w.mem j) head (lv j (A ++ N ++ B))
  todo : ∀ j ≤ maxHeight, j ≤ i → Chain (lk w.mem j) head (lv j (A ++ X ++ B))
  cur : ∃ P1 P2, lv i A = P1 ++ P2 ∧ w.cur = lastD head P1
  ret : w.ret = none
  len_eq : w.len = len
  le : i ≤ maxHeight

/-- The situation at the end: the old tower is gone, the new one is there. -/
structure Finish (S : Addr → Option (Option (K × V) × Nat)) (head : Addr) (A X N B : List (Tower (K × V)))
    (len : Nat) (w : Work K V) : Prop where
  shp : ∀ a, Skip.shape w.mem a = if a ∈ X.map (·.addr) then none else S a
  chain : ∀ j ≤ maxHeight, Chain (lk w.mem j) head (lv j (A ++ N ++ B))
  ret : w.ret = X.head?.map (·.e)
  len_eq : w.len + X.length = len

/-- What `removeLevel` does to level `i`. -/
theorem removeLevel_ok {S : Addr → Option (Option (K × V) × Nat)} {head : Addr} {A X N B : List (Tower (K × V))}
    {len fuel : Nat} {key : K} {i : Nat} {w : Work K V} (hlen : X.length ≤ len) (hf : A.length < fuel)
    (hS : Sub S head (A ++ X ++ B))
    (hA : ∀ t ∈ A, t.e.1 < key) (hX : X = [] ∨ ∃ x, X = [x] ∧ x.e.1 = key) (hB : ∀ t ∈ B, key < t.e.1)
    (h : Mid S head A X N B len i w) :
    ∃ w1, removeLevel fuel key i w = some w1 ∧ w1.cur = lastD head (lv i A) ∧
      (∀ a, Skip.shape w1.mem a = if i = 0 ∧ a ∈ X.map (·.addr) then none else S a) ∧
      (∀ b j, b ∉ X.map (·.addr) ∨ i ≠ 0 → j ≠ i → getLink w1.mem b j = getLink w.mem b j) ∧
      Chain (lk w1.mem i) head (lv i (A ++ B)) ∧
      (i ≠ 0 → w1.ret = none ∧ w1.len = len) ∧
      (i = 0 → w1.ret = X.head?.map (·.e) ∧ w1.len + X.length = len) := by
  have hshape := h.shp
  have hS' : Sub (Skip.shape w.mem) head (A ++ X ++ B) := by rw [hshape]; exact hS
  have hw : walk w.mem (fun e => decide (e.1 < key)) i fuel w.cur =
      some (lastD head (lv i A), (lv i (X ++ B)).head?) := by
    refine walk_level (B := X ++ B) ?_ ?_ (by simpa using hA) ?_ hf h.cur
    · intro t ht; exact entryAt_of_shape (hS'.tow t (by simpa using ht))
    · rw [← List.append_assoc]; exact h.todo i h.le (Nat.le_refl _)
    · intro t ht
      simp only [decide_eq_false_iff_not, not_lt]
      rcases List.mem_append.1 ht with ht | ht
      · rcases hX with rfl | ⟨x, rfl, hx⟩
        · simp at ht
        · simp at ht; rw [ht, hx]
      · exact (hB t ht).le
  obtain ⟨m', ⟨g1, g2, g3, _⟩, g4⟩ := unlink_links (w := { w with cur := lastD head (lv i A) }) (key := key) rfl hS' h.le
    (h.todo i h.le (Nat.le_refl _)) hX hB rfl
  simp only at g1 g2
  unfold removeLevel
  rw [hw]
  simp only [Option.bind_eq_bind, Option.bind_some]
  rcases g4 with ⟨x, rfl, hxi, g4⟩ | ⟨hno, g4⟩
  · rw [g4]
    cases i with
    | succ i =>
      refine ⟨_, rfl, rfl, ?_, fun b j _ hj => g2 b j hj, g3, fun _ => ⟨h.ret, h.len_eq⟩, by simp⟩
      intro a; simp [g1, hshape]
    | zero =>
      have hx : Skip.shape m' x.addr = some (some x.e, x.h) := by
        rw [g1, hshape]; exact hS.tow x (by simp)
      obtain ⟨m2, e1, e2, e3⟩ := free_ok hx
      obtain ⟨n, hn⟩ : ∃ n, w.len = n + 1 := ⟨w.len - 1, by rw [h.len_eq]; simp at hlen; omega⟩
      refine ⟨⟨m2, lastD head (lv 0 A), some x.e, n⟩, ?_, rfl, ?_, ?_, ?_, by simp, ?_⟩
      · simp [release, e1, hn, dec]
      · intro a; simp [e2, g1, hshape]
      · intro b j hb hj
        simp only [List.map_cons, List.map_nil, List.mem_singleton, ne_eq, not_true_eq_false, or_false] at hb
        rw [e3, if_neg hb]
        exact g2 b j hj
      · refine chain_frame g3 fun y hy => ?_
        simp only [lk]
        rw [e3, if_neg]
        rintro rfl
        have hnd := nodup_lv (i := 0) hS.nodup
        have e4 : lv 0 (A ++ [x] ++ B) = lv 0 A ++ x.addr :: lv 0 B := by
          simp [lv_append, lv_cons_pos _ hxi]
        rw [e4, ← List.cons_append, List.perm_middle.nodup_iff, List.nodup_cons] at hnd
        apply hnd.1
        simpa [lv_append] using hy
      · intro _; simp; rw [← h.len_eq, hn]
  · rw [g4]
    have hx0 : i ≠ 0 ∨ X = [] := by
      rcases hno with rfl | ⟨x, rfl, hx⟩
      · exact .inr rfl
      · left; rintro rfl
        exact hx (hS.pos x (by simp)).1
    refine ⟨_, rfl, rfl, ?_, fun b j _ hj => g2 b j hj, g3, fun _ => ⟨h.ret, h.len_eq⟩, ?_⟩
    · intro a
      rw [if_neg]
      · simp [g1, hshape]
      · rintro ⟨h1, h2⟩
        rcases hx0 with h3 | rfl
        · exact h3 h1
        · simp at h2
    · intro hi
      rcases hx0 with h3 | rfl
      · exact absurd hi h3
      · simp [h.ret, h.len_eq]

theorem insertLevel_eq (fuel : Nat) (new : Addr) (nh : Nat) (key : K) (i : Nat) (w : Work K V) :
    insertLevel fuel new nh key i w = (removeLevel fuel key i w).bind (linkNew new nh i) := by
  unfold insertLevel removeLevel
  cases walk w.mem (fun e => decide (e.1 < key)) i fuel w.cur <;> rfl

/-- One level of both loops: the body unlinks level `i` and then leaves the level as `A ++ N ++ B`. -/
theorem levels_step {S : Addr → Option (Option (K × V) × Nat)} {head : Addr} {A X N B : List (Tower (K × V))}
    {len fuel : Nat} {key : K} (hlen : X.length ≤ len) (hf : A.length < fuel)
    (hS : Sub S head (A ++ X ++ B)) (hN : Sub S head (A ++ N ++ B))
    (hXN : ∀ a ∈ head :: (A ++ N ++ B).map (·.addr), a ∉ X.map (·.addr))
    (hA : ∀ t ∈ A, t.e.1 < key) (hX : X = [] ∨ ∃ x, X = [x] ∧ x.e.1 = key) (hB : ∀ t ∈ B, key < t.e.1)
    {body : Nat → Work K V → Option (Work K V)} (g : Nat → Work K V → Option (Work K V))
    (hbody : ∀ i w, body i w = (removeLevel fuel key i w).bind (g i))
    (hg : ∀ i ≤ maxHeight, ∀ w : Work K V, (∀ a ∉ X.map (·.addr), Skip.shape w.mem a = S a) →
      Chain (lk w.mem i) head (lv i (A ++ B)) → w.cur = lastD head (lv i A) →
      ∃ m', g i w = some { w with mem := m' } ∧ Skip.shape m' = Skip.shape w.mem ∧
        (∀ b j, j ≠ i → getLink m' b j = getLink w.mem b j) ∧ Chain (lk m' i) head (lv i (A ++ N ++ B)))
    {i : Nat} {w : Work K V} (hw : Mid S head A X N B len (i + 1) w) :
    ∃ w', body (i + 1) w = some w' ∧ Mid S head A X N B len i w' ∧ w'.cur = lastD head (lv (i + 1) A) := by
  obtain ⟨w1, h1, h2, h3, h4, h5, h6, _⟩ := removeLevel_ok hlen hf hS hA hX hB hw
  obtain ⟨m', g1, g2, g3, g4⟩ := hg (i + 1) hw.le w1 (fun a _ => by simp [h3]) h5 h2
  refine ⟨{ w1 with mem := m' }, by rw [hbody, h1]; simpa using g1, ⟨?_, ?_, ?_, ?_, (h6 (by simp)).1,
    (h6 (by simp)).2, by have := hw.le; omega⟩, h2⟩
  · funext a; simp [g2, h3]
  · intro j hj hij
    by_cases hji : j = i + 1
    · subst hji; exact g4
    · refine chain_frame (hw.done j hj (by omega)) fun y _ => ?_
      simp only [lk]
      rw [g3 y j hji, h4 y j (.inr (by simp)) hji]
  · intro j hj hij
    refine chain_frame (hw.todo j hj (by omega)) fun y _ => ?_
    simp only [lk]
    rw [g3 y j (by omega), h4 y j (.inr (by simp)) (by omega)]
  · simp only [h2]
    exact cur_down i head A

/-- The bottom level of both loops. -/
theorem levels_last {S : Addr → Option (Option (K × V) × Nat)} {head : Addr} {A X N B : List (Tower (K × V))}
    {len fuel : Nat} {key : K} (hlen : X.length ≤ len) (hf : A.length < fuel)
    (hS : Sub S head (A ++ X ++ B)) (hN : Sub S head (A ++ N ++ B))
    (hXN : ∀ a ∈ head :: (A ++ N ++ B).map (·.addr), a ∉ X.map (·.addr))
    (hA : ∀ t ∈ A, t.e.1 < key) (hX : X = [] ∨ ∃ x, X = [x] ∧ x.e.1 = key) (hB : ∀ t ∈ B, key < t.e.1)
    {body : Nat → Work K V → Option (Work K V)} (g : Nat → Work K V → Option (Work K V))
    (hbody : ∀ i w, body i w = (removeLevel fuel key i w).bind (g i))
    (hg : ∀ i ≤ maxHeight, ∀ w : Work K V, (∀ a ∉ X.map (·.addr), Skip.shape w.mem a = S a) →
      Chain (lk w.mem i) head (lv i (A ++ B)) → w.cur = lastD head (lv i A) →
      ∃ m', g i w = some { w with mem := m' } ∧ Skip.shape m' = Skip.shape w.mem ∧
        (∀ b j, j ≠ i → getLink m' b j = getLink w.mem b j) ∧ Chain (lk m' i) head (lv i (A ++ N ++ B)))
    {w : Work K V} (hw : Mid S head A X N B len 0 w) :
    ∃ w', body 0 w = some w' ∧ Finish S head A X N B len w' := by
  obtain ⟨w1, h1, h2, h3, h4, h5, _, h6⟩ := removeLevel_ok hlen hf hS hA hX hB hw
  obtain ⟨m', g1, g2, g3, g4⟩ := hg 0 hw.le w1 (fun a ha => by rw [h3, if_neg (by simp [ha])]) h5 h2
  refine ⟨{ w1 with mem := m' }, by rw [hbody, h1]; simpa using g1, ?_, ?_, (h6 rfl).1, (h6 rfl).2⟩
  · intro a; simp [g2, h3]
  · intro j hj
    by_cases hj0 : j = 0
    · subst hj0; exact g4
    · refine chain_frame (hw.done j hj (by omega)) fun y hy => ?_
      simp only [lk]
      rw [g3 y j hj0, h4 y j (.inl (hXN y ?_)) hj0]
      rcases List.mem_cons.1 hy with rfl | hy
      · simp
      · exact List.mem_cons_of_mem _ (mem_lv_addr hy)

/-- Both loops. -/
theorem levels_ok {S : Addr → Option (Option (K × V) × Nat)} {head : Addr} {A X N B : List (Tower (K × V))}
    {len fuel : Nat} {key : K} (hlen : X.length ≤ len) (hf : A.length < fuel)
    (hS : Sub S head (A ++ X ++ B)) (hN : Sub S head (A ++ N ++ B))
    (hXN : ∀ a ∈ head :: (A ++ N ++ B).map (·.addr), a ∉ X.map (·.addr))
    (hA : ∀ t ∈ A, t.e.1 < key) (hX : X = [] ∨ ∃ x, X = [x] ∧ x.e.1 = key) (hB : ∀ t ∈ B, key < t.e.1)
    {body : Nat → Work K V → Option (Work K V)} (g : Nat → Work K V → Option (Work K V))
    (hbody : ∀ i w, body i w = (removeLevel fuel key i w).bind (g i))
    (hg : ∀ i ≤ maxHeight, ∀ w : Work K V, (∀ a ∉ X.map (·.addr), Skip.shape w.mem a = S a) →
      Chain (lk w.mem i) head (lv i (A ++ B)) → w.cur = lastD head (lv i A) →
      ∃ m', g i w = some { w with mem := m' } ∧ Skip.shape m' = Skip.shape w.mem ∧
        (∀ b j, j ≠ i → getLink m' b j = getLink w.mem b j) ∧ Chain (lk m' i) head (lv i (A ++ N ++ B)))
    {w : Work K V} (h : Mid S head A X N B len maxHeight w) :
    ∃ w', downFrom body maxHeight w = some w' ∧ Finish S head A X N B len w' := by
  refine downFrom_ind (Mid S head A X N B len) _ (fun i w hw => ?_)
    (fun w hw => levels_last hlen hf hS hN hXN hA hX hB g hbody hg hw) maxHeight w h
  obtain ⟨w', h1, h2, _⟩ := levels_step hlen hf hS hN hXN hA hX hB g hbody hg hw
  exact ⟨w', h1, h2⟩

theorem mid_init {m : MHeap K V} {head : Addr} {A X N B : List (Tower (K × V))} {n : Nat}
    (hc : ∀ j ≤ maxHeight, Chain (lk m j) head (lv j (A ++ X ++ B))) :
    Mid (Skip.shape m) head A X N B n maxHeight ⟨m, head, none, n⟩ :=
  ⟨rfl, fun _ h h' => absurd h (by omega), fun j hj _ => hc j hj, ⟨[], lv maxHeight A, rfl, rfl⟩, rfl, rfl,
    Nat.le_refl _⟩

theorem sorted_drop {A X B : List (Tower (K × V))} (hs : Sorted ((A ++ X ++ B).map (·.e))) :
    Sorted ((A ++ B).map (·.e)) := by
  refine List.Pairwise.sublist ?_ hs
  refine List.Sublist.map _ ?_
  rw [List.append_assoc]
  exact (List.sublist_append_right X B).append_left A

theorem map_find {key : K} {A X B : List (Tower (K × V))} (hA : ∀ t ∈ A, t.e.1 < key)
    (hX : X = [] ∨ ∃ x, X = [x] ∧ x.e.1 = key) (hB : ∀ t ∈ B, key < t.e.1) :
    find key ((A ++ X ++ B).map (·.e)) = X.head?.map (·.e) := by
  have h1 : find key (A.map (·.e)) = none := find_of_lt_all (by simpa using hA)
  have h2 : find key (B.map (·.e)) = none := find_of_all_lt (by simpa using hB)
  rw [List.map_append, List.map_append, find_append, find_append, h1, h2]
  rcases hX with rfl | ⟨x, rfl, hx⟩
  · rfl
  · simp [find, hx]

theorem map_del {key : K} {A X B : List (Tower (K × V))} (hA : ∀ t ∈ A, t.e.1 < key)
    (hX : X = [] ∨ ∃ x, X = [x] ∧ x.e.1 = key) (hB : ∀ t ∈ B, key < t.e.1) :
    del key ((A ++ X ++ B).map (·.e)) = (A ++ B).map (·.e) := by
  have h1 : del key (A.map (·.e)) = A.map (·.e) := del_of_lt_all (by simpa using hA)
  have h2 : del key (B.map (·.e)) = B.map (·.e) := del_of_all_lt (by simpa using hB)
  rw [List.map_append, List.map_append, del_append, del_append, h1, h2, List.map_append]
  rcases hX with rfl | ⟨x, rfl, hx⟩
  · simp [del]
  · simp [del, hx]

/-- The key and the number of links of a tower. -/
def kh (t : Tower (K × V)) : K × Nat := (t.e.1, t.h)

theorem kh_del {key : K} {A X B : List (Tower (K × V))} (hA : ∀ t ∈ A, t.e.1 < key)
    (hX : X = [] ∨ ∃ x, X = [x] ∧ x.e.1 = key) (hB : ∀ t ∈ B, key < t.e.1) :
    del key ((A ++ X ++ B).map kh) = (A ++ B).map kh := by
  have h1 : del key (A.map kh) = A.map kh := del_of_lt_all (by simpa [kh] using hA)
  have h2 : del key (B.map kh) = B.map kh := del_of_all_lt (by simpa [kh] using hB)
  rw [List.map_append, List.map_append, del_append, del_append, h1, h2, List.map_append]
  rcases hX with rfl | ⟨x, rfl, hx⟩
  · simp [del]
  · simp [del, kh, hx]

/-- The situation before the loop of `remove`. -/
theorem remove_pre {s : SkipMap K V} {A X B : List (Tower (K × V))} (h : Good s (A ++ X ++ B)) :
    Sub (Skip.shape s.mem) s.head (A ++ [] ++ B) ∧
    (∀ a ∈ s.head :: (A ++ ([] : List (Tower (K × V))) ++ B).map (·.addr), a ∉ X.map (·.addr)) := by
  obtain ⟨hr, hlen, hs, hb⟩ := h
  have hsub : Sub (Skip.shape s.mem) s.head (A ++ [] ++ B) := by
    refine hr.shp.1.sub ?_
    rw [List.append_nil, List.append_assoc]
    exact (List.sublist_append_right X B).append_left A
  have hXN : ∀ a ∈ s.head :: (A ++ ([] : List (Tower (K × V))) ++ B).map (·.addr), a ∉ X.map (·.addr) := by
    intro a ha hx
    have := hr.shp.1.nodup
    rw [List.map_append, List.map_append, ← List.cons_append, ← List.cons_append] at this
    have p : ((s.head :: A.map (·.addr) ++ X.map (·.addr)) ++ B.map (·.addr)).Perm
        (X.map (·.addr) ++ (s.head :: A.map (·.addr) ++ B.map (·.addr))) := by
      rw [List.append_assoc]
      exact (List.perm_append_comm_assoc _ _ _)
    rw [p.nodup_iff, List.nodup_append] at this
    refine this.2.2 _ hx _ ?_ rfl
    simpa using ha
  exact ⟨hsub, hXN⟩

theorem remove_ok' {s : SkipMap K V} {T : List (Tower (K × V))} (h : Good s T) (key : K) :
    ∃ s' T', s.remove key = some (s', find key (T.map (·.e))) ∧ Good s' T' ∧
      T'.map (·.e) = del key (T.map (·.e)) ∧ T'.map kh = del key (T.map kh) := by
  obtain ⟨hr, hlen, hs, hb⟩ := h
  obtain ⟨A, X, B, rfl, hA, hX, hB⟩ := split_at key T hs
  obtain ⟨hsub, hXN⟩ := remove_pre ⟨hr, hlen, hs, hb⟩
  obtain ⟨w, h1, h2⟩ := levels_ok (N := []) (len := s.len) (fuel := s.len + 1) (body := removeLevel (s.len + 1) key) (by simp [hlen]; omega) (by simp [hlen]; omega)
    hr.shp.1 hsub hXN hA hX hB (fun _ w => some w) (fun i w => by simp)
    (fun i _ w _ hc _ => ⟨w.mem, rfl, rfl, fun _ _ _ => rfl, by simpa using hc⟩) (mid_init hr.chain)
  refine ⟨⟨w.mem, s.head, w.len, s.bump⟩, A ++ B, ?_, ⟨⟨⟨?_, ?_⟩, ?_⟩, ?_, sorted_drop hs, ?_⟩, (map_del hA hX hB).symm,
    (kh_del hA hX hB).symm⟩
  · unfold SkipMap.remove
    rw [h1]
    simp [h2.ret, ← map_find hA hX hB]
  · have e : A ++ B = A ++ [] ++ B := by simp
    rw [e]
    refine hsub.congr fun a ha => ?_
    rw [h2.shp, if_neg (hXN a ha)]
  · intro a h3 h4
    simp only
    rw [h2.shp]
    split
    · rfl
    · rename_i h5
      refine hr.shp.2 a h3 ?_
      simp only [List.map_append, List.mem_append] at h4 ⊢
      tauto
  · intro i hi
    simpa using h2.chain i hi
  · have := h2.len_eq
    simp only [hlen, List.length_append] at this ⊢
    omega
  · intro a ha
    have h3 := h2.shp a
    have h4 : Skip.shape s.mem a = none := by simp [Skip.shape, hb a ha]
    rw [h4, ite_self] at h3
    simpa [Skip.shape] using h3

theorem remove_ok {s : SkipMap K V} {T : List (Tower (K × V))} (h : Good s T) (key : K) :
    ∃ s' T', s.remove key = some (s', find key (T.map (·.e))) ∧ Good s' T' ∧
      T'.map (·.e) = del key (T.map (·.e)) := by
  obtain ⟨s', T', h1, h2, h3, _⟩ := remove_ok' h key
  exact ⟨s', T', h1, h2, h3⟩

theorem map_ins {key : K} {v : V} {A X B : List (Tower (K × V))} {nt : Tower (K × V)} (hn : nt.e = (key, v))
    (hA : ∀ t ∈ A, t.e.1 < key)
    (hX : X = [] ∨ ∃ x, X = [x] ∧ x.e.1 = key) (hB : ∀ t ∈ B, key < t.e.1) :
    ins key v ((A ++ X ++ B).map (·.e)) = (A ++ nt :: B).map (·.e) := by
  induction A with
  | nil =>
    rcases hX with rfl | ⟨x, rfl, hx⟩
    · cases B with
      | nil => simp [ins, hn]
      | cons b B => simp [ins, hn, hB b (by simp)]
    · simp [ins, hn, hx]
  | cons a A ih =>
    have h1 := hA a (by simp)
    have h2 := ih fun t ht => hA t (by simp [ht])
    simp only [List.cons_append, List.map_cons, ins, not_lt_of_gt h1, if_false, h1, if_true]
    rw [h2]

theorem kh_ins {key : K} {n : Nat} {A X B : List (Tower (K × V))} {nt : Tower (K × V)} (hn : kh nt = (key, n))
    (hA : ∀ t ∈ A, t.e.1 < key)
    (hX : X = [] ∨ ∃ x, X = [x] ∧ x.e.1 = key) (hB : ∀ t ∈ B, key < t.e.1) :
    ins key n ((A ++ X ++ B).map kh) = (A ++ nt :: B).map kh := by
  induction A with
  | nil =>
    rcases hX with rfl | ⟨x, rfl, hx⟩
    · cases B with
      | nil => simp [ins, hn]
      | cons b B => rw [List.append_nil, List.nil_append, List.nil_append, List.map_cons, List.map_cons, hn, List.map_cons]
                    simp only [ins]
                    rw [if_pos (show key < (kh b).1 from hB b (by simp))]
    · rw [List.nil_append, List.singleton_append, List.map_cons, List.nil_append, List.map_cons, hn]
      simp only [ins]
      rw [if_neg (by simp [kh, hx]), if_neg (by simp [kh, hx])]
  | cons a A ih =>
    have h1 : (kh a).1 < key := hA a (by simp)
    have h2 := ih fun t ht => hA t (by simp [ht])
    simp only [List.cons_append, List.map_cons, ins, not_lt_of_gt h1, if_false, h1, if_true]
    rw [h2]

/-- The node `insert` adds (map.rs:143-144). -/
def newTower (s : SkipMap K V) (key : K) (v : V) (nh off : Nat) : Tower (K × V) := ⟨s.bump + off, (key, v), nh + 1⟩

/-- The memory with that node. -/
def newMem (s : SkipMap K V) (key : K) (v : V) (nh off : Nat) : MHeap K V :=
  s.mem.put (newTower s key v nh off).addr ⟨some (key, v), List.replicate (nh + 1) none⟩

/-- The situation before the loop of `insert`. -/
theorem insert_pre {s : SkipMap K V} {A X B : List (Tower (K × V))} (h : Good s (A ++ X ++ B)) (key : K) (v : V)
    (nh off : Nat) (hnh : nh ≤ maxHeight) :
    (∀ a, Skip.shape (newMem s key v nh off) a =
      if a = (newTower s key v nh off).addr then some (some (key, v), nh + 1) else Skip.shape s.mem a) ∧
    Sub (Skip.shape (newMem s key v nh off)) s.head (A ++ X ++ B) ∧
    Sub (Skip.shape (newMem s key v nh off)) s.head (A ++ [newTower s key v nh off] ++ B) ∧
    (∀ a ∈ s.head :: (A ++ [newTower s key v nh off] ++ B).map (·.addr), a ∉ X.map (·.addr)) ∧
    (∀ j ≤ maxHeight, Chain (lk (newMem s key v nh off) j) s.head (lv j (A ++ X ++ B))) ∧
    (∀ i ≤ maxHeight, ∀ w : Work K V,
      (∀ a ∉ X.map (·.addr), Skip.shape w.mem a = Skip.shape (newMem s key v nh off) a) →
      Chain (lk w.mem i) s.head (lv i (A ++ B)) → w.cur = lastD s.head (lv i A) →
      ∃ m', linkNew (newTower s key v nh off).addr nh i w = some { w with mem := m' } ∧
        Skip.shape m' = Skip.shape w.mem ∧ (∀ b j, j ≠ i → getLink m' b j = getLink w.mem b j) ∧
        Chain (lk m' i) s.head (lv i (A ++ [newTower s key v nh off] ++ B))) := by
  obtain ⟨hr, hlen, hs, hb⟩ := h
  set nt := newTower s key v nh off with hnt
  have hfree : s.mem nt.addr = none := hb _ (Nat.le_add_right _ _)
  have hfresh : nt.addr ∉ s.head :: (A ++ X ++ B).map (·.addr) := by
    intro hc
    rcases List.mem_cons.1 hc with hc | hc
    · have := hr.shp.1.hd
      rw [← hc] at this
      simp [Skip.shape, hfree] at this
    · obtain ⟨t, ht, he⟩ := List.mem_map.1 hc
      have := hr.shp.1.tow t ht
      rw [he] at this
      simp [Skip.shape, hfree] at this
  set mem0 := newMem s key v nh off with hmem0
  have hsh : ∀ a, Skip.shape mem0 a = if a = nt.addr then some (some (key, v), nh + 1) else Skip.shape s.mem a := by
    intro a; simp only [hmem0, hnt, newMem, shape_put, List.length_replicate]
  have hgl : ∀ a j, a ≠ nt.addr → getLink mem0 a j = getLink s.mem a j := by
    intro a j ha; rw [hmem0, newMem, getLink_put, if_neg ha]
  have hS : Sub (Skip.shape mem0) s.head (A ++ X ++ B) := by
    refine hr.shp.1.congr fun a ha => ?_
    rw [hsh, if_neg]
    rintro rfl; exact hfresh ha
  have hAB : (A ++ B).Sublist (A ++ X ++ B) := by
    rw [List.append_assoc]
    exact (List.sublist_append_right X B).append_left A
  have hnd : (s.head :: (A ++ B).map (·.addr)).Nodup := (hS.sub hAB).nodup
  have hfresh' : nt.addr ∉ s.head :: (A ++ B).map (·.addr) := fun hc => hfresh (((hAB.map _).cons_cons _).mem hc)
  have hN : Sub (Skip.shape mem0) s.head (A ++ [nt] ++ B) := by
    refine ⟨hS.hd, ?_, ?_, ?_⟩
    · intro t ht
      by_cases e : t = nt
      · subst e; rw [hsh, if_pos rfl]; rfl
      · exact hS.tow t (by simp at ht ⊢; tauto)
    · intro t ht
      by_cases e : t = nt
      · subst e; exact ⟨Nat.succ_pos _, Nat.succ_le_succ hnh⟩
      · exact hS.pos t (by simp at ht ⊢; tauto)
    · have p : (s.head :: (A ++ [nt] ++ B).map (·.addr)).Perm (nt.addr :: s.head :: (A ++ B).map (·.addr)) := by
        simp only [List.append_assoc, List.map_append, List.map_cons, List.map_nil, List.singleton_append]
        rw [← List.cons_append, ← List.cons_append]
        exact List.perm_middle
      rw [p.nodup_iff, List.nodup_cons]
      exact ⟨hfresh', hnd⟩
  have hXN : ∀ a ∈ s.head :: (A ++ [nt] ++ B).map (·.addr), a ∉ X.map (·.addr) := by
    intro a ha hx
    have hd := hS.nodup
    rw [List.map_append, List.map_append, ← List.cons_append, ← List.cons_append] at hd
    have p : ((s.head :: A.map (·.addr) ++ X.map (·.addr)) ++ B.map (·.addr)).Perm
        (X.map (·.addr) ++ (s.head :: A.map (·.addr) ++ B.map (·.addr))) := by
      rw [List.append_assoc]
      exact (List.perm_append_comm_assoc _ _ _)
    rw [p.nodup_iff, List.nodup_append] at hd
    by_cases e : a = nt.addr
    · subst e
      apply hfresh
      simp only [List.map_append, List.mem_cons, List.mem_append]
      tauto
    · refine hd.2.2 _ hx _ ?_ rfl
      simp only [List.map_append, List.map_cons, List.map_nil, List.mem_cons, List.mem_append,
        List.not_mem_nil, or_false, List.cons_append] at ha ⊢
      tauto
  have hch : ∀ j ≤ maxHeight, Chain (lk mem0 j) s.head (lv j (A ++ X ++ B)) := by
    intro j hj
    refine chain_frame (hr.chain j hj) fun y hy => ?_
    simp only [lk]
    apply hgl
    rintro rfl
    apply hfresh
    rcases List.mem_cons.1 hy with hy | hy
    · rw [hy]; simp
    · exact List.mem_cons_of_mem _ (mem_lv_addr hy)
  exact ⟨hsh, hS, hN, hXN, hch,
    (fun i hi w hw hc hcur => by
      have hsub : Sub (Skip.shape w.mem) s.head (A ++ [nt] ++ B) :=
        hN.congr fun a ha => hw a (hXN a ha)
      have hlast : lastD s.head (lv i A) ∈ s.head :: lv i (A ++ [nt] ++ B) := by
        have := lastD_mem s.head (lv i A)
        simp only [List.append_assoc, lv_append, List.mem_cons, List.mem_append] at this ⊢
        tauto
      have := linkNew_ok (nt := nt) (nh := nh) rfl (hsub.tow nt (by simp)) (hsub.len_of_mem hi hlast)
        (nodup_lv hnd) (fun hc => hfresh' ?_) hc hcur
      · simpa using this
      · rcases List.mem_cons.1 hc with hc | hc
        · rw [hc]; simp
        · exact List.mem_cons_of_mem _ (mem_lv_addr hc))⟩

theorem insert_ok' {s : SkipMap K V} {T : List (Tower (K × V))} (h : Good s T) (key : K) (v : V) (nh off : Nat)
    (hnh : nh ≤ maxHeight) :
    ∃ s' T', s.insert key v nh off = some (s', find key (T.map (·.e))) ∧ Good s' T' ∧
      T'.map (·.e) = ins key v (T.map (·.e)) ∧ T'.map kh = ins key (nh + 1) (T.map kh) := by
  obtain ⟨hr, hlen, hs, hb⟩ := h
  obtain ⟨A, X, B, rfl, hA, hX, hB⟩ := split_at key T hs
  obtain ⟨hsh, hS, hN, hXN, hch, hg⟩ := insert_pre ⟨hr, hlen, hs, hb⟩ key v nh off hnh
  let nt : Tower (K × V) := newTower s key v nh off
  let mem0 : MHeap K V := newMem s key v nh off
  obtain ⟨w, h1, h2⟩ := levels_ok (N := [nt]) (len := s.len + 1) (fuel := s.len + 1)
    (body := insertLevel (s.len + 1) nt.addr nh key) (by simp [hlen]; omega) (by simp [hlen]; omega)
    hS hN hXN hA hX hB (linkNew nt.addr nh) (insertLevel_eq _ _ _ _)
    hg (mid_init hch)
  refine ⟨⟨w.mem, s.head, w.len, nt.addr + 1⟩, A ++ nt :: B, ?_, ⟨⟨⟨?_, ?_⟩, ?_⟩, ?_, ?_, ?_⟩,
    (map_ins rfl hA hX hB).symm, (kh_ins rfl hA hX hB).symm⟩
  · unfold SkipMap.insert
    simp only
    rw [show downFrom (insertLevel (s.len + 1) (s.bump + off) nh key) maxHeight
      ⟨s.mem.put (s.bump + off) ⟨some (key, v), List.replicate (nh + 1) none⟩, s.head, none, s.len + 1⟩ = some w from h1]
    simp [h2.ret, ← map_find hA hX hB, nt, newTower]
  · have e : A ++ nt :: B = A ++ [nt] ++ B := by simp
    rw [e]
    refine hN.congr fun a ha => ?_
    rw [h2.shp, if_neg (hXN a ha)]
  · intro a h3 h4
    simp only
    rw [h2.shp]
    split
    · rfl
    · rename_i h5
      rw [hsh, if_neg]
      · refine hr.shp.2 a h3 ?_
        simp only [List.map_append, List.mem_append, List.map_cons, List.mem_cons] at h4 ⊢
        tauto
      · rintro rfl; apply h4; simp [nt]
  · intro i hi
    simpa using h2.chain i hi
  · have := h2.len_eq
    simp only [hlen, List.length_append, List.length_cons] at this ⊢
    omega
  · rw [← map_ins (nt := nt) (v := v) rfl hA hX hB]; exact sorted_ins hs
  · intro a ha
    have h3 := h2.shp a
    have h4 : Skip.shape mem0 a = none := by
      simp only at ha
      rw [hsh, if_neg (Nat.ne_of_gt ha)]
      simp only [Skip.shape, Option.map_eq_none_iff]
      exact hb a (Nat.le_trans (Nat.le_add_right _ off) (Nat.le_of_succ_le ha))
    rw [h4, ite_self] at h3
    simpa [Skip.shape] using h3

theorem insert_ok {s : SkipMap K V} {T : List (Tower (K × V))} (h : Good s T) (key : K) (v : V) (nh off : Nat)
    (hnh : nh ≤ maxHeight) :
    ∃ s' T', s.insert key v nh off = some (s', find key (T.map (·.e))) ∧ Good s' T' ∧
      T'.map (·.e) = ins key v (T.map (·.e)) := by
  obtain ⟨s', T', h1, h2, h3, _⟩ := insert_ok' h key v nh off hnh
  exact ⟨s', T', h1, h2, h3⟩

end Verif.Skip.Map
