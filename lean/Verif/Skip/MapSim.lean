/- Lookups, iteration, `clear`, `drop` of a skip map, and its simulation by sorted lists. -/
import Verif.Skip.MapLemmas

namespace Verif.Skip.Map

open Verif.Spec Verif.SL

variable {K V : Type} [LinearOrder K]

theorem startHeight_le (n : Nat) : startHeight n ≤ maxHeight := by
  unfold startHeight maxHeight
  split
  · omega
  · rename_i h
    have := (Nat.log2_lt h).2 (Nat.mod_lt n (Nat.two_pow_pos 32))
    omega

theorem lookup_ok {m : MHeap K V} {head : Addr} {A X B : List (Tower (K × V))} {key : K} {fuel : Nat}
    (hS : Sub (shape m) head (A ++ X ++ B)) (hf : A.length < fuel)
    (hch : ∀ i ≤ maxHeight, Chain (lk m i) head (lv i (A ++ X ++ B)))
    (hA : ∀ t ∈ A, t.e.1 < key) (hX : X = [] ∨ ∃ x, X = [x] ∧ x.e.1 = key) (hB : ∀ t ∈ B, key < t.e.1)
    (i : Nat) (hi : i ≤ maxHeight) (cur : Addr) (hcur : ∃ P1 P2, lv i A = P1 ++ P2 ∧ cur = lastD head P1) :
    lookup m key fuel i cur = some (X.head?.map (·.addr)) := by
  induction i generalizing cur with
  | zero =>
    have hw : walk m (fun e => decide (e.1 < key)) 0 fuel cur =
        some (lastD head (lv 0 A), (lv 0 (X ++ B)).head?) := by
      refine walk_level (B := X ++ B) ?_ ?_ (by simpa using hA) ?_ hf hcur
      · intro t ht; exact entryAt_of_shape (hS.tow t (by simpa using ht))
      · rw [← List.append_assoc]; exact hch 0 hi
      · intro t ht
        simp only [decide_eq_false_iff_not, not_lt]
        rcases List.mem_append.1 ht with ht | ht
        · rcases hX with rfl | ⟨x, rfl, hx⟩
          · simp at ht
          · simp at ht; rw [ht, hx]
        · exact (hB t ht).le
    rw [lookup.eq_def]
    simp only [hw]
    rcases hX with rfl | ⟨x, rfl, hx⟩
    · simp only [List.nil_append]
      cases hq : (lv 0 B).head? with
      | none => rfl
      | some b =>
        obtain ⟨t, ht, _, rfl⟩ := mem_lv.1 (List.mem_of_mem_head? hq)
        have he : entryAt m t.addr = some t.e := entryAt_of_shape (hS.tow t (by simp [ht]))
        simp only [hit, he]
        rw [if_neg (ne_of_gt (hB t ht))]
        rfl
    · have hp := (hS.pos x (by simp)).1
      have he : entryAt m x.addr = some x.e := entryAt_of_shape (hS.tow x (by simp))
      simp [lv_cons_pos _ hp, hit, he, hx]
  | succ i ih =>
    have hw : walk m (fun e => decide (e.1 < key)) (i + 1) fuel cur =
        some (lastD head (lv (i + 1) A), (lv (i + 1) (X ++ B)).head?) := by
      refine walk_level (B := X ++ B) ?_ ?_ (by simpa using hA) ?_ hf hcur
      · intro t ht; exact entryAt_of_shape (hS.tow t (by simpa using ht))
      · rw [← List.append_assoc]; exact hch (i + 1) hi
      · intro t ht
        simp only [decide_eq_false_iff_not, not_lt]
        rcases List.mem_append.1 ht with ht | ht
        · rcases hX with rfl | ⟨x, rfl, hx⟩
          · simp at ht
          · simp at ht; rw [ht, hx]
        · exact (hB t ht).le
    have hrec := ih (by omega) (lastD head (lv (i + 1) A)) (cur_down i head A)
    rw [lookup.eq_def]
    simp only [hw]
    have hmiss : lv (i + 1) X = [] → hit m key (lv (i + 1) (X ++ B)).head? = some none := by
      intro hx
      rw [lv_append, hx, List.nil_append]
      cases hq : (lv (i + 1) B).head? with
      | none => rfl
      | some b =>
        obtain ⟨t, ht, _, rfl⟩ := mem_lv.1 (List.mem_of_mem_head? hq)
        have he : entryAt m t.addr = some t.e := entryAt_of_shape (hS.tow t (by simp [ht]))
        simp only [hit, he]
        rw [if_neg (ne_of_gt (hB t ht))]
    rcases hX with rfl | ⟨x, rfl, hx⟩
    · simp only [hmiss rfl]
      exact hrec
    · by_cases hp : i + 1 < x.h
      · have he : entryAt m x.addr = some x.e := entryAt_of_shape (hS.tow x (by simp))
        simp [lv_cons_pos _ hp, hit, he, hx]
      · simp only [hmiss (by rw [lv_cons_neg _ hp, lv_nil])]
        exact hrec

/-- The search may start at any level. -/
theorem lookup_at {s : SkipMap K V} {T : List (Tower (K × V))} (h : Good s T) {A X B key}
    (e : T = A ++ X ++ B)
    (hA : ∀ t ∈ A, t.e.1 < key) (hX : X = [] ∨ ∃ x, X = [x] ∧ x.e.1 = key) (hB : ∀ t ∈ B, key < t.e.1)
    {i : Nat} (hi : i ≤ maxHeight) :
    lookup s.mem key (s.len + 1) i s.head = some (X.head?.map (·.addr)) := by
  subst e
  obtain ⟨hr, hlen, hs, hb⟩ := h
  exact lookup_ok hr.shp.1 (by simp [hlen]; omega) hr.chain hA hX hB _ hi _
    ⟨[], _, rfl, rfl⟩

theorem lookup_good {s : SkipMap K V} {T : List (Tower (K × V))} (h : Good s T) {A X B key}
    (e : T = A ++ X ++ B)
    (hA : ∀ t ∈ A, t.e.1 < key) (hX : X = [] ∨ ∃ x, X = [x] ∧ x.e.1 = key) (hB : ∀ t ∈ B, key < t.e.1) :
    lookup s.mem key (s.len + 1) (startHeight s.len) s.head = some (X.head?.map (·.addr)) :=
  lookup_at h e hA hX hB (startHeight_le _)

theorem get_ok {s : SkipMap K V} {T : List (Tower (K × V))} (h : Good s T) (key : K) :
    s.get key = some (find key (T.map (·.e))) := by
  obtain ⟨A, X, B, rfl, hA, hX, hB⟩ := split_at key T h.2.2.1
  rw [map_find hA hX hB]
  unfold SkipMap.get
  rw [lookup_good h rfl hA hX hB]
  rcases hX with rfl | ⟨x, rfl, hx⟩
  · rfl
  · have he : entryAt s.mem x.addr = some x.e := entryAt_of_shape (h.1.shp.1.tow x (by simp))
    simp [he]

/-- The tower with its value changed. -/
def setVal (f : V → V) (x : Tower (K × V)) : Tower (K × V) := ⟨x.addr, (x.e.1, f x.e.2), x.h⟩

theorem map_upd {key : K} {f : V → V} {A X B : List (Tower (K × V))} (hA : ∀ t ∈ A, t.e.1 < key)
    (hX : X = [] ∨ ∃ x, X = [x] ∧ x.e.1 = key) (hB : ∀ t ∈ B, key < t.e.1) :
    upd key f ((A ++ X ++ B).map (·.e)) =
      (A ++ X.map (setVal f) ++ B).map (·.e) := by
  have h1 : upd key f (A.map (·.e)) = A.map (·.e) :=
    upd_of_not_mem (by intro a ha; obtain ⟨t, ht, rfl⟩ := List.mem_map.1 ha; exact ne_of_lt (hA t ht))
  have h2 : upd key f (B.map (·.e)) = B.map (·.e) :=
    upd_of_not_mem (by intro a ha; obtain ⟨t, ht, rfl⟩ := List.mem_map.1 ha; exact ne_of_gt (hB t ht))
  rw [List.map_append, List.map_append, upd_append, upd_append, h1, h2, List.map_append, List.map_append]
  rcases hX with rfl | ⟨x, rfl, hx⟩
  · rfl
  · simp [upd, hx, setVal]

theorem getMut_ok' {s : SkipMap K V} {T : List (Tower (K × V))} (h : Good s T) (key : K) (f : V → V) :
    ∃ s' T', s.getMut key f = some (s', find key (T.map (·.e))) ∧ Good s' T' ∧
      T'.map (·.e) = upd key f (T.map (·.e)) ∧ T'.map kh = T.map kh := by
  obtain ⟨A, X, B, rfl, hA, hX, hB⟩ := split_at key T h.2.2.1
  rw [map_find hA hX hB]
  unfold SkipMap.getMut
  rw [lookup_good h rfl hA hX hB]
  rcases hX with rfl | ⟨x, rfl, hx⟩
  · exact ⟨s, A ++ [] ++ B, rfl, h, (map_upd hA (.inl rfl) hB).symm, rfl⟩
  · obtain ⟨hr, hlen, hs, hb⟩ := h
    obtain ⟨ls, e1, e2⟩ := shape_eq (hr.shp.1.tow x (by simp))
    have hsh : ∀ a, shape (s.mem.put x.addr ⟨some (x.e.1, f x.e.2), ls⟩) a =
        if a = x.addr then some (some (x.e.1, f x.e.2), x.h) else shape s.mem a := by
      intro a; rw [shape_put, e2]
    have hgl : ∀ a j, getLink (s.mem.put x.addr ⟨some (x.e.1, f x.e.2), ls⟩) a j = getLink s.mem a j := by
      intro a j; rw [getLink_put]
      split
      · rename_i h; subst h; simp [getLink, e1]
      · rfl
    have hnd := hr.shp.1.nodup
    have hmap : (A ++ [setVal f x] ++ B : List (Tower (K × V))).map (·.addr) =
      (A ++ [x] ++ B).map (·.addr) := by simp [setVal]
    have hlv : ∀ i, lv i (A ++ [setVal f x] ++ B : List (Tower (K × V))) =
        lv i (A ++ [x] ++ B) := by
      intro i
      simp only [lv_append]
      congr 2
      by_cases hi : i < x.h
      · rw [lv_cons_pos _ hi, lv_cons_pos _ (by exact hi)]; rfl
      · rw [lv_cons_neg _ hi, lv_cons_neg _ (by exact hi)]
    have hxn : x.addr ∉ s.head :: (A.map (·.addr) ++ B.map (·.addr)) := by
      have h1 := hnd
      rw [List.map_append, List.map_append, ← List.cons_append, ← List.cons_append, List.append_assoc] at h1
      simp only [List.map_cons, List.map_nil, List.singleton_append] at h1
      rw [List.perm_middle.nodup_iff, List.nodup_cons] at h1
      exact h1.1
    refine ⟨{ s with mem := s.mem.put x.addr ⟨some (x.e.1, f x.e.2), ls⟩ }, A ++ [setVal f x] ++ B, ?_, ⟨⟨⟨⟨?_, ?_, ?_, ?_⟩, ?_⟩, ?_⟩, ?_, ?_, ?_⟩,
      (map_upd hA (.inr ⟨x, rfl, hx⟩) hB).symm, by simp [kh, setVal]⟩
    · simp [modifyAt, e1]
    · rw [hsh, if_neg]
      · exact hr.shp.1.hd
      · intro hc
        apply hxn; rw [hc]; simp
    · intro t ht
      simp only [List.mem_append, List.mem_singleton] at ht
      rw [hsh]
      rcases ht with (ht | rfl) | ht
      · rw [if_neg]
        · exact hr.shp.1.tow t (by simp [ht])
        · intro hc
          apply hxn; rw [← hc]; simp; exact .inr (.inl ⟨t, ht, rfl⟩)
      · simp [setVal]
      · rw [if_neg]
        · exact hr.shp.1.tow t (by simp [ht])
        · intro hc
          apply hxn; rw [← hc]; simp; exact .inr (.inr ⟨t, ht, rfl⟩)
    · intro t ht
      simp only [List.mem_append, List.mem_singleton] at ht
      rcases ht with (ht | rfl) | ht
      · exact hr.shp.1.pos t (by simp [ht])
      · exact hr.shp.1.pos x (by simp)
      · exact hr.shp.1.pos t (by simp [ht])
    · rw [hmap]; exact hnd
    · intro a h1 h2
      rw [hmap] at h2
      rw [hsh, if_neg]
      · exact hr.shp.2 a h1 h2
      · rintro rfl; apply h2; simp
    · intro i hi
      rw [hlv]
      exact chain_frame (hr.chain i hi) fun y _ => hgl y i
    · simp [hlen]
    · have := map_upd (f := f) hA (.inr ⟨x, rfl, hx⟩) hB
      simp only [List.map_cons, List.map_nil] at this
      rw [← this]; exact sorted_upd hs
    · intro a ha
      have h3 := hsh a
      have h4 : shape s.mem a = none := by simp [shape, hb a ha]
      rw [if_neg, h4] at h3
      · simpa [shape] using h3
      · rintro rfl
        have := hb _ ha
        rw [e1] at this; simp at this

theorem getMut_ok {s : SkipMap K V} {T : List (Tower (K × V))} (h : Good s T) (key : K) (f : V → V) :
    ∃ s' T', s.getMut key f = some (s', find key (T.map (·.e))) ∧ Good s' T' ∧
      T'.map (·.e) = upd key f (T.map (·.e)) := by
  obtain ⟨s', T', h1, h2, h3, _⟩ := getMut_ok' h key f
  exact ⟨s', T', h1, h2, h3⟩

omit [LinearOrder K] in
theorem descend_ok {m : MHeap K V} {head : Addr} {A B : List (Tower (K × V))} {p : K × V → Bool} {fuel : Nat}
    (hS : Sub (shape m) head (A ++ B)) (hf : A.length < fuel)
    (hch : ∀ i ≤ maxHeight, Chain (lk m i) head (lv i (A ++ B)))
    (hA : ∀ t ∈ A, p t.e = true) (hB : ∀ t ∈ B, p t.e = false)
    (i : Nat) (hi : i ≤ maxHeight) (cur : Addr) (hcur : ∃ P1 P2, lv i A = P1 ++ P2 ∧ cur = lastD head P1) :
    descend m p fuel i cur = some (lastD head (A.map (·.addr)), B.head?.map (·.addr)) := by
  have hent : ∀ t ∈ A ++ B, entryAt m t.addr = some t.e := fun t ht => entryAt_of_shape (hS.tow t ht)
  induction i generalizing cur with
  | zero =>
    rw [descend, walk_level hent (hch 0 hi) hA hB hf hcur,
      lv_zero fun t ht => (hS.pos t (by simp [ht])).1, lv_zero fun t ht => (hS.pos t (by simp [ht])).1]
    simp
  | succ i ih =>
    rw [descend, walk_level hent (hch _ hi) hA hB hf hcur]
    exact ih (by omega) _ (cur_down i head A)

omit [LinearOrder K] in
theorem orHead_ok {s : SkipMap K V} {A B : List (Tower (K × V))} (hS : Sub (shape s.mem) s.head (A ++ B)) :
    orHead s (lastD s.head (A.map (·.addr))) = some ((A.map (·.e)).getLast?) := by
  have hn : (s.head :: A.map (·.addr)).Nodup := by
    refine hS.nodup.sublist (List.Sublist.cons_cons _ ?_)
    simp
  unfold orHead
  by_cases h : lastD s.head (A.map (·.addr)) = s.head
  · have := lastD_eq_head hn h
    simp only [List.map_eq_nil_iff] at this
    subst this
    simp
  · rw [if_neg h]
    rcases List.eq_nil_or_concat A with rfl | ⟨A', t, rfl⟩
    · simp at h
    · have he : entryAt s.mem t.addr = some t.e := entryAt_of_shape (hS.tow t (by simp))
      simp [lastD_append, he]

theorem floor_at {s : SkipMap K V} {T : List (Tower (K × V))} (h : Good s T) (key : K) {i : Nat}
    (hi : i ≤ maxHeight) : ∃ r, descend s.mem (fun e => decide (e.1 ≤ key)) (s.len + 1) i s.head = some r ∧
      orHead s r.1 = some (floor key (T.map (·.e))) := by
  obtain ⟨A, X, B, rfl, hA, hX, hB⟩ := split_at key T h.2.2.1
  obtain ⟨hr, hlen, hs, hb⟩ := h
  have hAX : ∀ t ∈ A ++ X, t.e.1 ≤ key := by
    intro t ht
    rcases List.mem_append.1 ht with ht | ht
    · exact (hA t ht).le
    · rcases hX with rfl | ⟨x, rfl, hx⟩
      · simp at ht
      · simp at ht; rw [ht, hx]
  refine ⟨_, descend_ok (A := A ++ X) (B := B) (p := fun e => decide (e.1 ≤ key)) hr.shp.1 (by simp [hlen]; omega)
    hr.chain (by simpa using hAX) (by simpa using hB) _ hi s.head ⟨[], _, rfl, rfl⟩, ?_⟩
  rw [orHead_ok hr.shp.1]
  congr 1
  have e : (A ++ X ++ B).map (·.e) = (A ++ X).map (·.e) ++ B.map (·.e) := List.map_append
  rw [SL.floor, e, List.filter_append]
  rw [List.filter_eq_self.2 (by
    intro a ha; obtain ⟨t, ht, rfl⟩ := List.mem_map.1 ha; simpa using hAX t ht), List.filter_eq_nil_iff.2 (by simpa using hB), List.append_nil]

theorem floor_ok {s : SkipMap K V} {T : List (Tower (K × V))} (h : Good s T) (key : K) :
    s.floor key = some (floor key (T.map (·.e))) := by
  obtain ⟨r, h1, h2⟩ := floor_at h key (startHeight_le s.len)
  unfold SkipMap.floor
  rw [h1]
  exact h2

theorem ceil_at {s : SkipMap K V} {T : List (Tower (K × V))} (h : Good s T) (key : K) {i : Nat}
    (hi : i ≤ maxHeight) : ∃ r, descend s.mem (fun e => decide (e.1 < key)) (s.len + 1) i s.head = some r ∧
      orNull s r.2 = some (ceil key (T.map (·.e))) := by
  obtain ⟨A, X, B, rfl, hA, hX, hB⟩ := split_at key T h.2.2.1
  obtain ⟨hr, hlen, hs, hb⟩ := h
  have hXB : ∀ t ∈ X ++ B, key ≤ t.e.1 := by
    intro t ht
    rcases List.mem_append.1 ht with ht | ht
    · rcases hX with rfl | ⟨x, rfl, hx⟩
      · simp at ht
      · simp at ht; rw [ht, hx]
    · exact (hB t ht).le
  rw [List.append_assoc] at hr hlen ⊢
  refine ⟨_, descend_ok (A := A) (B := X ++ B) (p := fun e => decide (e.1 < key)) hr.shp.1 (by simp [hlen]; omega)
    hr.chain (by simpa using hA) (by simpa using hXB) _ hi s.head ⟨[], _, rfl, rfl⟩, ?_⟩
  rw [SL.ceil, List.map_append, List.find?_append, List.find?_eq_none.2 (by simpa using hA)]
  cases hXBe : X ++ B with
  | nil => rfl
  | cons t R =>
    have he : entryAt s.mem t.addr = some t.e := entryAt_of_shape (hr.shp.1.tow t (by rw [hXBe]; simp))
    have := hXB t (by rw [hXBe]; simp)
    simp [orNull, he, this]

theorem ceil_ok {s : SkipMap K V} {T : List (Tower (K × V))} (h : Good s T) (key : K) :
    s.ceil key = some (ceil key (T.map (·.e))) := by
  obtain ⟨r, h1, h2⟩ := ceil_at h key (startHeight_le s.len)
  unfold SkipMap.ceil
  rw [h1]
  exact h2

theorem min_ok {s : SkipMap K V} {T : List (Tower (K × V))} (h : Good s T) :
    s.min = some (T.map (·.e)).head? := by
  obtain ⟨hr, hlen, hs, hb⟩ := h
  unfold SkipMap.min
  rw [chain_link (hr.chain 0 (Nat.zero_le _)), lv_zero fun t ht => (hr.shp.1.pos t ht).1]
  cases T with
  | nil => rfl
  | cons t R =>
    have he : entryAt s.mem t.addr = some t.e := entryAt_of_shape (hr.shp.1.tow t (by simp))
    simp [orNull, he]

theorem max_at {s : SkipMap K V} {T : List (Tower (K × V))} (h : Good s T) {i : Nat} (hi : i ≤ maxHeight) :
    ∃ r, descend s.mem (fun _ => true) (s.len + 1) i s.head = some r ∧
      orHead s r.1 = some (T.map (·.e)).getLast? := by
  obtain ⟨hr, hlen, hs, hb⟩ := h
  have e : T = T ++ [] := by simp
  rw [e] at hr
  exact ⟨_, descend_ok (A := T) (B := []) hr.shp.1 (by simp [hlen]) hr.chain (by simp) (by simp) _ hi s.head
    ⟨[], _, rfl, rfl⟩, orHead_ok hr.shp.1⟩

theorem max_ok {s : SkipMap K V} {T : List (Tower (K × V))} (h : Good s T) :
    s.max = some (T.map (·.e)).getLast? := by
  obtain ⟨r, h1, h2⟩ := max_at h (startHeight_le s.len)
  unfold SkipMap.max
  rw [h1]
  exact h2

omit [LinearOrder K] in
theorem collect_ok {m : MHeap K V} {a : Addr} {T : List (Tower (K × V))}
    (he : ∀ t ∈ T, entryAt m t.addr = some t.e) (hc : Chain (lk m 0) a (T.map (·.addr))) :
    ∃ o, getLink m a 0 = some o ∧ collect m T.length o = some (T.map (·.e)) := by
  induction T generalizing a with
  | nil => exact ⟨none, hc, rfl⟩
  | cons t T ih =>
    obtain ⟨o, h1, h2⟩ := ih (a := t.addr) (fun x hx => he x (by simp [hx])) hc.2
    refine ⟨some t.addr, hc.1, ?_⟩
    simp [collect, he t (by simp), h1, h2]

theorem iter_ok {s : SkipMap K V} {T : List (Tower (K × V))} (h : Good s T) :
    s.iter = some (T.map (·.e)) := by
  obtain ⟨hr, hlen, hs, hb⟩ := h
  have hc := hr.chain 0 (Nat.zero_le _)
  rw [lv_zero fun t ht => (hr.shp.1.pos t ht).1] at hc
  obtain ⟨o, h1, h2⟩ := collect_ok (fun t ht => entryAt_of_shape (hr.shp.1.tow t ht)) hc
  simp [SkipMap.iter, h1, hlen, h2]

omit [LinearOrder K] in
/-- Freeing a chain of nodes removes exactly these nodes. -/
theorem freeAll_ok {m : MHeap K V} {o : Option Addr} {l : List Addr} (hn : l.Nodup)
    (hs : ∀ a ∈ l, ∃ p, shape m a = some p)
    (hc : o = l.head? ∧ ∀ a Q, (∃ P, l = P ++ a :: Q) → getLink m a 0 = some Q.head?) :
    ∃ m', freeAll m l.length o = some m' ∧ (∀ a, shape m' a = if a ∈ l then none else shape m a) ∧
      ∀ a j, a ∉ l → getLink m' a j = getLink m a j := by
  induction l generalizing m o with
  | nil =>
    rw [hc.1]
    exact ⟨m, by simp [freeAll], by simp, by simp⟩
  | cons a l ih =>
    obtain ⟨rfl, hc⟩ := hc
    obtain ⟨p, hp⟩ := hs a (by simp)
    obtain ⟨m1, h1, h2, h3⟩ := free_ok hp
    have hal : a ∉ l := (List.nodup_cons.1 hn).1
    obtain ⟨m2, g1, g2, g3⟩ := ih (m := m1) (o := l.head?) (List.nodup_cons.1 hn).2
      (fun b hb => by
        rw [h2, if_neg (by rintro rfl; exact hal hb)]
        exact hs b (by simp [hb]))
      ⟨rfl, fun b Q hbQ => by
        obtain ⟨P, hP⟩ := hbQ
        rw [h3, if_neg (by rintro rfl; exact hal (by rw [hP]; simp))]
        exact hc b Q ⟨a :: P, by rw [hP]; rfl⟩⟩
    refine ⟨m2, ?_, ?_, ?_⟩
    · have : getLink m a 0 = some l.head? := hc a l ⟨[], rfl⟩
      simp [freeAll, this, h1, g1]
    · intro b
      rw [g2, h2]
      by_cases hb : b = a
      · subst hb; simp
      · simp [hb]
    · intro b j hb
      simp only [List.mem_cons, not_or] at hb
      rw [g3 b j hb.2, h3, if_neg hb.1]

omit [LinearOrder K] in
theorem chain_next {lk : Addr → Option (Option Addr)} {a : Addr} {l : List Addr} (h : Chain lk a l) :
    ∀ b Q, (∃ P, l = P ++ b :: Q) → lk b = some Q.head? := by
  rintro b Q ⟨P, rfl⟩
  exact chain_head (chain_append.1 h).2.2

theorem clear_ok {s : SkipMap K V} {T : List (Tower (K × V))} (h : Good s T) :
    ∃ s', s.clear = some s' ∧ Good s' [] := by
  obtain ⟨hr, hlen, hs, hb⟩ := h
  have hc := hr.chain 0 (Nat.zero_le _)
  rw [lv_zero fun t ht => (hr.shp.1.pos t ht).1] at hc
  have hnd := hr.shp.1.nodup
  obtain ⟨m1, h1, h2, h3⟩ := freeAll_ok (m := s.mem) (o := (T.map (·.addr)).head?) (List.nodup_cons.1 hnd).2
    (fun a ha => by
      obtain ⟨t, ht, rfl⟩ := List.mem_map.1 ha
      exact ⟨_, hr.shp.1.tow t ht⟩)
    ⟨rfl, chain_next (lk := lk s.mem 0) hc⟩
  have hhd : shape m1 s.head = some (none, maxHeight + 1) := by
    rw [h2, if_neg (List.nodup_cons.1 hnd).1]; exact hr.shp.1.hd
  obtain ⟨m2, g1, g2, g3⟩ := zeroLinks_ok hhd none
  have hl : getLink s.mem s.head 0 = some (T.map (·.addr)).head? := chain_link hc
  rw [List.length_map] at h1
  refine ⟨{ s with mem := m2, len := 0 }, ?_, ⟨⟨⟨?_, by simp, by simp, by simp⟩, ?_⟩, ?_⟩, rfl, by simp [Sorted], ?_⟩
  · unfold SkipMap.clear
    rw [hl]
    simp only [Option.bind_eq_bind, Option.bind_some, hlen, h1, g1]
    rfl
  · rw [g2]; exact hhd
  · intro a ha _
    simp only
    rw [g2, h2]
    split
    · rfl
    · exact hr.shp.2 a ha (by assumption)
  · intro i hi
    show getLink m2 s.head i = some none
    rw [g3, if_pos rfl, if_pos (by omega)]
  · intro a ha
    have : shape m2 a = none := by
      rw [g2, h2]
      split
      · rfl
      · simp [shape, hb a ha]
    simpa [shape] using this

/-- Dropping a map frees every node exactly once and leaves nothing allocated. -/
theorem drop_ok {s : SkipMap K V} {T : List (Tower (K × V))} (h : Good s T) :
    ∃ m, s.drop = some m ∧ ∀ a, m a = none := by
  obtain ⟨hr, hlen, hs, hb⟩ := h
  have hc := hr.chain 0 (Nat.zero_le _)
  rw [lv_zero fun t ht => (hr.shp.1.pos t ht).1] at hc
  have hnd := hr.shp.1.nodup
  have hl : getLink s.mem s.head 0 = some (T.map (·.addr)).head? := chain_link hc
  obtain ⟨m0, e1, e2, e3⟩ := free_ok hr.shp.1.hd
  have hne : ∀ a ∈ T.map (·.addr), a ≠ s.head := by
    rintro a ha rfl; exact (List.nodup_cons.1 hnd).1 ha
  obtain ⟨m1, h1, h2, h3⟩ := freeAll_ok (m := m0) (o := (T.map (·.addr)).head?) (List.nodup_cons.1 hnd).2
    (fun a ha => by
      rw [e2, if_neg (hne a ha)]
      obtain ⟨t, ht, rfl⟩ := List.mem_map.1 ha
      exact ⟨_, hr.shp.1.tow t ht⟩)
    ⟨rfl, fun b Q hbQ => by
      rw [e3, if_neg (hne b (by obtain ⟨P, hP⟩ := hbQ; rw [hP]; simp))]
      exact chain_next (lk := lk s.mem 0) hc b Q hbQ⟩
  rw [List.length_map] at h1
  refine ⟨m1, ?_, ?_⟩
  · unfold SkipMap.drop
    rw [hl]
    simp only [Option.bind_eq_bind, Option.bind_some, hlen, e1, h1]
  · intro a
    have : shape m1 a = none := by
      rw [h2, e2]
      split
      · rfl
      · split
        · rfl
        · exact hr.shp.2 a (by assumption) (by assumption)
    simpa [shape] using this

theorem good_new (a : Addr) : Good (SkipMap.new a : SkipMap K V) [] := by
  refine ⟨⟨⟨⟨?_, by simp, by simp, by simp⟩, ?_⟩, ?_⟩, rfl, by simp [Sorted], ?_⟩
  · simp [SkipMap.new, shape, Heap.put, headNode]
  · intro b hb _
    simp only [SkipMap.new] at hb
    simp [SkipMap.new, shape, Heap.put, hb]
  · intro i hi
    show getLink _ _ _ = _
    simp [SkipMap.new, getLink, Heap.put, headNode, List.getElem?_replicate, Nat.lt_succ_of_le hi]
  · intro b hb
    simp only [SkipMap.new] at hb
    simp [SkipMap.new, Heap.put, Nat.ne_of_gt hb]

/-- What a call with drawn height `d` does to the numbers of links. -/
def nextH (d : Nat) (l : List (K × Nat)) : MapOp K V → List (K × Nat)
  | .insert k _ => ins k (d + 1) l
  | .remove k => del k l
  | .clear => []
  | _ => l

/-- Simulation by sorted lists. -/
theorem step_ok' {s : SkipMap K V} {T : List (Tower (K × V))} (h : Good s T) (op : MapOp K V) (d : Draw) :
    ∃ s' T', step s op d = some (s', res (T.map (·.e)) op) ∧ Good s' T' ∧
      T'.map (·.e) = next (T.map (·.e)) op ∧ T'.map kh = nextH d.1 (T.map kh) op := by
  cases op with
  | insert k v =>
    obtain ⟨s', T', h1, h2, h3, h4⟩ := insert_ok' h k v d.1 d.2 (Nat.le_of_lt_succ d.1.2)
    exact ⟨s', T', by simp [step, h1, res], h2, h3, h4⟩
  | remove k =>
    obtain ⟨s', T', h1, h2, h3, h4⟩ := remove_ok' h k
    exact ⟨s', T', by simp [step, h1, res], h2, h3, h4⟩
  | get k => exact ⟨s, T, by simp [step, get_ok h, res], h, rfl, rfl⟩
  | containsKey k => exact ⟨s, T, by simp [step, get_ok h, res], h, rfl, rfl⟩
  | getMut k f =>
    obtain ⟨s', T', h1, h2, h3, h4⟩ := getMut_ok' h k f
    exact ⟨s', T', by simp [step, h1, res], h2, h3, h4⟩
  | floor k => exact ⟨s, T, by simp [step, floor_ok h, res], h, rfl, rfl⟩
  | ceil k => exact ⟨s, T, by simp [step, ceil_ok h, res], h, rfl, rfl⟩
  | min => exact ⟨s, T, by simp [step, min_ok h, res], h, rfl, rfl⟩
  | max => exact ⟨s, T, by simp [step, max_ok h, res], h, rfl, rfl⟩
  | len => exact ⟨s, T, by simp [step, res, h.2.1], h, rfl, rfl⟩
  | isEmpty =>
    refine ⟨s, T, ?_, h, rfl, rfl⟩
    simp only [step, res, h.2.1]
    cases T <;> simp
  | iter => exact ⟨s, T, by simp [step, iter_ok h, res], h, rfl, rfl⟩
  | clear =>
    obtain ⟨s', h1, h2⟩ := clear_ok h
    exact ⟨s', [], by simp [step, h1, res], h2, rfl, rfl⟩

theorem step_ok {s : SkipMap K V} {T : List (Tower (K × V))} (h : Good s T) (op : MapOp K V) (d : Draw) :
    ∃ s' T', step s op d = some (s', res (T.map (·.e)) op) ∧ Good s' T' ∧
      T'.map (·.e) = next (T.map (·.e)) op := by
  obtain ⟨s', T', h1, h2, h3, _⟩ := step_ok' h op d
  exact ⟨s', T', h1, h2, h3⟩

/-- The simulation. -/
def sim (K V : Type) [LinearOrder K] (a : Addr) : ListSim (impl K V a) where
  rel s l := ∃ T, Good s T ∧ T.map (·.e) = l
  empty := ⟨[], good_new a, rfl⟩
  step := by
    rintro s l op d _ ⟨T, hT, rfl⟩
    obtain ⟨s', T', h1, h2, h3⟩ := step_ok hT op d
    exact ⟨s', h1, T', h2, h3⟩

end Verif.Skip.Map
