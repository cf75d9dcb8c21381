/- `SkipMap` under panicking comparisons is simulated by a map without the leftovers of the calls that panicked. -/
import Verif.Skip.MapPanic

namespace Verif.Skip.Map

open Verif.Spec Verif.SL

variable {K V : Type}

/-! ### A call that does not panic does what it does without panics -/

theorem walkP_or {m : MHeap K V} {p : K × V → Bool} {i f : Nat} (b : Nat) {cur : Addr} {r}
    (h : walk m p i f cur = some r) :
    walkP m p i f b cur = some none ∨ ∃ b', walkP m p i f b cur = some (some (r, b')) := by
  induction f generalizing b cur with
  | zero => simp [walk] at h
  | succ f ih =>
    simp only [walk] at h
    simp only [walkP]
    cases hl : getLink m cur i with
    | none => simp [hl] at h
    | some o =>
      rw [hl] at h
      cases o with
      | none => cases h; exact .inr ⟨b, rfl⟩
      | some a =>
        simp only at h ⊢
        cases he : entryAt m a with
        | none => simp [he] at h
        | some e =>
          rw [he] at h
          simp only at h ⊢
          cases b with
          | zero => exact .inl rfl
          | succ b =>
            simp only
            split at h
            · rename_i hp; rw [if_pos hp]; exact ih b h
            · rename_i hp; rw [if_neg hp]; cases h; exact .inr ⟨b, rfl⟩

variable [LinearOrder K]

theorem unlinkP_or {key : K} {i : Nat} (b : Nat) {w : Work K V} {nxt} {w₁} (h : unlink key i w nxt = some w₁) :
    unlinkP key i b w nxt = some none ∨ ∃ b', unlinkP key i b w nxt = some (some (w₁, b')) := by
  cases nxt with
  | none => exact .inr ⟨b, by simp [unlinkP, h]⟩
  | some a =>
    cases b with
    | zero => exact .inl rfl
    | succ b => exact .inr ⟨b, by simp [unlinkP, h]⟩

theorem removeLevelP_or {f : Nat} {key : K} (i b : Nat) (w w₁ : Work K V) (h : removeLevel f key i w = some w₁) :
    removeLevelP f key i b w = some none ∨ ∃ b', removeLevelP f key i b w = some (some (w₁, b')) := by
  unfold removeLevel at h
  unfold removeLevelP
  cases hw : walk w.mem (fun e => decide (e.1 < key)) i f w.cur with
  | none => simp [hw] at h
  | some r =>
    simp only [hw, Option.bind_eq_bind, Option.bind_some] at h
    rcases walkP_or b hw with h1 | ⟨b', h1⟩
    · rw [h1]; exact .inl rfl
    · rw [h1]; exact unlinkP_or b' h

theorem insertLevelP_or {f : Nat} {key : K} {new : Addr} {nh : Nat} (i b : Nat) (w w₁ : Work K V)
    (h : insertLevel f new nh key i w = some w₁) :
    insertLevelP f new nh key i b w = some none ∨ ∃ b', insertLevelP f new nh key i b w = some (some (w₁, b')) := by
  rw [insertLevel_eq] at h
  unfold insertLevelP
  cases hr : removeLevel f key i w with
  | none => simp [hr] at h
  | some w₂ =>
    rw [hr] at h
    rcases removeLevelP_or i b w w₂ hr with h1 | ⟨b', h1⟩
    · rw [h1]; exact .inl rfl
    · rw [h1]
      simp only [Option.bind_some] at h
      exact .inr ⟨b', by simp [h]⟩

theorem lookupP_or {m : MHeap K V} {key : K} {f : Nat} {i : Nat} (b : Nat) {cur : Addr} {r}
    (h : lookup m key f i cur = some r) :
    lookupP m key f i b cur = some none ∨ lookupP m key f i b cur = some (some r) := by
  induction i generalizing b cur with
  | zero =>
    rw [lookup.eq_def] at h
    rw [lookupP.eq_def]
    simp only at h ⊢
    cases hw : walk m (fun e => decide (e.1 < key)) 0 f cur with
    | none => simp [hw] at h
    | some q =>
      obtain ⟨cur', nxt⟩ := q
      simp only [hw] at h
      rcases walkP_or b hw with h1 | ⟨b', h1⟩
      · rw [h1]; exact .inl rfl
      · rw [h1]
        cases nxt with
        | none => right; simp only [Option.isSome_none]; cases hh : hit m key none with
          | none => simp [hh] at h
          | some o => rw [hh] at h; cases o <;> simpa using h
        | some a =>
          cases b' with
          | zero => exact .inl rfl
          | succ b' => right; simp only [Option.isSome_some]; cases hh : hit m key (some a) with
            | none => simp [hh] at h
            | some o => rw [hh] at h; cases o <;> simpa using h
  | succ i ih =>
    rw [lookup.eq_def] at h
    rw [lookupP.eq_def]
    simp only at h ⊢
    cases hw : walk m (fun e => decide (e.1 < key)) (i + 1) f cur with
    | none => simp [hw] at h
    | some q =>
      obtain ⟨cur', nxt⟩ := q
      simp only [hw] at h
      rcases walkP_or b hw with h1 | ⟨b', h1⟩
      · rw [h1]; exact .inl rfl
      · rw [h1]
        cases nxt with
        | none =>
          simp only [Option.isSome_none]
          cases hh : hit m key none with
          | none => simp [hh] at h
          | some o =>
            rw [hh] at h
            cases o with
            | none => exact ih _ h
            | some a => right; simpa using h
        | some a =>
          cases b' with
          | zero => exact .inl rfl
          | succ b' =>
            simp only [Option.isSome_some]
            cases hh : hit m key (some a) with
            | none => simp [hh] at h
            | some o =>
              rw [hh] at h
              cases o with
              | none => exact ih _ h
              | some a => right; simpa using h

omit [LinearOrder K] in
theorem descendP_or {m : MHeap K V} {p : K × V → Bool} {f : Nat} {i : Nat} (b : Nat) {cur : Addr} {r}
    (h : descend m p f i cur = some r) :
    descendP m p f i b cur = some none ∨ descendP m p f i b cur = some (some r) := by
  induction i generalizing b cur with
  | zero =>
    rcases walkP_or b h with h1 | ⟨b', h1⟩
    · left; simp [descendP, h1]
    · right; simp [descendP, h1]
  | succ i ih =>
    simp only [descend] at h
    simp only [descendP]
    cases hw : walk m p (i + 1) f cur with
    | none => simp [hw] at h
    | some q =>
      rw [hw] at h
      rcases walkP_or b hw with h1 | ⟨b', h1⟩
      · rw [h1]; exact .inl rfl
      · rw [h1]; exact ih b' h

/-! ### The loops of `insert` and `remove` -/

omit [LinearOrder K] in
/-- Either a comparison panics at some level, everything being as it was before that level, or the loop ends as it
does without panics. -/
theorem downFromP_ind {body body' : Nat → Work K V → Option (Work K V)}
    {bodyP : Nat → Nat → Work K V → Option (Option (Work K V × Nat))} {d : Nat} (I : Nat → Work K V → Prop)
    (hP : ∀ i b w w₁, body i w = some w₁ → bodyP i b w = some none ∨ ∃ b', bodyP i b w = some (some (w₁, b')))
    (hE : ∀ i w w' w₁', WExt d w w' → body' i w' = some w₁' → ∃ w₁, body i w = some w₁ ∧ WExt d w₁ w₁')
    (hs : ∀ i w, I (i + 1) w → ∃ w', body' (i + 1) w = some w' ∧ I i w')
    (h0 : ∀ w, I 0 w → ∃ w', body' 0 w = some w')
    (i b : Nat) (w w' : Work K V) (h : I i w') (hw : WExt d w w') :
    (∃ j ≤ i, ∃ w₁ w₁', downFromP bodyP i b w = some (w₁, .error j) ∧ WExt d w₁ w₁' ∧ I j w₁') ∨
    (∃ b' w₁ w₁', downFromP bodyP i b w = some (w₁, .ok b') ∧ WExt d w₁ w₁' ∧ downFrom body' i w' = some w₁') := by
  induction i generalizing b w w' with
  | zero =>
    obtain ⟨w1', h1⟩ := h0 w' h
    obtain ⟨w1, h2, h3⟩ := hE 0 w w' w1' hw h1
    rcases hP 0 b w w1 h2 with h4 | ⟨b', h4⟩
    · exact .inl ⟨0, Nat.le_refl _, w, w', by simp [downFromP, h4], hw, h⟩
    · exact .inr ⟨b', w1, w1', by simp [downFromP, h4], h3, h1⟩
  | succ i ih =>
    obtain ⟨w1', h1, h5⟩ := hs i w' h
    obtain ⟨w1, h2, h3⟩ := hE (i + 1) w w' w1' hw h1
    rcases hP (i + 1) b w w1 h2 with h4 | ⟨b', h4⟩
    · exact .inl ⟨i + 1, Nat.le_refl _, w, w', by simp [downFromP, h4], hw, h⟩
    · rcases ih b' w1 w1' h5 h3 with ⟨j, hj, v, v', g1, g2, g3⟩ | ⟨b'', v, v', g1, g2, g3⟩
      · exact .inl ⟨j, by omega, v, v', by simp [downFromP, h4, g1], g2, g3⟩
      · exact .inr ⟨b'', v, v', by simp [downFromP, h4, g1], g2, by simp [downFrom, h1, g3]⟩

/-! ### What a panic leaves behind -/

omit [LinearOrder K] in
/-- The tower without its levels above `i`. -/
def low (i : Nat) (x : Tower (K × V)) : Tower (K × V) := ⟨x.addr, x.e, min (i + 1) x.h⟩

omit [LinearOrder K] in
theorem lv_low_gt {i j : Nat} (hj : i < j) (X : List (Tower (K × V))) : lv j (X.map (low i)) = [] := by
  induction X with
  | nil => rfl
  | cons x X ih =>
    have : ¬ j < (low i x).h := by
      have : (low i x).h ≤ i + 1 := Nat.min_le_left _ _
      omega
    rw [List.map_cons, lv_cons_neg _ this, ih]

omit [LinearOrder K] in
theorem lv_low_le {i j : Nat} (hj : j ≤ i) (X : List (Tower (K × V))) : lv j (X.map (low i)) = lv j X := by
  induction X with
  | nil => rfl
  | cons x X ih =>
    have : j < (low i x).h ↔ j < x.h := by
      show j < min (i + 1) x.h ↔ _
      omega
    rw [List.map_cons]
    by_cases hx : j < x.h
    · rw [lv_cons_pos _ hx, lv_cons_pos _ (this.2 hx), ih]; rfl
    · rw [lv_cons_neg _ hx, lv_cons_neg _ (fun h => hx (this.1 h)), ih]

open Classical in
/-- The nodes of the list only, those of `X` without their levels above `i`. -/
noncomputable def lowMem (m : MHeap K V) (head : Addr) (i : Nat) (A X B : List (Tower (K × V))) : MHeap K V := fun a =>
  if a ∈ X.map (·.addr) then (m a).map fun n => ⟨n.entry, n.links.take (i + 1)⟩
  else if a ∈ head :: (A ++ B).map (·.addr) then m a else none

omit [LinearOrder K] in
theorem lowMem_ext (m : MHeap K V) (head : Addr) (i : Nat) (A X B : List (Tower (K × V))) :
    Ext m (lowMem m head i A X B) := by
  intro a n hn
  unfold lowMem at hn
  split_ifs at hn
  · obtain ⟨n', h1, rfl⟩ := Option.map_eq_some_iff.1 hn
    exact ⟨n'.links.drop (i + 1), by simp [h1]⟩
  · exact ⟨[], by simp [hn]⟩

/-- The levels above `i` are done, the others untouched, and `X` was to be removed. -/
theorem lower_good {s : SkipMap K V} {A X B : List (Tower (K × V))} {m : MHeap K V} {i : Nat}
    (h : Good s (A ++ X ++ B)) (hS : Sub (shape m) s.head (A ++ X ++ B))
    (hdone : ∀ j ≤ maxHeight, i < j → Chain (lk m j) s.head (lv j (A ++ B)))
    (htodo : ∀ j ≤ maxHeight, j ≤ i → Chain (lk m j) s.head (lv j (A ++ X ++ B))) :
    Good ⟨lowMem m s.head i A X B, s.head, s.len, s.bump⟩ (A ++ X.map (low i) ++ B) := by
  obtain ⟨-, hXN⟩ := remove_pre h
  obtain ⟨hr, hlen, hs, hb⟩ := h
  have hXN' : ∀ a ∈ s.head :: (A ++ B).map (·.addr), a ∉ X.map (·.addr) := by simpa using hXN
  have hmem : ∀ a ∈ s.head :: (A ++ B).map (·.addr), lowMem m s.head i A X B a = m a := by
    intro a ha
    unfold lowMem
    rw [if_neg (hXN' a ha), if_pos ha]
  have haddr : (A ++ X.map (low i) ++ B).map (·.addr) = (A ++ X ++ B).map (·.addr) := by simp [low]
  have hent : (A ++ X.map (low i) ++ B).map (·.e) = (A ++ X ++ B).map (·.e) := by simp [low]
  have hlo : ∀ j, i < j → lv j (X.map (low i)) = [] := fun j hj => lv_low_gt hj X
  have hhi : ∀ j, j ≤ i → lv j (X.map (low i)) = lv j X := fun j hj => lv_low_le hj X
  refine ⟨⟨⟨⟨?_, ?_, ?_, ?_⟩, ?_⟩, ?_⟩, ?_, ?_, ?_⟩
  · show shape (lowMem m s.head i A X B) s.head = _
    rw [shape, hmem _ (by simp)]; exact hS.hd
  · intro t ht
    rcases List.mem_append.1 ht with ht | ht
    · rcases List.mem_append.1 ht with ht | ht
      · have := hS.tow t (by simp [ht])
        show shape (lowMem m s.head i A X B) t.addr = _
        rw [shape] at this ⊢
        rw [hmem _ (List.mem_cons_of_mem _ (List.mem_map.2 ⟨t, by simp [ht], rfl⟩))]; exact this
      · obtain ⟨x, hx, rfl⟩ := List.mem_map.1 ht
        obtain ⟨ls, e1, e2⟩ := shape_eq (hS.tow x (by simp [hx]))
        have : lowMem m s.head i A X B x.addr = some ⟨some x.e, ls.take (i + 1)⟩ := by
          unfold lowMem
          rw [if_pos (List.mem_map.2 ⟨x, hx, rfl⟩), e1]; rfl
        show shape (lowMem m s.head i A X B) x.addr = _
        rw [shape, this]
        simp [low, e2]
    · have := hS.tow t (by simp [ht])
      show shape (lowMem m s.head i A X B) t.addr = _
      rw [shape] at this ⊢
      rw [hmem _ (List.mem_cons_of_mem _ (List.mem_map.2 ⟨t, by simp [ht], rfl⟩))]; exact this
  · intro t ht
    rcases List.mem_append.1 ht with ht | ht
    · rcases List.mem_append.1 ht with ht | ht
      · exact hS.pos t (by simp [ht])
      · obtain ⟨x, hx, rfl⟩ := List.mem_map.1 ht
        have := hS.pos x (by simp [hx])
        simp only [low]
        omega
    · exact hS.pos t (by simp [ht])
  · rw [haddr]; exact hS.nodup
  · intro a h1 h2
    rw [haddr] at h2
    simp only [List.map_append, List.mem_append, not_or] at h2
    show shape (lowMem m s.head i A X B) a = none
    have : lowMem m s.head i A X B a = none := by
      unfold lowMem
      rw [if_neg h2.1.2, if_neg]
      simp only [List.mem_cons, List.map_append, List.mem_append]
      tauto
    simp [shape, this]
  · intro j hj
    show Chain (lk (lowMem m s.head i A X B) j) s.head _
    by_cases hij : i < j
    · have e : lv j (A ++ X.map (low i) ++ B) = lv j (A ++ B) := by simp only [lv_append, hlo j hij, List.append_nil]
      rw [e]
      refine chain_frame (hdone j hj hij) fun y hy => ?_
      simp only [lk, getLink]
      rw [hmem y]
      rcases List.mem_cons.1 hy with rfl | hy
      · simp
      · exact List.mem_cons_of_mem _ (mem_lv_addr hy)
    · have e : lv j (A ++ X.map (low i) ++ B) = lv j (A ++ X ++ B) := by
        simp only [lv_append, hhi j (by omega)]
      rw [e]
      refine chain_frame (htodo j hj (by omega)) fun y hy => ?_
      simp only [lk, getLink]
      by_cases hx : y ∈ X.map (·.addr)
      · obtain ⟨x, hx', rfl⟩ := List.mem_map.1 hx
        obtain ⟨ls, e1, e2⟩ := shape_eq (hS.tow x (by simp [hx']))
        unfold lowMem
        rw [if_pos hx, e1]
        simp only [Option.map_some]
        rw [List.getElem?_take, if_pos (by omega)]
      · rw [hmem y]
        rcases List.mem_cons.1 hy with rfl | hy
        · simp
        · have := mem_lv_addr hy
          simp only [List.map_append, List.mem_append] at this hx
          simp only [List.mem_cons, List.map_append, List.mem_append]
          tauto
  · simpa using hlen
  · rw [hent]; exact hs
  · intro a ha
    have hn := hb a ha
    show lowMem m s.head i A X B a = none
    have hno : ∀ t ∈ A ++ X ++ B, t.addr ≠ a := by
      rintro t ht rfl
      have := hr.shp.1.tow t ht
      simp [shape, hn] at this
    have hhd : s.head ≠ a := by
      rintro rfl
      have := hr.shp.1.hd
      simp [shape, hn] at this
    unfold lowMem
    rw [if_neg, if_neg]
    · simp only [List.mem_cons, List.mem_map, not_or, not_exists, not_and]
      exact ⟨hhd.symm, fun t ht => hno t (by simp at ht ⊢; tauto)⟩
    · simp only [List.mem_map, not_exists, not_and]
      exact fun t ht => hno t (by simp [ht])

/-! ### The simulation -/

omit [LinearOrder K] in
/-- `s` is `s'` with leftovers. -/
structure Shadow (s s' : SkipMap K V) : Prop where
  mem : Ext s.mem s'.mem
  head : s.head = s'.head
  len : s'.len ≤ s.len
  bump : s'.bump ≤ s.bump

theorem removeP_ok {s s' : SkipMap K V} (hsh : Shadow s s') {T : List (Tower (K × V))} (h : Good s' T) (key : K)
    (b : Nat) :
    (∃ i s₁ s₁' T', s.removeP key b = some (s₁, .error i) ∧ Shadow s₁ s₁' ∧ Good s₁' T' ∧
      T'.map (·.e) = T.map (·.e) ∧ s₁.len = s.len) ∨
    (∃ s₁ s₁' T', s.removeP key b = some (s₁, .ok (find key (T.map (·.e)))) ∧ Shadow s₁ s₁' ∧ Good s₁' T' ∧
      T'.map (·.e) = del key (T.map (·.e)) ∧ s₁.len + s'.len = s₁'.len + s.len) := by
  have hg := h
  obtain ⟨s2, T2, g1, g2, g3⟩ := remove_ok h key
  obtain ⟨hr, hlen, hs, hb⟩ := h
  obtain ⟨A, X, B, rfl, hA, hX, hB⟩ := split_at key T hs
  obtain ⟨hsub, hXN⟩ := remove_pre hg
  have hl1 : X.length ≤ s'.len := by simp [hlen]; omega
  have hl2 : A.length < s'.len + 1 := by simp [hlen]; omega
  have hgg : ∀ i ≤ maxHeight, ∀ w : Work K V, (∀ a ∉ X.map (·.addr), shape w.mem a = shape s'.mem a) →
      Chain (lk w.mem i) s'.head (lv i (A ++ B)) → w.cur = lastD s'.head (lv i A) →
      ∃ m', (some w : Option (Work K V)) = some { w with mem := m' } ∧ shape m' = shape w.mem ∧
        (∀ b j, j ≠ i → getLink m' b j = getLink w.mem b j) ∧ Chain (lk m' i) s'.head (lv i (A ++ [] ++ B)) :=
    fun i _ w _ hc _ => ⟨w.mem, rfl, rfl, fun _ _ _ => rfl, by simpa using hc⟩
  have hbd : ∀ i (w : Work K V), removeLevel (s'.len + 1) key i w = (removeLevel (s'.len + 1) key i w).bind fun w => some w :=
    fun i w => by simp
  have hf : s'.len + 1 ≤ s.len + 1 := Nat.succ_le_succ hsh.len
  rcases downFromP_ind (d := s.len - s'.len) (body' := removeLevel (s'.len + 1) key)
      (Mid (shape s'.mem) s'.head A X [] B s'.len)
      (removeLevelP_or (f := s.len + 1) (key := key))
      (fun i w w' w₁' hw hu => removeLevel_ext hw hf hu)
      (fun i w hw => by
        obtain ⟨w', h1, h2, _⟩ := levels_step hl1 hl2 hr.shp.1 hsub hXN hA hX hB (fun _ w => some w) hbd hgg hw
        exact ⟨w', h1, h2⟩)
      (fun w hw => by
        obtain ⟨w', h1, _⟩ := levels_last hl1 hl2 hr.shp.1 hsub hXN hA hX hB (fun _ w => some w) hbd hgg hw
        exact ⟨w', h1⟩)
      maxHeight b ⟨s.mem, s.head, none, s.len⟩ ⟨s'.mem, s'.head, none, s'.len⟩ (mid_init hr.chain)
      ⟨hsh.mem, hsh.head, rfl, by have := hsh.len; simp; omega⟩ with
    ⟨j, hj, w, w', h1, h2, h3⟩ | ⟨b', w, w', h1, h2, h3⟩
  · left
    refine ⟨j, ⟨w.mem, s.head, w.len, s.bump⟩, ⟨lowMem w'.mem s'.head j A X B, s'.head, s'.len, s'.bump⟩, _, ?_,
      ⟨h2.mem.trans (lowMem_ext _ _ _ _ _ _), hsh.head, ?_, hsh.bump⟩, lower_good hg ?_ ?_ h3.todo, ?_, ?_⟩
    · unfold SkipMap.removeP; rw [h1]; rfl
    · have := h2.len; rw [h3.len_eq] at this; simp; omega
    · rw [h3.shp]; exact hr.shp.1
    · simpa using h3.done
    · simp [low]
    · have := h2.len; rw [h3.len_eq] at this; have := hsh.len; simp; omega
  · right
    unfold SkipMap.remove at g1
    rw [h3] at g1
    simp only [Option.bind_eq_bind, Option.bind_some, Option.pure_def, Option.some.injEq, Prod.mk.injEq] at g1
    obtain ⟨rfl, g5⟩ := g1
    have hl := h2.len
    have := hsh.len
    refine ⟨⟨w.mem, s.head, w.len, s.bump⟩, ⟨w'.mem, s'.head, w'.len, s'.bump⟩, T2, ?_, ⟨h2.mem, hsh.head, ?_, hsh.bump⟩, g2, g3, ?_⟩
    · unfold SkipMap.removeP; rw [h1, ← g5, ← h2.ret]; rfl
    · simp; omega
    · simp; omega

theorem insertP_ok {s s' : SkipMap K V} (hsh : Shadow s s') {T : List (Tower (K × V))} (h : Good s' T) (key : K)
    (v : V) (nh off : Nat) (hnh : nh ≤ maxHeight) (b : Nat) :
    (∃ i s₁, s.insertP key v nh off b = some (s₁, .error i) ∧ (nh ≤ i → ∃ s₁' T', Shadow s₁ s₁' ∧ Good s₁' T' ∧
      T'.map (·.e) = T.map (·.e) ∧ s₁.len = s.len + 1)) ∨
    (∃ s₁ s₁' T', s.insertP key v nh off b = some (s₁, .ok (find key (T.map (·.e)))) ∧ Shadow s₁ s₁' ∧ Good s₁' T' ∧
      T'.map (·.e) = ins key v (T.map (·.e)) ∧ s₁.len + s'.len = s₁'.len + s.len) := by
  have hg := h
  obtain ⟨off', hoff⟩ : ∃ off', s'.bump + off' = s.bump + off := ⟨s.bump + off - s'.bump, by have := hsh.bump; omega⟩
  obtain ⟨s2, T2, g1, g2, g3⟩ := insert_ok h key v nh off' hnh
  obtain ⟨hr, hlen, hs, hb⟩ := h
  obtain ⟨A, X, B, rfl, hA, hX, hB⟩ := split_at key T hs
  obtain ⟨hshp, hS, hN, hXN, hch, hgg⟩ := insert_pre hg key v nh off' hnh
  have hl1 : X.length ≤ s'.len + 1 := by simp [hlen]; omega
  have hl2 : A.length < s'.len + 1 := by simp [hlen]; omega
  have hf : s'.len + 1 ≤ s.len + 1 := Nat.succ_le_succ hsh.len
  have hbd := insertLevel_eq (V := V) (s'.len + 1) (newTower s' key v nh off').addr nh key
  rcases downFromP_ind (d := s.len - s'.len)
      (body' := insertLevel (s'.len + 1) (newTower s' key v nh off').addr nh key)
      (Mid (shape (newMem s' key v nh off')) s'.head A X [newTower s' key v nh off'] B (s'.len + 1))
      (insertLevelP_or (f := s.len + 1) (key := key) (new := (newTower s' key v nh off').addr) (nh := nh))
      (fun i w w' w₁' hw hu => insertLevel_ext hw hf hu)
      (fun i w hw => by
        obtain ⟨w', h1, h2, _⟩ := levels_step hl1 hl2 hS hN hXN hA hX hB _ hbd hgg hw
        exact ⟨w', h1, h2⟩)
      (fun w hw => by
        obtain ⟨w', h1, _⟩ := levels_last hl1 hl2 hS hN hXN hA hX hB _ hbd hgg hw
        exact ⟨w', h1⟩)
      maxHeight b
      ⟨s.mem.put (newTower s' key v nh off').addr ⟨some (key, v), List.replicate (nh + 1) none⟩, s.head, none, s.len + 1⟩
      ⟨newMem s' key v nh off', s'.head, none, s'.len + 1⟩ (mid_init hch)
      ⟨put_ext hsh.mem _ _ _ [] (by simp), hsh.head, rfl, by have := hsh.len; simp; omega⟩ with
    ⟨j, hj, w, w', h1, h2, h3⟩ | ⟨b', w, w', h1, h2, h3⟩
  · left
    simp only [newTower, hoff] at h1
    refine ⟨j, ⟨w.mem, s.head, w.len, s.bump + off + 1⟩, by unfold SkipMap.insertP; simp only; rw [h1]; rfl, fun hle => ?_⟩
    have hl := h2.len
    rw [h3.len_eq] at hl
    refine ⟨⟨lowMem w'.mem s'.head j A X B, s'.head, s'.len, s'.bump⟩, _,
      ⟨h2.mem.trans (lowMem_ext _ _ _ _ _ _), hsh.head, ?_, ?_⟩, lower_good hg ?_ ?_ h3.todo, ?_, ?_⟩
    · simp; omega
    · have := hsh.bump; simp; omega
    · rw [h3.shp]; exact hS
    · intro k hk hjk
      have := h3.done k hk hjk
      simp only [lv_append] at this ⊢
      rw [lv_cons_neg _ (by simp only [newTower]; omega)] at this
      simpa using this
    · simp [low]
    · have := hsh.len; simp; omega
  · right
    unfold SkipMap.insert at g1
    simp only at g1
    simp only [newMem, newTower] at h3
    rw [h3] at g1
    simp only [Option.bind_eq_bind, Option.bind_some, Option.pure_def, Option.some.injEq, Prod.mk.injEq] at g1
    obtain ⟨rfl, g5⟩ := g1
    have hl := h2.len
    have := hsh.len
    simp only [newTower, hoff] at h1
    refine ⟨⟨w.mem, s.head, w.len, s.bump + off + 1⟩, ⟨w'.mem, s'.head, w'.len, s'.bump + off' + 1⟩, T2, ?_, ⟨h2.mem, hsh.head, ?_, ?_⟩, g2, g3, ?_⟩
    · unfold SkipMap.insertP; simp only; rw [h1, ← g5, ← h2.ret]; rfl
    · simp; omega
    · simp [hoff]
    · simp; omega

/-- The state `s` of a map stands for `σ`. -/
def PRel (s : SkipMap K V) (σ : Counted K V) : Prop :=
  ∃ s' T, Shadow s s' ∧ Good s' T ∧ σ = ⟨abs (T.map (·.e)), s.len⟩

theorem length_next {l : List (K × V)} (hs : Sorted l) (d : Nat) :
    (∀ k v, (ins k v l).length + d = countNext l (l.length + d) (.insert k v)) ∧
    (∀ k, (del k l).length + d = countNext l (l.length + d) (.remove k : MapOp K V)) := by
  constructor
  · intro k v
    simp only [countNext, length_ins hs]
    split <;> omega
  · intro k
    simp only [countNext, length_del hs]
    split
    · rename_i h
      obtain ⟨e, he⟩ := Option.isSome_iff_exists.1 h
      have := List.length_pos_of_mem (find_some_mem he)
      omega
    · rfl

/-- The calls that change nothing, when they return and when they panic. -/
theorem step_same {s : SkipMap K V} {σ : Counted K V} (hrel : PRel s σ) {op : MapOp K V} {d : Draw} {b : Nat}
    (h : ∀ s' T, Shadow s s' → Good s' T → stepP s op d b = some (s, some (countRes (T.map (·.e)) s.len op)) ∨
      stepP s op d b = some (s, none) ∧ Counted.Kept op σ σ)
    (hn : ∀ l : List (K × V), next l op = l) (hc : ∀ (l : List (K × V)) n, countNext l n op = n) :
    ∃ s' o σ', stepP s op d b = some (s', o) ∧ PRel s' σ' ∧
      match o with
      | some r => Counted.Ret op σ r σ'
      | none => Counted.Kept op σ σ' := by
  obtain ⟨s', T, h1, h2, rfl⟩ := hrel
  rcases h s' T h1 h2 with h3 | ⟨h3, h4⟩
  · refine ⟨s, _, ⟨abs (T.map (·.e)), s.len⟩, h3, ⟨s', T, h1, h2, rfl⟩, ?_⟩
    have hle : (T.map (·.e)).length ≤ s.len := by rw [List.length_map, ← h2.2.1]; exact h1.len
    have := (counted_ret h2.2.2.1 op hle).1
    rwa [hn, hc] at this
  · exact ⟨s, none, _, h3, ⟨s', T, h1, h2, rfl⟩, h4⟩

omit [LinearOrder K] in
theorem orHead_ext {s s' : SkipMap K V} (h : Shadow s s') {a : Addr} {r} (hr : orHead s' a = some r) :
    orHead s a = some r := by
  unfold orHead at hr ⊢
  rw [h.head]
  split at hr
  · rename_i e; rw [if_pos e]; exact hr
  · rename_i e
    rw [if_neg e]
    obtain ⟨x, hx, rfl⟩ := Option.map_eq_some_iff.1 hr
    rw [entryAt_ext h.mem hx]; rfl

omit [LinearOrder K] in
theorem orNull_ext {s s' : SkipMap K V} (h : Shadow s s') {o : Option Addr} {r} (hr : orNull s' o = some r) :
    orNull s o = some r := by
  cases o with
  | none => exact hr
  | some a =>
    obtain ⟨x, hx, rfl⟩ := Option.map_eq_some_iff.1 hr
    simp [orNull, entryAt_ext h.mem hx]

theorem getP_ok {s s' : SkipMap K V} (hsh : Shadow s s') {T : List (Tower (K × V))} (h : Good s' T) (key : K)
    (b : Nat) : s.getP key b = some none ∨ s.getP key b = some (some (find key (T.map (·.e)))) := by
  obtain ⟨A, X, B, rfl, hA, hX, hB⟩ := split_at key T h.2.2.1
  rw [map_find hA hX hB]
  have hl := lookup_ext hsh.mem (Nat.succ_le_succ hsh.len) (lookup_at h rfl hA hX hB (startHeight_le s.len))
  rw [← hsh.head] at hl
  unfold SkipMap.getP
  rcases lookupP_or b hl with h1 | h1
  · rw [h1]; exact .inl rfl
  · rw [h1]
    right
    rcases hX with rfl | ⟨x, rfl, hx⟩
    · rfl
    · have he : entryAt s'.mem x.addr = some x.e := entryAt_of_shape (h.1.shp.1.tow x (by simp))
      simp [entryAt_ext hsh.mem he]

theorem getMutP_ok {s s' : SkipMap K V} (hsh : Shadow s s') {T : List (Tower (K × V))} (h : Good s' T) (key : K)
    (f : V → V) (b : Nat) : s.getMutP key f b = some (s, none) ∨
      ∃ s₁ s₁' T', s.getMutP key f b = some (s₁, some (find key (T.map (·.e)))) ∧ Shadow s₁ s₁' ∧ Good s₁' T' ∧
        T'.map (·.e) = upd key f (T.map (·.e)) ∧ s₁.len = s.len := by
  obtain ⟨s2, T2, g1, g2, g3⟩ := getMut_ok h key f
  obtain ⟨A, X, B, rfl, hA, hX, hB⟩ := split_at key T h.2.2.1
  unfold SkipMap.getMut at g1
  rw [lookup_good h rfl hA hX hB] at g1
  have hl := lookup_ext hsh.mem (Nat.succ_le_succ hsh.len) (lookup_at h rfl hA hX hB (startHeight_le s.len))
  rw [← hsh.head] at hl
  unfold SkipMap.getMutP
  rcases lookupP_or b hl with h1 | h1
  · rw [h1]; exact .inl rfl
  · rw [h1]
    right
    rcases hX with rfl | ⟨x, rfl, hx⟩
    · simp only [List.head?_nil, Option.map_none, Option.bind_eq_bind, Option.bind_some, Option.some.injEq,
        Prod.mk.injEq] at g1
      obtain ⟨rfl, g1⟩ := g1
      exact ⟨s, s', T2, by rw [← g1]; rfl, hsh, g2, g3, rfl⟩
    · simp only [List.head?_cons, Option.map_some, Option.bind_eq_bind, Option.bind_some, Option.map_eq_some_iff] at g1
      obtain ⟨⟨m, e⟩, g4, g5⟩ := g1
      simp only [Prod.mk.injEq] at g5
      obtain ⟨rfl, g5⟩ := g5
      obtain ⟨m1, g6, g7⟩ := modifyAt_ext hsh.mem g4
      exact ⟨{ s with mem := m1 }, { s' with mem := m }, T2, by rw [← g5]; simp [g6], ⟨g7, hsh.head, hsh.len, hsh.bump⟩, g2, g3, rfl⟩

theorem clear_shadow {s s' : SkipMap K V} (hsh : Shadow s s') {T : List (Tower (K × V))} (h : Good s' T) :
    ∃ s₁ s₁', s.clear = some s₁ ∧ Shadow s₁ s₁' ∧ Good s₁' [] ∧ s₁.len = 0 := by
  obtain ⟨s2, g1, g2⟩ := clear_ok h
  unfold SkipMap.clear at g1 ⊢
  cases hl : getLink s'.mem s'.head 0 with
  | none => simp [hl] at g1
  | some o =>
    rw [hsh.head, getLink_ext hsh.mem hl]
    simp only [hl, Option.bind_eq_bind, Option.bind_some] at g1 ⊢
    cases hf : freeAll s'.mem s'.len o with
    | none => simp [hf] at g1
    | some m' =>
      obtain ⟨m, h1, h2⟩ := freeAll_ext hsh.mem hsh.len hf
      rw [h1]
      simp only [hf, Option.bind_some] at g1 ⊢
      cases hz : zeroLinks m' none s'.head with
      | none => simp [hz] at g1
      | some m₂' =>
        obtain ⟨m₂, h3, h4⟩ := zeroLinks_ext h2 hz
        rw [h3]
        simp only [hz, Option.bind_some, Option.pure_def, Option.some.injEq] at g1 ⊢
        subst g1
        exact ⟨_, ⟨m₂', s'.head, 0, s'.bump⟩, rfl, ⟨h4, rfl, Nat.le_refl _, hsh.bump⟩, g2, rfl⟩

theorem iter_shadow {s s' : SkipMap K V} (hsh : Shadow s s') {T : List (Tower (K × V))} (h : Good s' T) :
    s.iter = some (T.map (·.e)) := by
  have g1 := iter_ok h
  unfold SkipMap.iter at g1 ⊢
  cases hl : getLink s'.mem s'.head 0 with
  | none => simp [hl] at g1
  | some o =>
    rw [hsh.head, getLink_ext hsh.mem hl]
    simp only [hl, Option.bind_eq_bind, Option.bind_some] at g1 ⊢
    exact collect_ext hsh.mem hsh.len g1

theorem min_shadow {s s' : SkipMap K V} (hsh : Shadow s s') {T : List (Tower (K × V))} (h : Good s' T) :
    s.min = some (T.map (·.e)).head? := by
  have g1 := min_ok h
  unfold SkipMap.min at g1 ⊢
  cases hl : getLink s'.mem s'.head 0 with
  | none => simp [hl] at g1
  | some o =>
    rw [hsh.head, getLink_ext hsh.mem hl]
    simp only [hl, Option.bind_eq_bind, Option.bind_some] at g1 ⊢
    exact orNull_ext hsh g1

theorem max_shadow {s s' : SkipMap K V} (hsh : Shadow s s') {T : List (Tower (K × V))} (h : Good s' T) :
    s.max = some (T.map (·.e)).getLast? := by
  obtain ⟨r, h1, h2⟩ := max_at h (startHeight_le s.len)
  unfold SkipMap.max
  rw [hsh.head, descend_ext hsh.mem (Nat.succ_le_succ hsh.len) h1]
  exact orHead_ext hsh h2

theorem floorP_ok {s s' : SkipMap K V} (hsh : Shadow s s') {T : List (Tower (K × V))} (h : Good s' T) (key : K)
    (b : Nat) : s.floorP key b = some none ∨ s.floorP key b = some (some (floor key (T.map (·.e)))) := by
  obtain ⟨r, h1, h2⟩ := floor_at h key (startHeight_le s.len)
  unfold SkipMap.floorP
  rw [hsh.head]
  rcases descendP_or b (descend_ext hsh.mem (Nat.succ_le_succ hsh.len) h1) with h3 | h3
  · rw [h3]; exact .inl rfl
  · rw [h3]; right; simp [orHead_ext hsh h2]

theorem ceilP_ok {s s' : SkipMap K V} (hsh : Shadow s s') {T : List (Tower (K × V))} (h : Good s' T) (key : K)
    (b : Nat) : s.ceilP key b = some none ∨ s.ceilP key b = some (some (ceil key (T.map (·.e)))) := by
  obtain ⟨r, h1, h2⟩ := ceil_at h key (startHeight_le s.len)
  unfold SkipMap.ceilP
  rw [hsh.head]
  rcases descendP_or b (descend_ext hsh.mem (Nat.succ_le_succ hsh.len) h1) with h3 | h3
  · rw [h3]; exact .inl rfl
  · rw [h3]; right; simp [orNull_ext hsh h2]

theorem stepP_ok {s : SkipMap K V} {σ : Counted K V} (hrel : PRel s σ) (op : MapOp K V) (d : Draw) (b : Nat)
    (hok : NotHalfway s op d b) :
    ∃ s' o σ', stepP s op d b = some (s', o) ∧ PRel s' σ' ∧
      match o with
      | some r => Counted.Ret op σ r σ'
      | none => Counted.Kept op σ σ' := by
  cases op with
  | insert k v =>
    obtain ⟨s', T, h1, h2, rfl⟩ := hrel
    have hle : (T.map (·.e)).length ≤ s.len := by rw [List.length_map, ← h2.2.1]; exact h1.len
    rcases insertP_ok h1 h2 k v d.1 d.2 (Nat.le_of_lt_succ d.1.2) b with ⟨i, s₁, g1, g2⟩ | ⟨s₁, s₁', T', g1, g2, g3, g4, g5⟩
    · obtain ⟨s₁', T', g3, g4, g5, g6⟩ := g2 (hok s₁ i g1)
      exact ⟨s₁, none, ⟨abs (T'.map (·.e)), s₁.len⟩, by simp only [stepP, g1, Option.map_some, outcome, Option.map_none], ⟨s₁', T', g3, g4, rfl⟩,
        by simp [Counted.Kept, g5, g6]⟩
    · refine ⟨s₁, some (.pair (find k (T.map (·.e)))), ⟨abs (T'.map (·.e)), s₁.len⟩, by simp only [stepP, g1, Option.map_some, outcome], ⟨s₁', T', g2, g3, rfl⟩, ?_⟩
      have := (counted_ret h2.2.2.1 (.insert k v) hle).1
      have hn := (length_next h2.2.2.1 (s.len - s'.len)).1 k v
      have e1 : (T.map (·.e)).length + (s.len - s'.len) = s.len := by
        rw [List.length_map, ← h2.2.1]; have := h1.len; omega
      have e2 : s₁.len = (ins k v (T.map (·.e))).length + (s.len - s'.len) := by
        rw [← g4, List.length_map, ← g3.2.1]; have := h1.len; omega
      rw [e1, ← e2] at hn
      rw [← hn] at this
      rw [g4]
      exact this
  | remove k =>
    obtain ⟨s', T, h1, h2, rfl⟩ := hrel
    have hle : (T.map (·.e)).length ≤ s.len := by rw [List.length_map, ← h2.2.1]; exact h1.len
    rcases removeP_ok h1 h2 k b with ⟨i, s₁, s₁', T', g1, g2, g3, g4, g5⟩ | ⟨s₁, s₁', T', g1, g2, g3, g4, g5⟩
    · exact ⟨s₁, none, ⟨abs (T'.map (·.e)), s₁.len⟩, by simp only [stepP, g1, Option.map_some, outcome, Option.map_none], ⟨s₁', T', g2, g3, rfl⟩,
        by simp [Counted.Kept, g4, g5]⟩
    · refine ⟨s₁, some (.pair (find k (T.map (·.e)))), ⟨abs (T'.map (·.e)), s₁.len⟩, by simp only [stepP, g1, Option.map_some, outcome], ⟨s₁', T', g2, g3, rfl⟩, ?_⟩
      have := (counted_ret h2.2.2.1 (.remove k) hle).1
      have hn := (length_next h2.2.2.1 (s.len - s'.len)).2 k
      have e1 : (T.map (·.e)).length + (s.len - s'.len) = s.len := by
        rw [List.length_map, ← h2.2.1]; have := h1.len; omega
      have e2 : s₁.len = (del k (T.map (·.e))).length + (s.len - s'.len) := by
        rw [← g4, List.length_map, ← g3.2.1]; have := h1.len; omega
      rw [e1, ← e2] at hn
      rw [← hn] at this
      rw [g4]
      exact this
  | getMut k f =>
    obtain ⟨s', T, h1, h2, rfl⟩ := hrel
    have hle : (T.map (·.e)).length ≤ s.len := by rw [List.length_map, ← h2.2.1]; exact h1.len
    rcases getMutP_ok h1 h2 k f b with g1 | ⟨s₁, s₁', T', g1, g2, g3, g4, g5⟩
    · exact ⟨s, none, _, by simp only [stepP, g1, Option.map_some, Option.map_none], ⟨s', T, h1, h2, rfl⟩, rfl⟩
    · refine ⟨s₁, some (.val ((find k (T.map (·.e))).map (·.2))), ⟨abs (T'.map (·.e)), s₁.len⟩, by simp only [stepP, g1, Option.map_some], ⟨s₁', T', g2, g3, rfl⟩, ?_⟩
      have := (counted_ret h2.2.2.1 (.getMut k f) hle).1
      rw [g4, g5]
      exact this
  | clear =>
    obtain ⟨s', T, h1, h2, rfl⟩ := hrel
    have hle : (T.map (·.e)).length ≤ s.len := by rw [List.length_map, ← h2.2.1]; exact h1.len
    obtain ⟨s₁, s₁', g1, g2, g3, g4⟩ := clear_shadow h1 h2
    refine ⟨s₁, _, ⟨abs [], s₁.len⟩, by simp [stepP, step, g1]; rfl, ⟨s₁', [], g2, g3, rfl⟩, ?_⟩
    rw [g4]
    exact (counted_ret h2.2.2.1 .clear hle).1
  | get k =>
    refine step_same hrel (fun s' T h1 h2 => ?_) (fun _ => rfl) fun _ _ => rfl
    rcases getP_ok h1 h2 k b with g | g
    · right; exact ⟨by simp [stepP, g], rfl⟩
    · left; simp [stepP, g, countRes, res]
  | containsKey k =>
    refine step_same hrel (fun s' T h1 h2 => ?_) (fun _ => rfl) fun _ _ => rfl
    rcases getP_ok h1 h2 k b with g | g
    · right; exact ⟨by simp [stepP, g], rfl⟩
    · left; simp [stepP, g, countRes, res]
  | floor k =>
    refine step_same hrel (fun s' T h1 h2 => ?_) (fun _ => rfl) fun _ _ => rfl
    rcases floorP_ok h1 h2 k b with g | g
    · right; exact ⟨by simp [stepP, g], rfl⟩
    · left; simp [stepP, g, countRes, res]
  | ceil k =>
    refine step_same hrel (fun s' T h1 h2 => ?_) (fun _ => rfl) fun _ _ => rfl
    rcases ceilP_ok h1 h2 k b with g | g
    · right; exact ⟨by simp [stepP, g], rfl⟩
    · left; simp [stepP, g, countRes, res]
  | min =>
    refine step_same hrel (fun s' T h1 h2 => .inl ?_) (fun _ => rfl) fun _ _ => rfl
    simp [stepP, step, min_shadow h1 h2, countRes, res]
  | max =>
    refine step_same hrel (fun s' T h1 h2 => .inl ?_) (fun _ => rfl) fun _ _ => rfl
    simp [stepP, step, max_shadow h1 h2, countRes, res]
  | iter =>
    refine step_same hrel (fun s' T h1 h2 => .inl ?_) (fun _ => rfl) fun _ _ => rfl
    simp [stepP, step, iter_shadow h1 h2, countRes, res]
  | len =>
    refine step_same hrel (fun s' T h1 h2 => .inl ?_) (fun _ => rfl) fun _ _ => rfl
    simp [stepP, step, countRes]
  | isEmpty =>
    refine step_same hrel (fun s' T h1 h2 => .inl ?_) (fun _ => rfl) fun _ _ => rfl
    simp [stepP, step, countRes]

/-- The simulation. -/
def panicSim (K V : Type) [LinearOrder K] (a : Addr) :
    PanicSimIf (panicImpl K V a) NotHalfway Counted.empty Counted.Ret Counted.Kept where
  rel := PRel
  empty := ⟨SkipMap.new a, [], ⟨Ext.refl _, rfl, Nat.le_refl _, Nat.le_refl _⟩, good_new a, rfl⟩
  step _ _ op d b hr hok := stepP_ok hr op d b hok

/-! ### Enough comparisons -/

omit [LinearOrder K] in
theorem walkP_enough {m : MHeap K V} {p : K × V → Bool} {i f b : Nat} (hb : f ≤ b) {cur : Addr} {r}
    (h : walk m p i f cur = some r) : ∃ b', b ≤ b' + f ∧ walkP m p i f b cur = some (some (r, b')) := by
  induction f generalizing b cur with
  | zero => simp [walk] at h
  | succ f ih =>
    simp only [walk] at h
    simp only [walkP]
    cases hl : getLink m cur i with
    | none => simp [hl] at h
    | some o =>
      rw [hl] at h
      cases o with
      | none => cases h; exact ⟨b, by omega, rfl⟩
      | some a =>
        simp only at h ⊢
        cases he : entryAt m a with
        | none => simp [he] at h
        | some e =>
          rw [he] at h
          simp only at h ⊢
          obtain ⟨b, rfl⟩ : ∃ c, b = c + 1 := ⟨b - 1, by omega⟩
          simp only
          split at h
          · rename_i hp
            rw [if_pos hp]
            obtain ⟨b', h1, h2⟩ := ih (b := b) (by omega) h
            exact ⟨b', by omega, h2⟩
          · rename_i hp
            rw [if_neg hp]
            cases h
            exact ⟨b, by omega, rfl⟩

theorem removeLevelP_enough {f : Nat} {key : K} {i b : Nat} {w w₁ : Work K V} (hb : f + 1 ≤ b)
    (h : removeLevel f key i w = some w₁) :
    ∃ b', b ≤ b' + (f + 1) ∧ removeLevelP f key i b w = some (some (w₁, b')) := by
  unfold removeLevel at h
  unfold removeLevelP
  cases hw : walk w.mem (fun e => decide (e.1 < key)) i f w.cur with
  | none => simp [hw] at h
  | some r =>
    simp only [hw, Option.bind_eq_bind, Option.bind_some] at h
    obtain ⟨b', h1, h2⟩ := walkP_enough (b := b) (by omega) hw
    rw [h2]
    obtain ⟨c, rfl⟩ : ∃ c, b' = c + 1 := ⟨b' - 1, by omega⟩
    simp only
    cases hn : r.2 with
    | none => rw [hn] at h; exact ⟨c + 1, by omega, by simp [unlinkP, h]⟩
    | some a => rw [hn] at h; exact ⟨c, by omega, by simp [unlinkP, h]⟩

theorem insertLevelP_enough {f : Nat} {key : K} {new : Addr} {nh i b : Nat} {w w₁ : Work K V} (hb : f + 1 ≤ b)
    (h : insertLevel f new nh key i w = some w₁) :
    ∃ b', b ≤ b' + (f + 1) ∧ insertLevelP f new nh key i b w = some (some (w₁, b')) := by
  rw [insertLevel_eq] at h
  unfold insertLevelP
  cases hr : removeLevel f key i w with
  | none => simp [hr] at h
  | some w₂ =>
    rw [hr] at h
    obtain ⟨b', h1, h2⟩ := removeLevelP_enough hb hr
    rw [h2]
    simp only [Option.bind_some] at h
    exact ⟨b', h1, by simp [h]⟩

omit [LinearOrder K] in
theorem downFromP_enough {body : Nat → Work K V → Option (Work K V)}
    {bodyP : Nat → Nat → Work K V → Option (Option (Work K V × Nat))} {c : Nat}
    (hP : ∀ i b w w₁, c ≤ b → body i w = some w₁ → ∃ b', b ≤ b' + c ∧ bodyP i b w = some (some (w₁, b')))
    {i b : Nat} {w w₁ : Work K V} (hb : (i + 1) * c ≤ b) (h : downFrom body i w = some w₁) :
    ∃ b', downFromP bodyP i b w = some (w₁, .ok b') := by
  induction i generalizing b w with
  | zero =>
    obtain ⟨b', _, h2⟩ := hP 0 b w w₁ (by omega) h
    exact ⟨b', by simp [downFromP, h2]⟩
  | succ i ih =>
    simp only [downFrom] at h
    cases hw : body (i + 1) w with
    | none => simp [hw] at h
    | some w₂ =>
      rw [hw] at h
      rw [Nat.succ_mul] at hb
      obtain ⟨b', h1, h2⟩ := hP (i + 1) b w w₂ (by omega) hw
      obtain ⟨b'', h3⟩ := ih (b := b') (by omega) h
      exact ⟨b'', by simp [downFromP, h2, h3]⟩

theorem lookupP_enough {m : MHeap K V} {key : K} {f i b : Nat} {cur : Addr} {r} (hb : (i + 1) * (f + 1) ≤ b)
    (h : lookup m key f i cur = some r) : lookupP m key f i b cur = some (some r) := by
  induction i generalizing b cur with
  | zero =>
    rw [lookup.eq_def] at h
    rw [lookupP.eq_def]
    simp only at h ⊢
    cases hw : walk m (fun e => decide (e.1 < key)) 0 f cur with
    | none => simp [hw] at h
    | some q =>
      obtain ⟨cur', nxt⟩ := q
      simp only [hw] at h
      obtain ⟨b', h1, h2⟩ := walkP_enough (b := b) (by omega) hw
      rw [h2]
      obtain ⟨c, rfl⟩ : ∃ c, b' = c + 1 := ⟨b' - 1, by omega⟩
      cases nxt with
      | none =>
        simp only [Option.isSome_none]
        cases hh : hit m key none with
        | none => simp [hh] at h
        | some o => rw [hh] at h; cases o <;> simpa using h
      | some a =>
        simp only [Option.isSome_some]
        cases hh : hit m key (some a) with
        | none => simp [hh] at h
        | some o => rw [hh] at h; cases o <;> simpa using h
  | succ i ih =>
    rw [lookup.eq_def] at h
    rw [lookupP.eq_def]
    simp only at h ⊢
    rw [Nat.succ_mul] at hb
    cases hw : walk m (fun e => decide (e.1 < key)) (i + 1) f cur with
    | none => simp [hw] at h
    | some q =>
      obtain ⟨cur', nxt⟩ := q
      simp only [hw] at h
      obtain ⟨b', h1, h2⟩ := walkP_enough (b := b) (by omega) hw
      rw [h2]
      obtain ⟨c, rfl⟩ : ∃ c, b' = c + 1 := ⟨b' - 1, by omega⟩
      cases nxt with
      | none =>
        simp only [Option.isSome_none]
        cases hh : hit m key none with
        | none => simp [hh] at h
        | some o =>
          rw [hh] at h
          cases o with
          | none => exact ih (by simp; omega) h
          | some a => simpa using h
      | some a =>
        simp only [Option.isSome_some]
        cases hh : hit m key (some a) with
        | none => simp [hh] at h
        | some o =>
          rw [hh] at h
          cases o with
          | none => exact ih (by simp; omega) h
          | some a => simpa using h

omit [LinearOrder K] in
theorem descendP_enough {m : MHeap K V} {p : K × V → Bool} {f i b : Nat} {cur : Addr} {r}
    (hb : (i + 1) * (f + 1) ≤ b) (h : descend m p f i cur = some r) : descendP m p f i b cur = some (some r) := by
  induction i generalizing b cur with
  | zero =>
    obtain ⟨b', _, h2⟩ := walkP_enough (b := b) (by omega) h
    simp [descendP, h2]
  | succ i ih =>
    simp only [descend] at h
    simp only [descendP]
    rw [Nat.succ_mul] at hb
    cases hw : walk m p (i + 1) f cur with
    | none => simp [hw] at h
    | some q =>
      rw [hw] at h
      obtain ⟨b', h1, h2⟩ := walkP_enough (b := b) (by omega) hw
      rw [h2]
      exact ih (by omega) h

/-- A call makes at most `33 * (len + 2)` comparisons: if that many return, the call does what it does without
panics. -/
theorem stepP_enough {s s' : SkipMap K V} {op : MapOp K V} {d : Draw} {r : MapRes K V} {b : Nat}
    (hb : (maxHeight + 1) * (s.len + 2) ≤ b) (h : step s op d = some (s', r)) :
    stepP s op d b = some (s', some r) := by
  have hsh : (startHeight s.len + 1) * (s.len + 1 + 1) ≤ b :=
    Nat.le_trans (Nat.mul_le_mul_right _ (Nat.succ_le_succ (startHeight_le _))) hb
  cases op with
  | insert k v =>
    simp only [step, Option.map_eq_some_iff, Prod.mk.injEq, Prod.exists] at h
    obtain ⟨s1, o, h, rfl, rfl⟩ := h
    unfold SkipMap.insert at h
    simp only [Option.bind_eq_bind, Option.bind_eq_some_iff, Option.pure_def, Option.some.injEq, Prod.mk.injEq] at h
    obtain ⟨w, h1, rfl, rfl⟩ := h
    obtain ⟨b', h2⟩ := downFromP_enough (fun i b w w₁ hb h => insertLevelP_enough hb h) hb h1
    simp only [stepP, SkipMap.insertP, Option.bind_eq_bind]
    rw [h2]
    rfl
  | remove k =>
    simp only [step, Option.map_eq_some_iff, Prod.mk.injEq, Prod.exists] at h
    obtain ⟨s1, o, h, rfl, rfl⟩ := h
    unfold SkipMap.remove at h
    simp only [Option.bind_eq_bind, Option.bind_eq_some_iff, Option.pure_def, Option.some.injEq, Prod.mk.injEq] at h
    obtain ⟨w, h1, rfl, rfl⟩ := h
    obtain ⟨b', h2⟩ := downFromP_enough (fun i b w w₁ hb h => removeLevelP_enough hb h) hb h1
    simp only [stepP, SkipMap.removeP, Option.bind_eq_bind]
    rw [h2]
    rfl
  | get k =>
    simp only [step, Option.map_eq_some_iff, Prod.mk.injEq] at h
    obtain ⟨o, h, rfl, rfl⟩ := h
    unfold SkipMap.get at h
    simp only [Option.bind_eq_bind, Option.bind_eq_some_iff] at h
    obtain ⟨q, h1, h2⟩ := h
    simp only [stepP, SkipMap.getP]
    rw [lookupP_enough hsh h1]
    cases q with
    | none => cases h2; rfl
    | some a =>
      obtain ⟨e, h3, rfl⟩ := Option.map_eq_some_iff.1 h2
      simp [h3]
  | containsKey k =>
    simp only [step, Option.map_eq_some_iff, Prod.mk.injEq] at h
    obtain ⟨o, h, rfl, rfl⟩ := h
    unfold SkipMap.get at h
    simp only [Option.bind_eq_bind, Option.bind_eq_some_iff] at h
    obtain ⟨q, h1, h2⟩ := h
    simp only [stepP, SkipMap.getP]
    rw [lookupP_enough hsh h1]
    cases q with
    | none => cases h2; rfl
    | some a =>
      obtain ⟨e, h3, rfl⟩ := Option.map_eq_some_iff.1 h2
      simp [h3]
  | getMut k f =>
    simp only [step, Option.map_eq_some_iff, Prod.mk.injEq, Prod.exists] at h
    obtain ⟨s1, o, h, rfl, rfl⟩ := h
    unfold SkipMap.getMut at h
    simp only [Option.bind_eq_bind, Option.bind_eq_some_iff] at h
    obtain ⟨q, h1, h2⟩ := h
    simp only [stepP, SkipMap.getMutP]
    rw [lookupP_enough hsh h1]
    cases q with
    | none => cases h2; rfl
    | some a =>
      obtain ⟨⟨m, e⟩, h3, h4⟩ := Option.map_eq_some_iff.1 h2
      cases h4
      simp [h3]
  | floor k =>
    simp only [step, Option.map_eq_some_iff, Prod.mk.injEq] at h
    obtain ⟨o, h, rfl, rfl⟩ := h
    unfold SkipMap.floor at h
    simp only [Option.bind_eq_bind, Option.bind_eq_some_iff] at h
    obtain ⟨q, h1, h2⟩ := h
    simp only [stepP, SkipMap.floorP]
    rw [descendP_enough hsh h1]
    simp [h2]
  | ceil k =>
    simp only [step, Option.map_eq_some_iff, Prod.mk.injEq] at h
    obtain ⟨o, h, rfl, rfl⟩ := h
    unfold SkipMap.ceil at h
    simp only [Option.bind_eq_bind, Option.bind_eq_some_iff] at h
    obtain ⟨q, h1, h2⟩ := h
    simp only [stepP, SkipMap.ceilP]
    rw [descendP_enough hsh h1]
    simp [h2]
  | _ => simp [stepP, h]

end Verif.Skip.Map
