/- `intersection` of skip maps with common keys: what the level that is linked too much does (C15).

`intersection` links every node it keeps at one level more than the node has (map.rs:732, `take(links_len + 1)`).
Unless the node has full height, the next node that is kept and is at least as high makes the code write outside the
tower, and otherwise a `remove` of the node's key reads outside it. -/
import Verif.Skip.MapAlgebra

namespace Verif.Skip.Map

open Verif.Spec Verif.SL

variable {K V : Type}

/-- What is left of a finished or unfinished intersection: the towers of `F` have full height, `t` follows them and
has not, and it is linked at level `t.h`. -/
structure Frozen (m : MHeap K V) (head : Addr) (F : List (Tower (K × V))) (t : Tower (K × V)) : Prop where
  tow : ∀ f ∈ F, entryAt m f.addr = some f.e
  short : Skip.shape m t.addr = some (some t.e, t.h)
  above : ∀ i, t.h < i → i ≤ maxHeight → Chain (lk m i) head (addrs F)
  at_ : Seg (lk m t.h) head (addrs F ++ [t.addr])

theorem seg_congr {lk lk' : Addr → Option (Option Addr)} {a : Addr} {l : List Addr} (h : Seg lk a l)
    (hf : ∀ x ∈ a :: l, lk' x = lk x) : Seg lk' a l := by
  induction l generalizing a with
  | nil => trivial
  | cons b l ih => exact ⟨by rw [hf a (by simp)]; exact h.1, ih h.2 fun x hx => hf x (List.mem_cons_of_mem _ hx)⟩

/-- Changes elsewhere and at lower levels keep it. -/
theorem Frozen.frame {m m' : MHeap K V} {head : Addr} {F : List (Tower (K × V))} {t : Tower (K × V)}
    (h : Frozen m head F t)
    (hs : ∀ a ∈ head :: (addrs F ++ [t.addr]), Skip.shape m' a = Skip.shape m a)
    (hl : ∀ a ∈ head :: (addrs F ++ [t.addr]), ∀ i, t.h ≤ i → getLink m' a i = getLink m a i) : Frozen m' head F t where
  tow f hf := by
    have h1 := h.tow f hf
    have h2 := hs f.addr (by simp; exact .inr (.inl ⟨f, hf, rfl⟩))
    simp only [Skip.shape, entryAt] at h1 h2 ⊢
    cases hm : m f.addr with
    | none => simp [hm] at h1
    | some n =>
      cases hm' : m' f.addr with
      | none => simp [hm, hm'] at h2
      | some n' =>
        simp only [hm, hm', Option.map_some, Option.some.injEq, Prod.mk.injEq] at h2
        simp only [hm] at h1
        simp [h2.1, h1]
  short := by rw [hs _ (by simp)]; exact h.short
  above i hi hm := chain_frame (h.above i hi hm) fun x hx => hl x (by
    rcases List.mem_cons.1 hx with h | h
    · simp [h]
    · exact List.mem_cons_of_mem _ (List.mem_append_left _ h)) i (by omega)
  at_ := seg_congr h.at_ fun x hx => hl x hx t.h (Nat.le_refl _)

theorem walk_seg {m : MHeap K V} {p : K × V → Bool} {i : Nat} {P : List Addr} {a b : Addr} {fuel : Nat}
    (hc : Seg (lk m i) a (P ++ [b])) (hP : ∀ b ∈ P, ∃ e, entryAt m b = some e ∧ p e = true)
    (hb : ∃ e, entryAt m b = some e ∧ p e = false) (hf : P.length < fuel) :
    walk m p i fuel a = some (lastD a P, some b) := by
  induction P generalizing a fuel with
  | nil =>
    obtain ⟨f, rfl⟩ : ∃ f, fuel = f + 1 := ⟨fuel - 1, by simp at hf; omega⟩
    obtain ⟨e, h1, h2⟩ := hb
    have h3 : getLink m a i = some (some b) := hc.1
    simp [walk, h3, h1, h2]
  | cons c P ih =>
    obtain ⟨f, rfl⟩ : ∃ f, fuel = f + 1 := ⟨fuel - 1, by simp at hf; omega⟩
    obtain ⟨e, h1, h2⟩ := hP c (by simp)
    have h3 : getLink m a i = some (some c) := hc.1
    have := ih (a := c) (fuel := f) hc.2 (fun b hb => hP b (by simp [hb])) (by simp at hf; omega)
    simp [walk, h3, h1, h2, this]

variable [LinearOrder K]

/-- Removing the key of the short tower reads outside it. -/
theorem Frozen.remove {s : SkipMap K V} {F : List (Tower (K × V))} {t : Tower (K × V)} (h : Frozen s.mem s.head F t)
    (ht : t.h ≤ maxHeight) (hF : ∀ f ∈ F, f.e.1 < t.e.1) (hl : F.length ≤ s.len) : s.remove t.e.1 = none := by
  have key : ∀ i, t.h ≤ i → i ≤ maxHeight → ∀ w : Work K V, w.mem = s.mem →
      (w.cur = s.head ∨ w.cur = lastD s.head (addrs F)) → downFrom (removeLevel (s.len + 1) t.e.1) i w = none := by
    intro i
    have hP : ∀ b ∈ addrs F, ∃ e, entryAt s.mem b = some e ∧ decide (e.1 < t.e.1) = true := by
      intro b hb
      obtain ⟨f, hf, rfl⟩ := List.mem_map.1 hb
      exact ⟨f.e, h.tow f hf, by simpa using hF f hf⟩
    have hfl : (addrs F).length < s.len + 1 := by simp; omega
    have htop : ∀ w : Work K V, w.mem = s.mem → (w.cur = s.head ∨ w.cur = lastD s.head (addrs F)) →
        removeLevel (s.len + 1) t.e.1 t.h w = none := by
      intro w hm hc
      have e1 : walk w.mem (fun e => decide (e.1 < t.e.1)) t.h (s.len + 1) w.cur =
          some (lastD s.head (addrs F), some t.addr) := by
        rw [hm]
        have hb : ∃ e, entryAt s.mem t.addr = some e ∧ decide (e.1 < t.e.1) = false :=
          ⟨t.e, entryAt_of_shape h.short, by simp⟩
        rcases hc with hc | hc
        · rw [hc]; exact walk_seg h.at_ hP hb hfl
        · rw [hc]
          exact walk_seg (P := []) (seg_append.1 h.at_).2 (by simp) hb (by simp)
      have e2 : getLink s.mem t.addr t.h = none := by
        obtain ⟨ls, h1, h2⟩ := shape_eq h.short
        simp [getLink, h1, ← h2]
      rw [hm] at e1
      simp [removeLevel, hm, e1, unlink, entryAt_of_shape h.short, e2]
    induction i with
    | zero =>
      intro h0 _ w hm hc
      have : t.h = 0 := by omega
      have := this ▸ htop w hm hc
      exact this
    | succ i ih =>
      intro hi hi' w hm hc
      by_cases e : t.h = i + 1
      · have := e ▸ htop w hm hc
        simp [downFrom, this]
      · have hch := h.above (i + 1) (by omega) hi'
        have e1 : walk w.mem (fun e => decide (e.1 < t.e.1)) (i + 1) (s.len + 1) w.cur =
            some (lastD s.head (addrs F), none) := by
          rw [hm]
          rcases hc with hc | hc
          · rw [hc]
            exact walk_ok (Q := []) (by simpa using hch) hP (by simp) hfl
          · rw [hc]
            have := (chain_append (P := addrs F) (Q := [])).1 (by simpa using hch)
            exact walk_ok (P := []) (Q := []) (by simpa using this.2) (by simp) (by simp) (by simp)
        have e2 : removeLevel (s.len + 1) t.e.1 (i + 1) w = some { w with cur := lastD s.head (addrs F) } := by
          simp [removeLevel, e1, unlink]
        simp only [downFrom, e2]
        exact ih (by omega) (by omega) _ hm (.inr rfl)
  unfold SkipMap.remove
  rw [key maxHeight ht (Nat.le_refl _) _ rfl (.inl rfl)]
  rfl

/-! ### After the first short tower -/

/-- `AL` and `AR` remain, `X` is in hand; none of them is frozen or a place where the next node is linked. -/
structure WInv (s : Merge K V) (head : Addr) (F : List (Tower (K × V))) (t : Tower (K × V)) (AL AR X : List Addr) :
    Prop where
  frozen : Frozen s.mem head F t
  left : s.left = AL.head? ∧ Run s.mem AL
  right : s.right = AR.head? ∧ Run s.mem AR
  nodup : (AL ++ AR ++ X).Nodup
  sep : ∀ a ∈ head :: (addrs F ++ [t.addr]), a ∉ AL ++ AR ++ X
  curr : s.curr[t.h]? = some t.addr
  cur : ∀ c ∈ s.curr, c ∉ AL ++ AR ++ X
  len : F.length ≤ s.len

variable {s s' : Merge K V} {head : Addr} {F : List (Tower (K × V))} {t : Tower (K × V)} {AL AR X : List Addr} {a : Addr}

omit [LinearOrder K] in
theorem WInv.popL (h : WInv s head F t AL AR X) (hp : Map.popL s = some (a, s')) :
    ∃ AL', AL = a :: AL' ∧ WInv s' head F t AL' AR (a :: X) := by
  cases AL with
  | nil => simp [Map.popL, h.left.1] at hp
  | cons b AL =>
    have h1 : getLink s.mem b 0 = some AL.head? := h.left.2 b AL ⟨[], rfl⟩
    simp only [Map.popL, h.left.1, List.head?_cons, h1, Option.map_some, Option.some.injEq, Prod.mk.injEq] at hp
    obtain ⟨rfl, rfl⟩ := hp
    have hp : (AL ++ AR ++ b :: X).Perm (b :: AL ++ AR ++ X) := by
      simpa using (List.perm_middle (l₁ := AL ++ AR) (l₂ := X) (a := b))
    exact ⟨AL, rfl, h.frozen, ⟨rfl, run_tail h.left.2⟩, h.right, hp.nodup_iff.2 h.nodup,
      fun x hx hc => h.sep x hx (hp.mem_iff.1 hc), h.curr, fun x hx hc => h.cur x hx (hp.mem_iff.1 hc), h.len⟩

omit [LinearOrder K] in
theorem WInv.popR (h : WInv s head F t AL AR X) (hp : Map.popR s = some (a, s')) :
    ∃ AR', AR = a :: AR' ∧ WInv s' head F t AL AR' (a :: X) := by
  cases AR with
  | nil => simp [Map.popR, h.right.1] at hp
  | cons b AR =>
    have h1 : getLink s.mem b 0 = some AR.head? := h.right.2 b AR ⟨[], rfl⟩
    simp only [Map.popR, h.right.1, List.head?_cons, h1, Option.map_some, Option.some.injEq, Prod.mk.injEq] at hp
    obtain ⟨rfl, rfl⟩ := hp
    have hp : (AL ++ AR ++ b :: X).Perm (AL ++ b :: AR ++ X) := by
      refine (List.perm_middle (l₁ := AL ++ AR) (l₂ := X) (a := b)).trans ?_
      rw [List.append_assoc, List.append_assoc, List.cons_append]
      exact List.perm_middle.symm
    exact ⟨AR, rfl, h.frozen, h.left, ⟨rfl, run_tail h.right.2⟩, hp.nodup_iff.2 h.nodup,
      fun x hx hc => h.sep x hx (hp.mem_iff.1 hc), h.curr, fun x hx hc => h.cur x hx (hp.mem_iff.1 hc), h.len⟩

omit [LinearOrder K] in
theorem free_some {m m' : MHeap K V} {a : Addr} (h : m.free a = some m') :
    (∀ b, b ≠ a → Skip.shape m' b = Skip.shape m b) ∧ ∀ b j, b ≠ a → getLink m' b j = getLink m b j := by
  unfold Heap.free at h
  cases hm : m a with
  | none => simp [hm] at h
  | some n =>
    simp only [hm, Option.some.injEq] at h
    subst h
    exact ⟨fun b hb => by simp [Skip.shape, hb], fun b j hb => by simp [getLink, hb]⟩

omit [LinearOrder K] in
theorem WInv.free (h : WInv s head F t AL AR (a :: X)) (hf : freeNode s a = some s') : WInv s' head F t AL AR X := by
  simp only [freeNode, Option.map_eq_some_iff] at hf
  obtain ⟨m, h1, rfl⟩ := hf
  obtain ⟨h2, h3⟩ := free_some h1
  have hp : (AL ++ AR ++ a :: X).Perm (a :: (AL ++ AR ++ X)) := List.perm_middle
  have hn := List.nodup_cons.1 (hp.nodup_iff.1 h.nodup)
  have hne : ∀ x ∈ head :: (addrs F ++ [t.addr]), x ≠ a := by
    rintro x hx rfl
    exact h.sep x hx (by simp)
  have hsub : ∀ x, x ∈ AL ++ AR ++ X → x ∈ AL ++ AR ++ a :: X := fun x hx => hp.mem_iff.2 (List.mem_cons_of_mem _ hx)
  refine ⟨h.frozen.frame (fun x hx => h2 x (hne x hx)) (fun x hx i _ => h3 x i (hne x hx)), ⟨h.left.1, ?_⟩,
    ⟨h.right.1, ?_⟩, hn.2, fun x hx hc => h.sep x hx (hsub x hc), h.curr, fun x hx hc => h.cur x hx (hsub x hc), h.len⟩
  · exact run_frame h.left.2 fun x hx => h3 x 0 (by rintro rfl; exact hn.1 (by simp [hx]))
  · exact run_frame h.right.2 fun x hx => h3 x 0 (by rintro rfl; exact hn.1 (by simp [hx]))

omit [LinearOrder K] in
theorem setLink_some {m m' : MHeap K V} {a : Addr} {i : Nat} {l} (h : setLink m a i l = some m') :
    (∃ e n, Skip.shape m a = some (e, n) ∧ i < n) ∧ Skip.shape m' = Skip.shape m ∧
      ∀ b j, getLink m' b j = if b = a ∧ j = i then some l else getLink m b j := by
  have h0 := h
  unfold setLink at h
  cases hm : m a with
  | none => simp [hm] at h
  | some n =>
    simp only [hm] at h
    split at h
    · rename_i hi
      have hs : Skip.shape m a = some (n.entry, n.links.length) := by simp [Skip.shape, hm]
      obtain ⟨m'', h1, h2, h3⟩ := setLink_ok hs hi l
      rw [h1] at h0
      cases h0
      exact ⟨⟨_, _, hs, hi⟩, h2, h3⟩
    · simp at h

omit [LinearOrder K] in
/-- Linking a node below the level of the short tower; higher ones do not get through. -/
theorem relink_low {next : Addr} {h : Nat} {ta : Addr} {e} (n i : Nat) (m m' : MHeap K V) (curr curr' : List Addr)
    (hr : relink next i n (m, curr) = some (m', curr')) (hc : curr[h]? = some ta)
    (hs : Skip.shape m ta = some (e, h)) (hi : i ≤ h) :
    Skip.shape m' = Skip.shape m ∧ (∀ b j, h ≤ j → getLink m' b j = getLink m b j) ∧
      (∀ b, b ∉ curr → b ≠ next → getLink m' b 0 = getLink m b 0) ∧ curr'[h]? = some ta ∧
      ∀ c ∈ curr', c ∈ curr ∨ c = next := by
  induction n generalizing i m curr with
  | zero =>
    simp only [relink, Option.some.injEq, Prod.mk.injEq] at hr
    obtain ⟨rfl, rfl⟩ := hr
    exact ⟨rfl, fun _ _ _ => rfl, fun _ _ _ => rfl, hc, fun c hc => .inl hc⟩
  | succ n ih =>
    simp only [relink] at hr
    cases hci : curr[i]? with
    | none =>
      simp only [hci, Option.some.injEq, Prod.mk.injEq] at hr
      obtain ⟨rfl, rfl⟩ := hr
      exact ⟨rfl, fun _ _ _ => rfl, fun _ _ _ => rfl, hc, fun c hc => .inl hc⟩
    | some c =>
      simp only [hci] at hr
      cases hset : setLink m c i (some next) with
      | none => simp [hset] at hr
      | some m1 =>
        simp only [hset] at hr
        obtain ⟨⟨e', k, g1, g2⟩, g3, g4⟩ := setLink_some hset
        have hne : i ≠ h := by
          rintro rfl
          rw [hci] at hc
          cases hc
          rw [hs] at g1
          cases g1
          omega
        obtain ⟨r1, r2, r3, r4, r5⟩ := ih (i + 1) m1 (curr.set i next) hr
          (by rw [List.getElem?_set_ne hne]; exact hc) (by rw [g3]; exact hs) (by omega)
        refine ⟨by rw [r1, g3], fun b j hj => ?_, fun b hb hb' => ?_, r4, fun x hx => ?_⟩
        · rw [r2 b j hj, g4, if_neg (by omega)]
        · rw [r3 b (fun hm => ?_) hb', g4, if_neg]
          · rintro ⟨rfl, _⟩
            exact hb (List.mem_of_getElem? hci)
          · rcases List.mem_or_eq_of_mem_set hm with h | h
            · exact hb h
            · exact hb' h
        · rcases r5 x hx with h | h
          · rcases List.mem_or_eq_of_mem_set h with h | h
            · exact .inl h
            · exact .inr h
          · exact .inr h

omit [LinearOrder K] in
theorem WInv.append {extra : Nat} (h : WInv s head F t AL AR [a]) (hs : Map.append extra a s = some s') :
    WInv s' head F t AL AR [] := by
  unfold Map.append at hs
  cases hm : s.mem a with
  | none => simp [zeroLinks, hm] at hs
  | some n0 =>
    have hsh : Skip.shape s.mem a = some (n0.entry, n0.links.length) := by simp [Skip.shape, hm]
    obtain ⟨m1, g1, g2, g3⟩ := zeroLinks_ok hsh none
    simp only [g1] at hs
    cases hm1 : m1 a with
    | none => simp [hm1] at hs
    | some n =>
      simp only [hm1, Option.map_eq_some_iff] at hs
      obtain ⟨⟨m2, curr'⟩, g4, rfl⟩ := hs
      obtain ⟨r1, r2, r3, r4, r5⟩ := relink_low _ 0 m1 m2 s.curr curr' g4 h.curr
        (by rw [g2]; exact h.frozen.short) (Nat.zero_le _)
      have hp : (AL ++ AR ++ [a]).Perm (a :: (AL ++ AR)) := List.perm_append_singleton a _
      have hn := List.nodup_cons.1 (hp.nodup_iff.1 h.nodup)
      have hne : ∀ x ∈ head :: (addrs F ++ [t.addr]), x ≠ a := by
        rintro x hx rfl
        exact h.sep x hx (by simp)
      have hrun : ∀ x, x ∈ AL ++ AR → getLink m2 x 0 = getLink s.mem x 0 := by
        intro x hx
        have hxa : x ≠ a := by rintro rfl; exact hn.1 hx
        rw [r3 x (fun hc => h.cur x hc (hp.mem_iff.2 (List.mem_cons_of_mem _ hx))) hxa, g3, if_neg hxa]
      refine ⟨h.frozen.frame (fun x hx => by rw [r1, g2]) (fun x hx i hi => ?_), ⟨h.left.1, ?_⟩, ⟨h.right.1, ?_⟩,
        by simpa using hn.2, fun x hx hc => ?_, r4, fun x hx hc => ?_, Nat.le_succ_of_le h.len⟩
      · rw [r2 x i hi, g3, if_neg (hne x hx)]
      · exact run_frame h.left.2 fun x hx => hrun x (by simp [hx])
      · exact run_frame h.right.2 fun x hx => hrun x (by simp [hx])
      · exact h.sep x hx (hp.mem_iff.2 (List.mem_cons_of_mem _ (by simpa using hc)))
      · rcases r5 x hx with hx | hx
        · exact h.cur x hx (hp.mem_iff.2 (List.mem_cons_of_mem _ (by simpa using hc)))
        · exact hn.1 (hx ▸ by simpa using hc)

theorem WInv.pick (h : WInv s head F t AL AR []) {o : Option Addr} (hp : interPick s = some (s', o)) :
    ∃ AL' AR', WInv s' head F t AL' AR' o.toList := by
  have hdropL : ∀ {s' o}, dropL s = some (s', o) → ∃ AL' AR', WInv s' head F t AL' AR' o.toList := by
    intro s' o hp
    simp only [dropL, Option.bind_eq_bind, Option.bind_eq_some_iff] at hp
    obtain ⟨⟨a, s1⟩, h1, s2, h2, h3⟩ := hp
    simp only [Option.pure_def, Option.some.injEq, Prod.mk.injEq] at h3
    obtain ⟨rfl, rfl⟩ := h3
    obtain ⟨AL', rfl, w⟩ := h.popL h1
    exact ⟨AL', AR, w.free h2⟩
  have hdropR : ∀ {s' o}, dropR s = some (s', o) → ∃ AL' AR', WInv s' head F t AL' AR' o.toList := by
    intro s' o hp
    simp only [dropR, Option.bind_eq_bind, Option.bind_eq_some_iff] at hp
    obtain ⟨⟨a, s1⟩, h1, s2, h2, h3⟩ := hp
    simp only [Option.pure_def, Option.some.injEq, Prod.mk.injEq] at h3
    obtain ⟨rfl, rfl⟩ := h3
    obtain ⟨AR', rfl, w⟩ := h.popR h1
    exact ⟨AL, AR', w.free h2⟩
  unfold interPick at hp
  split at hp
  · split at hp
    · simp at hp
    · simp only [Option.bind_eq_bind, Option.bind_eq_some_iff] at hp
      obtain ⟨⟨a, s1⟩, h1, ⟨b, s2⟩, h2, s3, h3, h4⟩ := hp
      simp only [Option.pure_def, Option.some.injEq, Prod.mk.injEq] at h4
      obtain ⟨rfl, rfl⟩ := h4
      obtain ⟨AL', rfl, w1⟩ := h.popL h1
      obtain ⟨AR', rfl, w2⟩ := w1.popR h2
      exact ⟨AL', AR', w2.free h3⟩
    · exact hdropL hp
    · exact hdropR hp
  · exact hdropR hp
  · exact hdropL hp

theorem WInv.loop {extra : Nat} (f : Nat) (h : WInv s head F t AL AR []) (hl : mergeLoop interPick extra f s = some s') :
    ∃ AL' AR', WInv s' head F t AL' AR' [] := by
  induction f generalizing s AL AR with
  | zero =>
    by_cases hne : s.left ≠ none ∨ s.right ≠ none
    · rw [mergeLoop_zero hne] at hl; simp at hl
    · rw [mergeLoop.eq_def] at hl
      simp only [ne_eq, not_or, not_not] at hne
      simp only [hne.1, hne.2, Option.some.injEq] at hl
      subst hl
      exact ⟨AL, AR, h⟩
  | succ f ih =>
    by_cases hne : s.left ≠ none ∨ s.right ≠ none
    · rw [mergeLoop_step hne] at hl
      cases hp : interPick s with
      | none => simp [hp] at hl
      | some q =>
        obtain ⟨s1, o⟩ := q
        obtain ⟨AL', AR', w⟩ := h.pick hp
        cases o with
        | none => simp only [hp] at hl; exact ih w hl
        | some a =>
          simp only [hp] at hl
          cases ha : Map.append extra a s1 with
          | none => simp [ha] at hl
          | some s2 => simp only [ha] at hl; exact ih (w.append ha) hl
    · rw [mergeLoop.eq_def] at hl
      simp only [ne_eq, not_or, not_not] at hne
      simp only [hne.1, hne.2, Option.some.injEq] at hl
      subst hl
      exact ⟨AL, AR, h⟩

/-! ### The first short tower -/

variable {lh rh : Addr} {O L R Z : List (Tower (K × V))}

omit [LinearOrder K] in
theorem lv_full {i : Nat} (hi : i ≤ maxHeight) (hO : ∀ t ∈ O, t.h = maxHeight + 1) : lv i O = addrs O := by
  unfold lv addrs
  rw [List.filter_eq_self.2]
  intro t ht
  simp [hO t ht]; omega

omit [LinearOrder K] in
/-- Appending the first short tower. -/
theorem append_short (h : MInv s head lh rh O L R [t]) (hO : ∀ t ∈ O, t.h = maxHeight + 1) (ht : t.h ≤ maxHeight)
    (hs : Map.append 1 t.addr s = some s') : WInv s' head O t (addrs L) (addrs R) [] := by
  obtain ⟨f1, f2, f3, f4, f5⟩ := h.fresh
  have htow := h.tow t (by simp)
  obtain ⟨m1, a1, a2, a3⟩ := zeroLinks_ok htow none
  have ht1 : Skip.shape m1 t.addr = some (some t.e, t.h) := by rw [a2]; exact htow
  obtain ⟨ls, b1, b2⟩ := shape_eq ht1
  have hlast : lastD head (addrs O) ∈ head :: addrs O := lastD_mem _ _
  have hheadO : ∀ y ∈ head :: addrs O, y ≠ t.addr := by
    rintro y hy rfl
    rcases List.mem_cons.1 hy with hy | hy
    · exact f1 (by rw [hy]; simp)
    · exact f2 hy
  obtain ⟨m2, curr', c1, c2, c3, c4, c5⟩ := relink_ok (next := t.addr) (c := fun _ => lastD head (addrs O)) (t.h + 1) 0 m1
    s.curr h.curr.1 (by omega) (fun j _ hj => by rw [h.curr.2 j (by omega), lv_full (by omega) hO])
    (fun j _ hj => by
      rw [a2]
      rcases List.mem_cons.1 hlast with hy | hy
      · rw [hy]; exact ⟨_, _, h.hd head (by simp), by omega⟩
      · obtain ⟨x, hx, he⟩ := List.mem_map.1 hy
        rw [← he]
        exact ⟨_, _, h.tow x (by simp [hx]), by rw [hO x hx]; omega⟩)
  simp only [Nat.zero_le, true_and, Nat.zero_add] at c3 c5
  have e : s' = { s with mem := m2, curr := curr', len := s.len + 1 } := by
    unfold Map.append at hs
    rw [a1] at hs
    simp only [b1, b2, c1, Option.map_some, Option.some.injEq] at hs
    exact hs.symm
  subst e
  have hn := h.nodup
  have hn1 : (head :: (addrs O ++ [t.addr] ++ (addrs L ++ addrs R))).Nodup := by
    have p : ([head, lh, rh] ++ addrs (O ++ L ++ R ++ [t])).Perm
        ([lh, rh] ++ (head :: (addrs O ++ [t.addr] ++ (addrs L ++ addrs R)))) := by
      simp only [addrs, List.map_append, List.map_cons, List.map_nil, List.cons_append, List.nil_append]
      refine (List.Perm.swap _ _ _).trans (.cons _ ((List.Perm.swap _ _ _).trans (.cons _ (.cons _ ?_))))
      simp only [List.append_assoc]
      refine List.Perm.append_left _ ?_
      rw [← List.append_assoc]
      exact List.perm_append_comm
    exact (List.nodup_append.1 (p.nodup_iff.1 hn)).2.1
  have hn2 := List.nodup_append.1 (show ((head :: (addrs O ++ [t.addr])) ++ (addrs L ++ addrs R)).Nodup by simpa using hn1)
  have hsep : ∀ a ∈ head :: (addrs O ++ [t.addr]), a ∉ addrs L ++ addrs R := fun a ha hc => hn2.2.2 a ha a hc rfl
  have hrun : ∀ y ∈ addrs L ++ addrs R, getLink m2 y 0 = getLink s.mem y 0 := by
    intro y hy
    rw [c3, if_neg, a3, if_neg]
    · rintro rfl; exact hsep t.addr (by simp) hy
    · rintro ⟨_, rfl⟩
      refine hsep _ ?_ hy
      rcases List.mem_cons.1 hlast with h | h
      · rw [h]; simp
      · exact List.mem_cons_of_mem _ (List.mem_append_left _ h)
  refine ⟨⟨?_, ?_, ?_, ?_⟩, ⟨h.left.1, ?_⟩, ⟨h.right.1, ?_⟩, ?_, ?_, ?_, ?_, ?_⟩
  · intro f hf
    refine entryAt_of_shape (n := f.h) ?_
    simp only [c2, a2]
    exact h.tow f (by simp [hf])
  · simp only [c2]; exact ht1
  · intro i hi hm
    have hc := h.chain i hm
    rw [lv_full hm hO] at hc
    refine chain_frame hc fun y hy => ?_
    simp only [lk]
    rw [c3, if_neg (by omega), a3, if_neg (hheadO y hy)]
  · have hc := h.chain t.h ht
    rw [lv_full ht hO] at hc
    have hnn : (head :: (addrs O ++ [])).Nodup := by
      have := (List.nodup_append.1 (show ((head :: addrs O) ++ ([t.addr] ++ (addrs L ++ addrs R))).Nodup by simpa using hn1)).1
      simpa using this
    rw [← List.append_nil (addrs O), chain_append] at hc
    refine seg_append.2 ⟨seg_frame (by simpa using hnn) hc.1 fun y hy hne => ?_, ⟨?_, trivial⟩⟩
    · simp only [lk]
      rw [c3, if_neg (by simp [hne]), a3, if_neg (hheadO y hy)]
    · simp only [lk]
      rw [c3, if_pos ⟨by omega, rfl⟩]
  · exact run_frame h.left.2 fun a ha => hrun a (by simp [ha])
  · exact run_frame h.right.2 fun a ha => hrun a (by simp [ha])
  · simpa using hn2.2.1
  · intro a ha; simpa using hsep a ha
  · rw [c5 _ ht, if_pos (by omega)]
  · intro c hc
    obtain ⟨j, hj, rfl⟩ := List.mem_iff_getElem.1 hc
    have hj' : j < curr'.length := hj
    have hlt : lastD head (addrs O) ∈ head :: (addrs O ++ [t.addr]) := by
      rcases List.mem_cons.1 hlast with h | h
      · rw [h]; simp
      · exact List.mem_cons_of_mem _ (List.mem_append_left _ h)
    have h1 := c5 j (by omega)
    rw [h.curr.2 j (by omega), lv_full (by omega) hO, List.getElem?_eq_getElem hj'] at h1
    split at h1
    · have h1 : curr'[j] = t.addr := Option.some.inj h1
      rw [show ({ s with mem := m2, curr := curr', len := s.len + 1 } : Merge K V).curr[j] = curr'[j] from rfl, h1]
      simpa using hsep t.addr (by simp)
    · have h1 : curr'[j] = lastD head (addrs O) := Option.some.inj h1
      rw [show ({ s with mem := m2, curr := curr', len := s.len + 1 } : Merge K V).curr[j] = curr'[j] from rfl, h1]
      simpa using hsep _ hlt
  · show O.length ≤ s.len + 1
    rw [h.len]; omega

omit [LinearOrder K] in
theorem listMerge_step {P : Pick K V} {f : Nat} (h : L ≠ [] ∨ R ≠ []) : listMerge P (f + 1) L R = (match P L R with
    | none => none
    | some (L', R', none) => listMerge P f L' R'
    | some (L', R', some t) => (listMerge P f L' R').map (t :: ·)) := by
  cases L <;> cases R <;> first | (exfalso; simp at h; done) | rfl

/-- If a kept tower is short and the loop gets through, the first such tower is frozen. -/
theorem loop_short (f : Nat) (h : MInv s head lh rh O L R []) (hO : ∀ t ∈ O, t.h = maxHeight + 1)
    (hZ : listMerge interP f L R = some Z) (hsh : ∃ t ∈ Z, t.h ≤ maxHeight) (hl : mergeLoop interPick 1 f s = some s') :
    ∃ F t G AL AR, O ++ Z = F ++ t :: G ∧ t.h ≤ maxHeight ∧ WInv s' head F t AL AR [] ∧
      lh ∉ head :: (addrs F ++ [t.addr]) ∧ rh ∉ head :: (addrs F ++ [t.addr]) := by
  induction f generalizing s O L R Z with
  | zero =>
    exfalso
    cases L <;> cases R <;> simp [listMerge] at hZ
    subst hZ; simp at hsh
  | succ f ih =>
    by_cases hLR : L = [] ∧ R = []
    · exfalso
      obtain ⟨rfl, rfl⟩ := hLR
      simp only [listMerge, Option.some.injEq] at hZ
      subst hZ; simp at hsh
    · have hne : L ≠ [] ∨ R ≠ [] := by tauto
      have hp1 := inter_implements s head lh rh O L R h hne
      rw [listMerge_step hne] at hZ
      rw [mergeLoop_step (h.nonempty hne)] at hl
      cases hP : interP L R with
      | none => simp [hP] at hZ
      | some q =>
        obtain ⟨L', R', ot⟩ := q
        rw [hP] at hp1
        obtain ⟨s1, h1, h2⟩ := hp1
        simp only [h1] at hl
        simp only [hP] at hZ
        cases ot with
        | none => exact ih h2 hO hZ hsh hl
        | some t =>
          simp only [Option.map_some, Option.toList_some] at h2 hl
          simp only [Option.map_eq_some_iff] at hZ
          obtain ⟨Z', hZ', rfl⟩ := hZ
          cases ha : Map.append 1 t.addr s1 with
          | none => simp [ha] at hl
          | some s2 =>
            simp only [ha] at hl
            by_cases ht : t.h ≤ maxHeight
            · have w := append_short h2 hO ht ha
              obtain ⟨AL, AR, w⟩ := w.loop f hl
              have hn := h2.nodup
              have hsub : ∀ x ∈ addrs O ++ [t.addr], x ∈ addrs (O ++ L' ++ R' ++ [t]) := by
                intro x hx
                rw [mem_lists]
                rcases List.mem_append.1 hx with hx | hx
                · exact .inl hx
                · exact .inr (.inr (.inr hx))
              simp only [List.cons_append, List.nil_append, List.nodup_cons, List.mem_cons, not_or] at hn
              refine ⟨O, t, Z', AL, AR, rfl, ht, w, ?_, ?_⟩
              · intro hc
                rcases List.mem_cons.1 hc with hc | hc
                · exact hn.1.1 hc.symm
                · exact hn.2.1.2 (hsub _ hc)
              · intro hc
                rcases List.mem_cons.1 hc with hc | hc
                · exact hn.1.2.1 hc.symm
                · exact hn.2.2.1 (hsub _ hc)
            · have hfull : t.h = maxHeight + 1 := by have := (h2.pos t (by simp)).2; omega
              obtain ⟨s2', g1, g2, -⟩ := append_ok h2
              rw [append_full h2 hfull, g1] at ha
              cases ha
              obtain ⟨F, u, G, AL, AR, r1, r2⟩ := ih (O := O ++ [t]) g2 (by
                intro x hx
                rcases List.mem_append.1 hx with hx | hx
                · exact hO x hx
                · rw [List.mem_singleton.1 hx]; exact hfull) hZ' (by
                obtain ⟨u, hu, hu'⟩ := hsh
                rcases List.mem_cons.1 hu with rfl | hu
                · exact absurd hu' ht
                · exact ⟨u, hu, hu'⟩) hl
              exact ⟨F, u, G, AL, AR, by simpa using r1, r2⟩

theorem inter_sub (f : Nat) (L R Z : List (Tower (K × V))) (h : listMerge interP f L R = some Z) : ∀ t ∈ Z, t ∈ L := by
  induction f generalizing L R Z with
  | zero => cases L <;> cases R <;> simp [listMerge] at h; subst h; simp
  | succ f ih =>
    cases L with
    | nil =>
      cases R with
      | nil => simp [listMerge] at h; subst h; simp
      | cons b R => simp only [listMerge, interP] at h; exact ih _ _ _ h
    | cons a L =>
      cases R with
      | nil =>
        simp only [listMerge, interP] at h
        exact fun t ht => List.mem_cons_of_mem _ (ih _ _ _ h t ht)
      | cons b R =>
        simp only [listMerge, interP] at h
        cases hc : compare a.e.1 b.e.1 with
        | lt =>
          simp only [hc] at h
          exact fun t ht => List.mem_cons_of_mem _ (ih _ _ _ h t ht)
        | eq =>
          simp only [hc, Option.map_eq_some_iff] at h
          obtain ⟨Z', h1, rfl⟩ := h
          intro t ht
          rcases List.mem_cons.1 ht with rfl | ht
          · simp
          · exact List.mem_cons_of_mem _ (ih _ _ _ h1 t ht)
        | gt =>
          simp only [hc] at h
          exact ih _ _ _ h

/-- What `intersection` keeps. -/
theorem inter_keeps (f : Nat) (L R Z : List (Tower (K × V))) (hL : Sorted (ents L)) (h : listMerge interP f L R = some Z)
    (hc : Comb gI (ents L) (ents R) (ents Z)) (t : Tower (K × V)) :
    t ∈ Z ↔ t ∈ L ∧ (find t.e.1 (ents R)).isSome := by
  have hsub := inter_sub f L R Z h
  constructor
  · intro ht
    have h1 := find_of_mem hc.1 (mem_ents ht)
    rw [hc.2, gI] at h1
    refine ⟨hsub t ht, ?_⟩
    split at h1
    · assumption
    · simp at h1
  · rintro ⟨ht, hr⟩
    have h1 := hc.2 t.e.1
    rw [gI, if_pos hr, find_of_mem hL (mem_ents ht)] at h1
    obtain ⟨u, hu, hue⟩ := List.mem_map.1 (find_some_mem h1)
    have hn : (ents L).Nodup := List.Pairwise.imp (fun h e => absurd h (by simp [e])) hL
    rwa [← List.inj_on_of_nodup_map hn (hsub u hu) ht hue]

/-- **Exact behaviour of `intersection`.** -/
theorem inter_exact {off : Nat} {l r : SkipMap K V} {L R : List (Tower (K × V))} (hl : Good l L) (hr : Good r R)
    (hd : Disjoint l r) :
    ((∀ t ∈ L, (find t.e.1 (ents R)).isSome → t.h = maxHeight + 1) →
      ∃ c Z, l.intersection r off = some c ∧ Good c Z ∧ Comb gI (ents L) (ents R) (ents Z)) ∧
    (¬ (∀ t ∈ L, (find t.e.1 (ents R)).isSome → t.h = maxHeight + 1) →
      ∀ c, l.intersection r off = some c → ∃ t ∈ L, (find t.e.1 (ents R)).isSome ∧ c.remove t.e.1 = none) := by
  obtain ⟨Z, h1, h2⟩ := inter_list (l.len + r.len) L R (by rw [hl.2.1, hr.2.1]; exact Nat.le_refl _) hl.2.2.1 hr.2.2.1
  have hk := inter_keeps _ L R Z hl.2.2.1 h1 h2
  constructor
  · intro hf
    obtain ⟨c, h3, h4⟩ := (mergeWith_ok (extra := 1) (off := off) inter_implements inter_conserves hl hr hd).1 Z h1
      (.inr fun t ht => hf t ((hk t).1 ht).1 ((hk t).1 ht).2) h2.1
    exact ⟨c, Z, h3, h4, h2⟩
  · intro hf c hc
    push Not at hf
    obtain ⟨t, ht, ht1, ht2⟩ := hf
    obtain ⟨s₀, head, hinv, hlrh, hbnd, hmw⟩ := merge_start interPick 1 off hl hr hd
    rw [SkipMap.intersection, hmw] at hc
    cases hloop : mergeLoop interPick 1 (l.len + r.len) s₀ with
    | none => simp [hloop] at hc
    | some s =>
      have hpos := (hinv.pos t (by simp [ht])).2
      obtain ⟨F, u, G, AL, AR, e1, e2, w, e3, e4⟩ := loop_short _ hinv (by simp) h1
        ⟨t, (hk t).2 ⟨ht, ht1⟩, by omega⟩ hloop
      simp only [hloop, Option.bind_some, Option.bind_eq_some_iff, Option.some.injEq] at hc
      obtain ⟨m1, f1, m2, f2, rfl⟩ := hc
      obtain ⟨g1, g2⟩ := free_some f1
      obtain ⟨g3, g4⟩ := free_some f2
      have hfr : Frozen m2 head F u := by
        refine (w.frozen.frame (fun a ha => g1 a ?_) (fun a ha i _ => g2 a i ?_)).frame
          (fun a ha => g3 a ?_) (fun a ha i _ => g4 a i ?_)
        all_goals (rintro rfl; first | exact e3 ha | exact e4 ha)
      have hu := (hk u).1 (by rw [show Z = F ++ u :: G by simpa using e1]; simp)
      refine ⟨u, hu.1, hu.2, Frozen.remove (s := ⟨m2, head, s.len, head + 1⟩) hfr e2 ?_ w.len⟩
      intro x hx
      have hs := h2.1
      rw [show Z = F ++ u :: G by simpa using e1] at hs
      simp only [ents, List.map_append, List.map_cons] at hs
      exact (List.pairwise_append.1 hs).2.2 x.e (List.mem_map.2 ⟨x, hx, rfl⟩) u.e (by simp)

end Verif.Skip.Map
