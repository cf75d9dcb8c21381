/- Properties C05, C15, C16 and C51 of `SkipMap` (and of `SkipSet`, which is `SkipMap` with unit values). -/
import Verif.Skip.MapAlgebra
import Verif.Skip.MapInter
import Mathlib.Tactic.Convert
import Mathlib.Data.Nat.Basic

namespace Verif.Skip.Map

open Verif.Spec Verif.SL

/-- **C05.** Every history of `SkipMap` calls runs without panic and without touching memory outside the
allocated nodes, and returns what an abstract ordered map returns, whatever heights are drawn and whatever
addresses the allocator hands out. -/
theorem C05_skip_map_history (K V : Type) [LinearOrder K] (a : Addr) : (impl K V a).Correct := (sim K V a).correct

/-- A history with an overwrite and a removal; the pairs on the right are the drawn height and address. -/
example : ((impl Nat Nat 0).run (SkipMap.new 0) ([(.insert 2 20, (1, 0)), (.insert 1 10, (0, 3)),
      (.insert 3 30, (4, 0)), (.insert 4 40, (2, 0)), (.getMut 1 (· + 1), (0, 0)),
      (.insert 2 21, (3, 0)), (.remove 3, (0, 0)), (.floor 3, (0, 0)), (.ceil 3, (0, 0)), (.get 1, (0, 0)),
      (.len, (0, 0))] : List (MapOp Nat Nat × Draw))).map (fun p => p.2.map (·.2)) =
    some [.pair none, .pair none, .pair none, .pair none, .val (some 10), .pair (some (2, 20)),
      .pair (some (3, 30)), .key (some 2), .key (some 4), .val (some 11), .num 3] := by
  decide +kernel

variable {K V : Type} [LinearOrder K]

/-- The maps a program can build: by any map call, with any heights and addresses, and by those set
operations that can succeed.  Two maps that are alive together own different memory. -/
inductive Reach : SkipMap K V → Prop
  | new (a) : Reach (SkipMap.new a)
  | step {s s' op d r} : Reach s → step s op d = some (s', r) → Reach s'
  | union {a b c off} : Reach a → Reach b → Disjoint a b → a.union b off = some c → Reach c
  | difference {a b c off} : Reach a → Reach b → Disjoint a b → a.difference b off = some c → Reach c
  | symmetricDifference {a b c off} : Reach a → Reach b → Disjoint a b → a.symmetricDifference b off = some c → Reach c

theorem good_of_reach {s : SkipMap K V} (h : Reach s) : ∃ T, Good s T := by
  induction h with
  | new a => exact ⟨[], good_new a⟩
  | step _ hstep ih =>
    rename_i s s' op d r _
    obtain ⟨T, hT⟩ := ih
    obtain ⟨s₁, h1, T', h2, _⟩ := (sim K V 0).step s _ op d hT.2.2.1 ⟨T, hT, rfl⟩
    have h4 : some (s', r) = some (s₁, res (T.map (·.e)) op) := by rw [← hstep]; exact h1
    have h5 : s' = s₁ := congrArg Prod.fst (Option.some.inj h4)
    exact ⟨T', h5 ▸ h2⟩
  | union _ _ hd h iha ihb =>
    obtain ⟨L, hL⟩ := iha
    obtain ⟨R, hR⟩ := ihb
    obtain ⟨c', Z, h1, h2, _⟩ := union_ok hL hR hd
    rw [h1] at h
    exact ⟨Z, Option.some.inj h ▸ h2⟩
  | difference _ _ hd h iha ihb =>
    obtain ⟨L, hL⟩ := iha
    obtain ⟨R, hR⟩ := ihb
    by_cases ho : Overhang L R
    · rw [SkipMap.difference, diff_crash false hL hR hd ho] at h; simp at h
    · obtain ⟨c', Z, h1, h2, _⟩ := diff_ok false hL hR hd ho
      rw [SkipMap.difference, h1] at h
      exact ⟨Z, Option.some.inj h ▸ h2⟩
  | symmetricDifference _ _ hd h iha ihb =>
    obtain ⟨L, hL⟩ := iha
    obtain ⟨R, hR⟩ := ihb
    by_cases ho : Overhang L R
    · rw [SkipMap.symmetricDifference, diff_crash true hL hR hd ho] at h; simp at h
    · obtain ⟨c', Z, h1, h2, _⟩ := diff_ok true hL hR hd ho
      rw [SkipMap.symmetricDifference, h1] at h
      exact ⟨Z, Option.some.inj h ▸ h2⟩

/-- "Behaves from now on as an ordered map with contents `m`". -/
abbrev Rp (s : SkipMap K V) (m : AMap K V) : Prop := (impl K V 0).Represents s m

theorem good_represents {s : SkipMap K V} {T : List (Tower (K × V))} (h : Good s T) : Rp s (abs (ents T)) :=
  (sim K V 0).represents h.2.2.1 ⟨T, h, rfl⟩

theorem C05_skip_map_represents {s : SkipMap K V} (h : Reach s) : ∃ m, Rp s m := by
  obtain ⟨T, hT⟩ := good_of_reach h
  exact ⟨_, good_represents hT⟩

theorem contents {s : SkipMap K V} {m : AMap K V} {T : List (Tower (K × V))} (h : Good s T) (hm : Rp s m) :
    m = abs (ents T) :=
  represents_unique (I := impl K V 0) ((0, 0) : Draw) hm (good_represents h)

theorem overhang_iff {a b : SkipMap K V} {L R : List (Tower (K × V))} {ma mb : AMap K V} (ha : Good a L) (hb : Good b R)
    (hma : Rp a ma) (hmb : Rp b mb) :
    Overhang L R ↔ ∃ x, ma.Has x ∧ ∀ y, mb.Has y → y < x := by
  have key : ∀ {s : SkipMap K V} {T : List (Tower (K × V))}, Good s T → ∀ k, (abs (ents T)).Has k ↔ ∃ t ∈ T, t.e.1 = k := by
    intro s T hT k
    simp only [AMap.Has, SL.abs, Option.isSome_map]
    constructor
    · intro h
      obtain ⟨e, he⟩ := Option.isSome_iff_exists.1 h
      obtain ⟨t, ht, h1⟩ := List.mem_map.1 (find_some_mem he)
      exact ⟨t, ht, by rw [h1]; exact find_some_key he⟩
    · rintro ⟨t, ht, rfl⟩
      rw [find_of_mem hT.2.2.1 (mem_ents ht)]; rfl
  rw [contents ha hma, contents hb hmb]
  constructor
  · rintro ⟨x, hx, h⟩
    refine ⟨x.e.1, (key ha _).2 ⟨x, hx, rfl⟩, fun y hy => ?_⟩
    obtain ⟨t, ht, rfl⟩ := (key hb _).1 hy
    exact h t ht
  · rintro ⟨x, hx, h⟩
    obtain ⟨t, ht, rfl⟩ := (key ha _).1 hx
    exact ⟨t, ht, fun y hy => h _ ((key hb _).2 ⟨y, hy, rfl⟩)⟩

/-! ### C15 -/

/-- **C15, union (`+`).** The union of any two maps succeeds and behaves as the map with the bindings of
either, `a`'s values on common keys. -/
theorem C15_union {a b : SkipMap K V} {ma mb : AMap K V} (ha : Reach a) (hb : Reach b) (hd : Disjoint a b)
    (hma : Rp a ma) (hmb : Rp b mb) (off : Nat) :
    ∃ c, a.union b off = some c ∧ Rp c (fun k => (ma k).or (mb k)) := by
  obtain ⟨L, hL⟩ := good_of_reach ha
  obtain ⟨R, hR⟩ := good_of_reach hb
  obtain ⟨c, Z, h1, h2, h3⟩ := union_ok (off := off) hL hR hd
  refine ⟨c, h1, ?_⟩
  convert good_represents h2 using 1
  funext k
  rw [contents hL hma, contents hR hmb]
  simp only [SL.abs, h3.2, gU]
  cases find k (ents L) <;> rfl

/-- **C15, difference (`-`), partial.** When no key of `a` exceeds all keys of `b`, the difference succeeds
and behaves as the map with `a`'s bindings whose key `b` lacks.  Missing: the other pairs of maps, for which
the claim is false (`C15_difference_crash`). -/
theorem C15_difference_partial {a b : SkipMap K V} {ma mb : AMap K V} (ha : Reach a) (hb : Reach b) (hd : Disjoint a b)
    (hma : Rp a ma) (hmb : Rp b mb) (ho : ∀ x, ma.Has x → ∃ y, mb.Has y ∧ x ≤ y) (off : Nat) :
    ∃ c, a.difference b off = some c ∧ Rp c (fun k => if (mb k).isSome then none else ma k) := by
  obtain ⟨L, hL⟩ := good_of_reach ha
  obtain ⟨R, hR⟩ := good_of_reach hb
  have ho' : ¬ Overhang L R := by
    rw [overhang_iff hL hR hma hmb]
    rintro ⟨x, hx, h⟩
    obtain ⟨y, hy, hxy⟩ := ho x hx
    exact absurd (h y hy) (not_lt.2 hxy)
  obtain ⟨c, Z, h1, h2, h3⟩ := diff_ok false (off := off) hL hR hd ho'
  refine ⟨c, h1, ?_⟩
  convert good_represents h2 using 1
  funext k
  rw [contents hL hma, contents hR hmb]
  simp only [SL.abs, h3.2, Option.isSome_map]
  cases find k (ents L) <;> cases find k (ents R) <;> rfl

/-- **C15, symmetric difference, partial.** The same for the bindings whose key is in exactly one map. -/
theorem C15_symmetric_difference_partial {a b : SkipMap K V} {ma mb : AMap K V} (ha : Reach a) (hb : Reach b)
    (hd : Disjoint a b) (hma : Rp a ma) (hmb : Rp b mb) (ho : ∀ x, ma.Has x → ∃ y, mb.Has y ∧ x ≤ y) (off : Nat) :
    ∃ c, a.symmetricDifference b off = some c ∧
      Rp c (fun k => if (mb k).isSome then (if (ma k).isSome then none else mb k) else ma k) := by
  obtain ⟨L, hL⟩ := good_of_reach ha
  obtain ⟨R, hR⟩ := good_of_reach hb
  have ho' : ¬ Overhang L R := by
    rw [overhang_iff hL hR hma hmb]
    rintro ⟨x, hx, h⟩
    obtain ⟨y, hy, hxy⟩ := ho x hx
    exact absurd (h y hy) (not_lt.2 hxy)
  obtain ⟨c, Z, h1, h2, h3⟩ := diff_ok true (off := off) hL hR hd ho'
  refine ⟨c, h1, ?_⟩
  convert good_represents h2 using 1
  funext k
  rw [contents hL hma, contents hR hmb]
  simp only [SL.abs, h3.2, Option.isSome_map]
  cases find k (ents L) <;> cases find k (ents R) <;> rfl

/-- **C15, exact failure of the differences.** When some key of `a` exceeds all keys of `b` (in particular
when `b` is empty and `a` is not), both differences dereference a null pointer. -/
theorem C15_difference_crash {a b : SkipMap K V} {ma mb : AMap K V} (ha : Reach a) (hb : Reach b) (hd : Disjoint a b)
    (hma : Rp a ma) (hmb : Rp b mb) (ho : ∃ x, ma.Has x ∧ ∀ y, mb.Has y → y < x) (off : Nat) :
    a.difference b off = none ∧ a.symmetricDifference b off = none := by
  obtain ⟨L, hL⟩ := good_of_reach ha
  obtain ⟨R, hR⟩ := good_of_reach hb
  have ho' := (overhang_iff hL hR hma hmb).2 ho
  exact ⟨diff_crash false hL hR hd ho', diff_crash true hL hR hd ho'⟩

/-- **C15, intersection, partial.** The intersection of maps without a common key succeeds and is empty.
Missing: maps with a common key, for which the claim is false (`C15_intersection_violated`). -/
theorem C15_intersection_partial {a b : SkipMap K V} {ma mb : AMap K V} (ha : Reach a) (hb : Reach b)
    (hd : Disjoint a b) (hma : Rp a ma) (hmb : Rp b mb) (hn : ∀ k, ¬ (ma.Has k ∧ mb.Has k)) (off : Nat) :
    ∃ c, a.intersection b off = some c ∧ Rp c (fun k => if (mb k).isSome then ma k else none) := by
  obtain ⟨L, hL⟩ := good_of_reach ha
  obtain ⟨R, hR⟩ := good_of_reach hb
  have hn' : ∀ k, find k (ents L) = none ∨ find k (ents R) = none := by
    intro k
    have := hn k
    rw [contents hL hma, contents hR hmb] at this
    simp only [AMap.Has, SL.abs, Option.isSome_map] at this
    cases h : find k (ents L) <;> cases h' : find k (ents R) <;> simp [h, h'] at this ⊢
  obtain ⟨c, h1, h2⟩ := inter_ok (off := off) hL hR hd hn'
  refine ⟨c, h1, ?_⟩
  convert good_represents h2 using 1
  funext k
  rw [contents hL hma, contents hR hmb]
  simp only [SL.abs, Option.isSome_map]
  rcases hn' k with h | h <;> simp [h, find_nil]

/-- Every node of `a` whose key is in `mb` has full height (33 links). -/
def AllTall (a : SkipMap K V) (mb : AMap K V) : Prop :=
  ∀ x n k v, a.mem x = some n → n.entry = some (k, v) → mb.Has k → n.links.length = 33

theorem allTall_iff {a : SkipMap K V} {L R : List (Tower (K × V))} (ha : Good a L) :
    AllTall a (abs (ents R)) ↔ ∀ t ∈ L, (find t.e.1 (ents R)).isSome → t.h = maxHeight + 1 := by
  have hh : ∀ k, (abs (ents R)).Has k ↔ (find k (ents R)).isSome := fun k => by
    simp only [AMap.Has, SL.abs, Option.isSome_map]
  constructor
  · intro h t ht hr
    obtain ⟨ls, h1, h2⟩ := shape_eq (ha.1.shp.1.tow t ht)
    have := h t.addr _ t.e.1 t.e.2 h1 rfl ((hh _).2 hr)
    rw [← h2]; exact this
  · intro h x n k v h1 h2 h3
    have hx : x ∈ L.map (·.addr) := by
      by_contra hc
      have h4 : shape a.mem x = some (some (k, v), n.links.length) := by simp [shape, h1, h2]
      by_cases hh : x = a.head
      · rw [hh, ha.1.shp.1.hd] at h4; simp at h4
      · rw [ha.1.shp.2 x hh hc] at h4; simp at h4
    obtain ⟨t, ht, rfl⟩ := List.mem_map.1 hx
    obtain ⟨ls, g1, g2⟩ := shape_eq (ha.1.shp.1.tow t ht)
    rw [g1] at h1
    cases h1
    simp only [Option.some.injEq] at h2
    have := h t ht ((hh _).1 (by rw [h2]; exact h3))
    rw [g2]; exact this

/-- **C15, intersection, exactly.** The intersection succeeds and behaves as some map from then on exactly if every
node of `a` whose key `b` has, too, drew the greatest height (one draw in `2 ^ 32`). -/
theorem C15_intersection_exact {a b : SkipMap K V} {ma mb : AMap K V} (ha : Reach a) (hb : Reach b)
    (hd : Disjoint a b) (hma : Rp a ma) (hmb : Rp b mb) (off : Nat) :
    ((∃ c m, a.intersection b off = some c ∧ Rp c m) ↔ AllTall a mb) ∧
    (∀ c m, a.intersection b off = some c → Rp c m → m = fun k => if (mb k).isSome then ma k else none) := by
  obtain ⟨L, hL⟩ := good_of_reach ha
  obtain ⟨R, hR⟩ := good_of_reach hb
  obtain ⟨h1, h2⟩ := inter_exact (off := off) hL hR hd
  rw [contents hL hma, contents hR hmb, allTall_iff hL]
  have hno : ∀ c m, a.intersection b off = some c → Rp c m →
      ∀ t ∈ L, (find t.e.1 (ents R)).isSome → t.h = maxHeight + 1 := by
    intro c m hc hm
    by_contra hf
    obtain ⟨t, _, _, ht⟩ := h2 hf c hc
    have := hm [(.remove t.e.1, (0, 0))]
    simp [MapImpl.run, impl, step, ht] at this
  refine ⟨⟨fun ⟨c, m, hc, hm⟩ => hno c m hc hm, fun hf => ?_⟩, fun c m hc hm => ?_⟩
  · obtain ⟨c, Z, h3, h4, _⟩ := h1 hf
    exact ⟨c, _, h3, good_represents h4⟩
  · obtain ⟨c', Z, h3, h4, h5⟩ := h1 (hno c m hc hm)
    rw [h3] at hc
    cases hc
    rw [contents h4 hm]
    funext k
    simp only [SL.abs, h5.2, gI, Option.isSome_map]
    cases find k (ents R) <;> rfl

/-- **C15, what goes wrong otherwise.** If the intersection does return, removing one of the common keys from the
result reads outside a node. -/
theorem C15_intersection_breaks {a b : SkipMap K V} {ma mb : AMap K V} (ha : Reach a) (hb : Reach b)
    (hd : Disjoint a b) (hma : Rp a ma) (hmb : Rp b mb) (off : Nat) (hs : ¬ AllTall a mb) :
    ∀ c, a.intersection b off = some c → ∃ k, ma.Has k ∧ mb.Has k ∧ c.remove k = none := by
  obtain ⟨L, hL⟩ := good_of_reach ha
  obtain ⟨R, hR⟩ := good_of_reach hb
  rw [contents hR hmb, allTall_iff hL] at hs
  intro c hc
  obtain ⟨t, ht, hr, h⟩ := (inter_exact (off := off) hL hR hd).2 hs c hc
  refine ⟨t.e.1, ?_, ?_, h⟩
  · rw [contents hL hma]
    simp only [AMap.Has, SL.abs, Option.isSome_map]
    rw [find_of_mem hL.2.2.1 (mem_ents ht)]; rfl
  · rw [contents hR hmb]
    simpa only [AMap.Has, SL.abs, Option.isSome_map] using hr

/-- The map built by inserting pairs with the given heights, starting at address `a`. -/
def build (a : Addr) (l : List (Nat × Nat × _root_.Fin 33)) : Option (SkipMap Nat Nat) :=
  l.foldl (fun s e => s.bind fun s => (s.insert e.1 e.2.1 e.2.2 0).map (·.1)) (some (SkipMap.new a))

theorem reach_build (a : Addr) (l : List (Nat × Nat × _root_.Fin 33)) {s : SkipMap Nat Nat} (h : build a l = some s) : Reach s := by
  have gen : ∀ (l : List (Nat × Nat × _root_.Fin 33)) (o : Option (SkipMap Nat Nat)), (∀ s, o = some s → Reach s) →
      ∀ s, l.foldl (fun s e => s.bind fun s => (s.insert e.1 e.2.1 e.2.2 0).map (·.1)) o = some s → Reach s := by
    intro l
    induction l with
    | nil => intro o h s hs; exact h s hs
    | cons e l ih =>
      intro o h s hs
      refine ih _ ?_ s hs
      intro s' hs'
      cases o with
      | none => simp at hs'
      | some s0 =>
        simp only [Option.bind_some, Option.map_eq_some_iff] at hs'
        obtain ⟨⟨x, r⟩, h1, rfl⟩ := hs'
        exact Reach.step (op := .insert e.1 e.2.1) (d := (e.2.2, 0)) (r := .pair r) (h s0 rfl) (by simp [step, h1])
  exact gen l _ (fun s hs => by simp at hs; exact hs ▸ Reach.new a) s h

/-- The same map outside the `Option`. -/
def mk (a : Addr) (l : List (Nat × Nat × _root_.Fin 33)) : SkipMap Nat Nat := (build a l).getD (SkipMap.new a)

theorem reach_mk (a : Addr) (l : List (Nat × Nat × _root_.Fin 33)) : Reach (mk a l) := by
  unfold mk
  cases h : build a l with
  | none => exact .new a
  | some s => exact reach_build a l h

/-- Maps built in separate address ranges are disjoint. -/
theorem disjoint_of_ranges {a b : SkipMap K V} (ha : Reach a) (hb : ∀ x, x < a.bump → (b.mem x).isNone) : Disjoint a b := by
  obtain ⟨L, hL⟩ := good_of_reach ha
  intro x
  by_cases h : x < a.bump
  · exact .inr (Option.isNone_iff_eq_none.1 (hb x h))
  · exact .inl (hL.2.2.2 x (Nat.le_of_not_lt h))

/-- What a map lists (by `iter`). -/
def listing (o : Option (SkipMap Nat Nat)) : Option (List (Nat × Nat)) := o.bind (·.iter)

/-- `{1, 3, 5}`. -/
def exA : SkipMap Nat Nat := mk 0 [(1, 10, 0), (3, 30, 2), (5, 50, 1)]
/-- `{3, 7}`. -/
def exB : SkipMap Nat Nat := mk 4 [(3, 31, 3), (7, 71, 0)]
theorem disjoint_ex : Disjoint exA exB := disjoint_of_ranges (reach_mk 0 _) (by decide +kernel)

/-- The hypotheses of the theorems above are met by, for instance, `{1, 3, 5}` and `{3, 7}`, and the
operations give what they say. -/
example : Reach exA ∧ Reach exB ∧ Disjoint exA exB ∧
    listing (some exA) = some [(1, 10), (3, 30), (5, 50)] ∧ listing (some exB) = some [(3, 31), (7, 71)] ∧
    listing (exA.union exB 0) = some [(1, 10), (3, 30), (5, 50), (7, 71)] ∧
    listing (exA.difference exB 0) = some [(1, 10), (5, 50)] ∧
    listing (exA.symmetricDifference exB 0) = some [(1, 10), (5, 50), (7, 71)] :=
  ⟨reach_mk 0 _, reach_mk 4 _, disjoint_ex, by decide +kernel, by decide +kernel, by decide +kernel, by decide +kernel,
    by decide +kernel⟩

/-- And those of `C15_intersection_partial` by `{1, 3, 5}` and `{2}`. -/
example : listing (exA.intersection (mk 4 [(2, 20, 1)]) 0) = some [] := by decide +kernel

/-- `{1, 3, 5}` and `{3, 7}` again, but `3` has 33 links: the intersection is right.  With only 32 links it is not:
it returns and lists `3`, but removing `3` reads outside a node. -/
example : listing ((mk 0 [(1, 10, 0), (3, 30, 32), (5, 50, 1)]).intersection exB 0) = some [(3, 30)] ∧
    (((mk 0 [(1, 10, 0), (3, 30, 32), (5, 50, 1)]).intersection exB 0).bind (·.remove 3)).map (·.2) = some (some (3, 30)) ∧
    listing ((mk 0 [(1, 10, 0), (3, 30, 31), (5, 50, 1)]).intersection exB 0) = some [(3, 30)] ∧
    (((mk 0 [(1, 10, 0), (3, 30, 31), (5, 50, 1)]).intersection exB 0).bind (·.remove 3)).isNone ∧
    (mk 0 [(1, 10, 0), (3, 30, 32), (5, 50, 1)]).mem 2 = some ⟨some (3, 30), some 3 :: some 3 :: List.replicate 31 none⟩ := by
  decide +kernel

/-- **C15 is violated by `difference` and `symmetric_difference`**: `{1} - {}` dereferences null. -/
theorem C15_difference_violated : ∃ a b : SkipMap Nat Nat, Reach a ∧ Reach b ∧ Disjoint a b ∧
    listing (some a) = some [(1, 10)] ∧ listing (some b) = some [] ∧
    a.difference b 0 = none ∧ a.symmetricDifference b 0 = none :=
  ⟨mk 0 [(1, 10, 0)], SkipMap.new 2, reach_mk 0 _, .new 2, disjoint_of_ranges (reach_mk 0 _) (by decide +kernel),
    by decide +kernel, by decide +kernel, Option.isNone_iff_eq_none.1 (by decide +kernel),
    Option.isNone_iff_eq_none.1 (by decide +kernel)⟩

/-- **C15 is violated by `intersection`**: with two common keys it writes outside a tower; with one common
key it returns a map on which a later lookup reads outside a tower. -/
theorem C15_intersection_violated :
    (∃ a b : SkipMap Nat Nat, Reach a ∧ Reach b ∧ Disjoint a b ∧ listing (some a) = some [(1, 10), (2, 20)] ∧
      listing (some b) = some [(1, 11), (2, 21)] ∧ a.intersection b 0 = none) ∧
    (∃ a b c : SkipMap Nat Nat, Reach a ∧ Reach b ∧ Disjoint a b ∧ a.intersection b 0 = some c ∧ c.get 2 = none) := by
  refine ⟨⟨mk 0 [(1, 10, 0), (2, 20, 0)], mk 3 [(1, 11, 0), (2, 21, 0)], reach_mk 0 _, reach_mk 3 _,
    disjoint_of_ranges (reach_mk 0 _) (by decide +kernel), by decide +kernel, by decide +kernel,
    Option.isNone_iff_eq_none.1 (by decide +kernel)⟩,
    ⟨mk 0 [(1, 10, 0)], mk 2 [(1, 11, 0)], (SkipMap.intersection (mk 0 [(1, 10, 0)]) (mk 2 [(1, 11, 0)]) 0).get (by decide +kernel),
      reach_mk 0 _, reach_mk 2 _, disjoint_of_ranges (reach_mk 0 _) (by decide +kernel), ?_, ?_⟩⟩
  · exact (Option.some_get _).symm
  · exact Option.isNone_iff_eq_none.1 (by decide +kernel)

/-! ### C51 -/

/-- **C51.** Dropping any map deallocates every node it owns, each exactly once, and nothing else: no call
leaks a node. -/
theorem C51_skip_map_drop_frees_all {s : SkipMap K V} (h : Reach s) : ∃ m, s.drop = some m ∧ ∀ a, m a = none := by
  obtain ⟨T, hT⟩ := good_of_reach h
  exact drop_ok hT

/-- Such a map is the union built above. -/
example : ∃ c, exA.union exB 0 = some c ∧ Reach c :=
  have h : exA.union exB 0 = some ((exA.union exB 0).get (by decide +kernel)) := (Option.some_get _).symm
  ⟨_, h, Reach.union (reach_mk 0 _) (reach_mk 4 _) disjoint_ex h⟩

/-! ### C16 -/

omit [LinearOrder K] in
theorem linked_of_chain {m : MHeap K V} {T : List (Tower (K × V))}
    (he : ∀ t ∈ T, ∃ n, shape m t.addr = some (some t.e, n))
    (hc : ∀ a Q, (∃ P, T.map (·.addr) = P ++ a :: Q) → getLink m a 0 = some Q.head?) :
    Linked id m (T.map (·.addr)).head? (T.map fun t => (t.addr, t.e)) := by
  induction T with
  | nil => rfl
  | cons t T ih =>
    have h1 : getLink m t.addr 0 = some (T.map (·.addr)).head? := hc t.addr (T.map (·.addr)) ⟨[], rfl⟩
    refine ⟨rfl, (T.map (fun t => t.addr)).head?, h1, he t (by simp), ?_⟩
    refine ih (fun x hx => he x (by simp [hx])) ?_
    rintro a Q ⟨P, hP⟩
    exact hc a Q ⟨t.addr :: P, by simp [hP]⟩

/-- **C16, what happens.** After `n` steps the iterator has handed out the first `n` entries; dropping it
drops every other entry twice; no memory is leaked. -/
theorem C16_map_into_iter_exact {s : SkipMap K V} {m : AMap K V} {l : List (K × V)} (h : Reach s) (hm : Rp s m)
    (hl : Lists m l) (n : Nat) :
    ∃ it it₁ it₂, s.intoIter = some it ∧ it.advance id n = some it₁ ∧ it₁.drop id s.len = some it₂ ∧
      it₂.handed = l.take n ∧ it₂.dropped = (l.drop n).flatMap (fun e => [e, e]) ∧ ∀ a, it₂.mem a = none := by
  obtain ⟨T, hT⟩ := good_of_reach h
  have e1 : l = ents T := lists_unique hl (by rw [contents hT hm]; exact lists_abs hT.2.2.1)
  obtain ⟨hr, hlen, hs, hb⟩ := hT
  have hc := hr.chain 0 (Nat.zero_le _)
  rw [lv_zero fun t ht => (hr.shp.1.pos t ht).1] at hc
  have hnd := hr.shp.1.nodup
  have hfst : getLink s.mem s.head 0 = some (T.map (·.addr)).head? := chain_link hc
  obtain ⟨m1, a1, a2, a3⟩ := zeroLinks_ok hr.shp.1.hd none
  obtain ⟨m2, b1, b2, b3⟩ := free_ok (m := m1) (by rw [a2]; exact hr.shp.1.hd)
  have hne : ∀ a ∈ T.map (·.addr), a ≠ s.head := by
    rintro a ha rfl; exact (List.nodup_cons.1 hnd).1 ha
  have hshape : ∀ a, a ≠ s.head → shape m2 a = shape s.mem a := fun a ha => by rw [b2, if_neg ha, a2]
  have hlinked : Linked id m2 (T.map (·.addr)).head? (T.map fun t => (t.addr, t.e)) := by
    refine linked_of_chain (fun t ht => ?_) ?_
    · rw [hshape _ (hne _ (List.mem_map.2 ⟨t, ht, rfl⟩))]
      exact ⟨_, hr.shp.1.tow t ht⟩
    · intro a Q hP
      have ha : a ∈ T.map (·.addr) := by obtain ⟨P, hP⟩ := hP; rw [hP]; simp
      rw [b3, if_neg (hne a ha), a3, if_neg (hne a ha)]
      exact chain_next (lk := lk s.mem 0) hc a Q hP
  have hn2 : ((T.map fun t => (t.addr, t.e)).map (·.1)).Nodup := by
    rw [List.map_map]; exact (List.nodup_cons.1 hnd).2
  obtain ⟨it1, c1, c2, c3, c4, c5⟩ := advance_ok (it := ⟨m2, (T.map (·.addr)).head?, [], []⟩) n hn2 hlinked
  have hn3 : (((T.map fun t => (t.addr, t.e)).drop n).map (·.1)).Nodup := by
    rw [List.map_drop]; exact hn2.sublist (List.drop_sublist _ _)
  obtain ⟨it2, d1, d2, d3, d4⟩ := drop_all_ok (it := it1) s.len (by simp [hlen]) hn3 c4
  refine ⟨⟨m2, (T.map (·.addr)).head?, [], []⟩, it1, it2, ?_, c1, d1, ?_, ?_, ?_⟩
  · simp [SkipMap.intoIter, hfst, a1, b1]
  · rw [d2, c2, e1]; simp [List.map_take, Function.comp_def]
  · rw [d3, c3, e1]; simp [List.map_drop, Function.comp_def]
  · intro a
    have : shape it2.mem a = none := by
      rw [d4, c5]
      split
      · rfl
      · split
        · rfl
        · rename_i h1 h2
          by_cases ha : a = s.head
          · simp only; rw [b2, if_pos ha]
          · simp only; rw [hshape a ha]
            refine hr.shp.2 a ha ?_
            intro hc
            have h3 : a ∈ ((T.map fun t => (t.addr, t.e)).map (·.1)) := by rw [List.map_map]; exact hc
            rw [← List.take_append_drop n (T.map fun t => (t.addr, t.e)), List.map_append, List.mem_append] at h3
            tauto
    simpa [shape] using this

/-- **C16, partial.** If the iterator is run to its end before it is dropped, every entry is accounted for
exactly once.  Missing: iterators dropped early, for which the claim is false (`C16_map_into_iter_violated`). -/
theorem C16_map_into_iter_partial {s : SkipMap K V} {m : AMap K V} {l : List (K × V)} (h : Reach s) (hm : Rp s m)
    (hl : Lists m l) (n : Nat) (hn : l.length ≤ n) :
    ∃ it it₁ it₂, s.intoIter = some it ∧ it.advance id n = some it₁ ∧ it₁.drop id s.len = some it₂ ∧
      ExactlyOnce l it₂.handed it₂.dropped := by
  obtain ⟨it, it1, it2, h1, h2, h3, h4, h5, _⟩ := C16_map_into_iter_exact h hm hl n
  refine ⟨it, it1, it2, h1, h2, h3, ?_⟩
  rw [h4, h5, List.take_of_length_le hn, List.drop_of_length_le hn]
  simp [ExactlyOnce]

/-- **C16 is violated** whenever the iterator is dropped before its end: entries are dropped twice. -/
theorem C16_map_into_iter_violated {s : SkipMap K V} {m : AMap K V} {l : List (K × V)} (h : Reach s) (hm : Rp s m)
    (hl : Lists m l) (n : Nat) (hn : n < l.length) :
    ∃ it it₁ it₂, s.intoIter = some it ∧ it.advance id n = some it₁ ∧ it₁.drop id s.len = some it₂ ∧
      ¬ ExactlyOnce l it₂.handed it₂.dropped := by
  obtain ⟨it, it1, it2, h1, h2, h3, h4, h5, _⟩ := C16_map_into_iter_exact h hm hl n
  exact ⟨it, it1, it2, h1, h2, h3, by rw [h4, h5]; exact not_once l n hn⟩

/-- A run: two of three entries are taken, the third is dropped twice. -/
example : (((exA.intoIter.bind (·.advance id 2)).bind (·.drop id exA.len)).map fun it => (it.handed, it.dropped)) =
    some ([(1, 10), (3, 30)], [(5, 50), (5, 50)]) := by decide +kernel

end Verif.Skip.Map
