/- C91: the set operations of `SkipMap`s after panics of comparisons. -/
import Verif.Skip.WebSets
import Verif.Skip.WebProps

namespace Verif.Skip.Map.Torn

open Verif.Spec Verif.SL

variable {K V : Type} [LinearOrder K]

/-! ### The maps -/

/-- The maps that calls reach in which any comparisons may panic, by themselves or through the set operations. -/
inductive Reached : SkipMap K V → Prop where
  | new (a : Addr) : Reached (SkipMap.new a)
  | call {s s' : SkipMap K V} {op : MapOp K V} {d : Draw} {b : Nat} {o : Option (MapRes K V)} :
      Reached s → stepP s op d b = some (s', o) → Reached s'
  | union {l r c : SkipMap K V} {off : Nat} : Reached l → Reached r → Disjoint l r → l.union r off = some c → Reached c
  | difference {l r c : SkipMap K V} {off : Nat} :
      Reached l → Reached r → Disjoint l r → l.difference r off = some c → Reached c
  | symmetricDifference {l r c : SkipMap K V} {off : Nat} :
      Reached l → Reached r → Disjoint l r → l.symmetricDifference r off = some c → Reached c

/-- What a set operation makes of `l` and `r`: a map that holds `out`; freeing it leaves allocated what freeing `l` and
`r` would have left. -/
structure Made (l r c : SkipMap K V) (out : List (K × V)) : Prop where
  rel : WRel c ⟨(out : Multiset (K × V)), 0⟩
  fit : Fit c
  sorted : Sorted out
  iter : c.iter = some out
  len : c.len = out.length
  drop : ∃ mc ml mr, c.drop = some mc ∧ l.drop = some ml ∧ r.drop = some mr ∧
    ∀ x, mc x ≠ none ↔ ml x ≠ none ∨ mr x ≠ none

/-- What is known of a reached map. -/
def Ok (s : SkipMap K V) : Prop := (∃ σ, WRel s σ) ∧ Fit s

theorem iter_of_rel {s : SkipMap K V} {out : List (K × V)} (h : WRel s ⟨(out : Multiset (K × V)), 0⟩) (hs : Sorted out) :
    s.iter = some out := by
  obtain ⟨l, h1, h2, h3⟩ := iter_web h
  have h4 : l.Perm out := Multiset.coe_eq_coe.1 h3
  rw [h1, h4.eq_of_pairwise (fun a b _ _ h h' => absurd h' (lt_asymm h)) h2 hs]

theorem made_of {pick : Merge K V → Option (Merge K V × Option Addr)} {P : Pick K V} (himp : Implements pick P)
    (hfr : Frames pick) (hcons : Conserves P) (off : Nat) {l r : SkipMap K V} (hl : Ok l) (hr : Ok r) (hd : Disjoint l r) :
    ∃ L R : List (Tower (K × V)), l.iter = some (Map.ents L) ∧ r.iter = some (Map.ents R) ∧
      Sorted (Map.ents L) ∧ Sorted (Map.ents R) ∧ L.length + R.length ≤ l.len + r.len ∧
      (∀ Z, listMerge P (l.len + r.len) L R = some Z → Sorted (Map.ents Z) →
        ∃ c, mergeWith pick 0 l r off = some c ∧ Made l r c (Map.ents Z)) ∧
      (listMerge P (l.len + r.len) L R = none →
        (∀ (F : MHeap K V) (s : Merge K V) head lh rh, Apart F s.mem → MInv s head lh rh [] L R [] →
          mergeLoop pick 0 (l.len + r.len) s = none → mergeLoop pick 0 (l.len + r.len) (ov F s) = none) →
        mergeWith pick 0 l r off = none) := by
  obtain ⟨⟨σl, Al, Tl, Ul, hHl, -⟩, hfl⟩ := hl
  obtain ⟨⟨σr, Ar, Tr, Ur, hHr, -⟩, hfrr⟩ := hr
  obtain ⟨L, l1, rfl, l3, l4⟩ := inner_laid hHl hfl
  obtain ⟨R, r1, rfl, r3, r4⟩ := inner_laid hHr hfrr
  have hlenl : L.length ≤ l.len := by have := hHl.len; simp [addrs] at this; omega
  have hlenr : R.length ≤ r.len := by have := hHr.len; simp [addrs] at this; omega
  obtain ⟨s, head, F, m1, m2, m3, m4, m5, m6, m7, m8, m9⟩ := mergeWith_torn hfr off l1 r1 hfl hfrr hd
  refine ⟨L, R, l3, r3, l4, r4, by omega, fun Z hZ hsZ => ?_, fun hZ hc => ?_⟩
  · obtain ⟨s', e1, e2⟩ := (mergeLoop_ok (extra := 0) (f := l.len + r.len) himp m1).1 Z hZ (.inl rfl)
    simp only [List.nil_append] at e2
    obtain ⟨m, m', f1, f2, f3⟩ := finish_ok e2 m3
      (fun t ht => m5 t (List.mem_append.2 (listMerge_mem hcons _ _ _ _ hZ t ht))) m4
    obtain ⟨g1, g2⟩ := m8 s' e1 m m' f1 f2
    have hrel : WRel (⟨over F m', head, s'.len, head + 1⟩ : SkipMap K V) ⟨(Map.ents Z : Multiset (K × V)), 0⟩ :=
      wrel_of_wgood f3 hsZ F
    obtain ⟨mi, d1, d2⟩ := lawlessDrop_ok f3
    have d3 := drop_over (F := F) (s := ⟨m', head, s'.len, head + 1⟩) g2 d1
    obtain ⟨ml, d4, d5⟩ := drop_exact l1 hlenl
    obtain ⟨mr, d6, d7⟩ := drop_exact r1 hlenr
    refine ⟨_, g1, hrel, ?_, hsZ, iter_of_rel hrel hsZ, ?_, _, ml, mr, d3, d4, d6, fun x => ?_⟩
    · intro x n hx
      simp only [over] at hx
      cases hF : F x with
      | some n' =>
        have : m' x = none := by
          by_contra hne
          exact absurd (g2 x hne) (by simp [hF])
        simp only [this, hF, Option.none_or, Option.some.injEq] at hx
        subst hx
        exact ⟨(m7 x _ hF).1, Nat.lt_succ_of_lt (m7 x _ hF).2⟩
      | none =>
        simp only [hF, Option.or_none] at hx
        have hb : x < head + 1 := by
          by_contra hb
          have := f3.bump x (Nat.le_of_not_lt hb)
          simp only at this
          rw [hx] at this
          cases this
        refine ⟨?_, hb⟩
        obtain ⟨n1, t1, t2⟩ := free_thins f2 x n hx
        obtain ⟨n2, t3, t4⟩ := free_thins f1 x n1 t1
        have hsh : Skip.shape s'.mem x = some (n2.entry, n2.links.length) := by simp [Skip.shape, t3]
        by_cases h1 : x ∈ [head, l.head, r.head]
        · have := e2.hd x h1
          rw [this] at hsh
          simp only [Option.some.injEq, Prod.mk.injEq] at hsh
          omega
        · by_cases h2 : x ∈ addrs (Z ++ [] ++ [] ++ [])
          · obtain ⟨t, t5, rfl⟩ := List.mem_map.1 h2
            have h3 := e2.tow t t5
            have h4 := (e2.pos t t5).2
            rw [h3] at hsh
            simp only [Option.some.injEq, Prod.mk.injEq] at hsh
            omega
          · rw [e2.only x h1 h2] at hsh
            cases hsh
    · show s'.len = _
      rw [e2.len]; simp [Map.ents]
    · rw [d5, d7, ← m6]
      simp [over, d2]
  · exact m9 (hc F s head _ _ m2 m1 ((mergeLoop_ok himp m1).2 hZ rfl))

theorem union_made (off : Nat) {l r : SkipMap K V} (hl : Ok l) (hr : Ok r) (hd : Disjoint l r) :
    ∃ El Er out, l.iter = some El ∧ r.iter = some Er ∧ Sorted El ∧ Sorted Er ∧ Comb gU El Er out ∧
      ∃ c, l.union r off = some c ∧ Made l r c out := by
  obtain ⟨L, R, h1, h2, h3, h4, h5, h6, -⟩ := made_of union_implements union_frames union_conserves off hl hr hd
  obtain ⟨Z, h7, h8⟩ := union_list _ L R h5 h3 h4
  exact ⟨_, _, _, h1, h2, h3, h4, h8, h6 Z h7 h8.1⟩

theorem diff_made (sym : Bool) (off : Nat) {l r : SkipMap K V} (hl : Ok l) (hr : Ok r) (hd : Disjoint l r) :
    ∃ El Er, l.iter = some El ∧ r.iter = some Er ∧ Sorted El ∧ Sorted Er ∧
      ((∀ x ∈ El, ∃ y ∈ Er, x.1 ≤ y.1) → ∃ out, Comb (gD sym) El Er out ∧
        ∃ c, mergeWith (diffPick sym) 0 l r off = some c ∧ Made l r c out) ∧
      ((∃ x ∈ El, ∀ y ∈ Er, y.1 < x.1) → mergeWith (diffPick sym) 0 l r off = none) := by
  obtain ⟨L, R, h1, h2, h3, h4, h5, h6, h7⟩ :=
    made_of (diff_implements sym) (diff_frames sym) (diff_conserves sym) off hl hr hd
  refine ⟨_, _, h1, h2, h3, h4, fun ho => ?_, fun ho => ?_⟩
  · have ho' : ¬ Overhang L R := by
      rintro ⟨x, hx, h⟩
      obtain ⟨y, hy, hxy⟩ := ho x.e (Map.mem_ents hx)
      obtain ⟨t, ht, rfl⟩ := List.mem_map.1 hy
      exact absurd (h t ht) (not_lt.2 hxy)
    obtain ⟨Z, h8, h9⟩ := (diff_list sym _ L R h5 h3 h4).1 ho'
    exact ⟨_, h9, h6 Z h8 h9.1⟩
  · have ho' : Overhang L R := by
      obtain ⟨x, hx, h⟩ := ho
      obtain ⟨t, ht, rfl⟩ := List.mem_map.1 hx
      exact ⟨t, ht, fun y hy => h _ (Map.mem_ents hy)⟩
    exact h7 ((diff_list sym _ L R h5 h3 h4).2 ho') fun F s head lh rh hF hi hn => diff_crash_over sym hF hi hn

theorem ok_of_reached {s : SkipMap K V} (h : Reached s) : Ok s := by
  have diff : ∀ (sym : Bool) {l r c : SkipMap K V} {off : Nat}, Ok l → Ok r → Disjoint l r →
      mergeWith (diffPick sym) 0 l r off = some c → Ok c := by
    intro sym l r c off hl hr hd hc
    obtain ⟨El, Er, -, -, -, -, h1, h2⟩ := diff_made sym off hl hr hd
    by_cases ho : ∃ x ∈ El, ∀ y ∈ Er, y.1 < x.1
    · rw [h2 ho] at hc; cases hc
    · obtain ⟨out, -, c', h3, h4⟩ := h1 (by push Not at ho; exact ho)
      rw [h3] at hc
      cases hc
      exact ⟨⟨_, h4.rel⟩, h4.fit⟩
  induction h with
  | new a => exact ⟨⟨_, new_web a⟩, fit_new a⟩
  | @call s s' op d b o _ hs ih =>
    obtain ⟨⟨σ, h1⟩, h2⟩ := ih
    obtain ⟨s1, o1, σ1, h3, h4, -⟩ := stepP_web h1 op d b
    rw [h3] at hs
    cases hs
    exact ⟨⟨σ1, h4⟩, fit_stepP h2 h3⟩
  | @union l r c off _ _ hd hc ihl ihr =>
    obtain ⟨_, _, _, _, _, _, _, _, c', h3, h4⟩ := union_made off ihl ihr hd
    rw [h3] at hc
    cases hc
    exact ⟨⟨_, h4.rel⟩, h4.fit⟩
  | difference _ _ hd hc ihl ihr => exact diff false ihl ihr hd hc
  | symmetricDifference _ _ hd hc ihl ihr => exact diff true ihl ihr hd hc

/-! ### Maps without lost entries -/

/-- The bag holds exactly the bindings of `m`, each once. -/
def Bag (m : AMap K V) (M : Multiset (K × V)) : Prop := (∀ k v, (k, v) ∈ M ↔ m k = some v) ∧ (M.map (·.1)).Nodup

theorem bag_of_lists {m : AMap K V} {l : List (K × V)} (h : Lists m l) : Bag m (l : Multiset (K × V)) := by
  refine ⟨fun k v => by simpa using h.2 k v, ?_⟩
  rw [Multiset.map_coe, Multiset.coe_nodup, List.Nodup, List.pairwise_map]
  exact h.1.imp fun h => ne_of_lt h

theorem lists_of_bag {m : AMap K V} {M : Multiset (K × V)} (h : Bag m M) : ∃ l, Lists m l ∧ (l : Multiset (K × V)) = M := by
  obtain ⟨l0, rfl⟩ := Quot.exists_rep M
  obtain ⟨l, hl⟩ : ∃ l, l = l0.mergeSort fun a b => decide (a.1 ≤ b.1) := ⟨_, rfl⟩
  have hp : l.Perm l0 := by rw [hl]; exact List.mergeSort_perm _ _
  have hs : l.Pairwise fun a b => a.1 ≤ b.1 := by
    rw [hl]
    have := List.pairwise_mergeSort (le := fun a b : K × V => decide (a.1 ≤ b.1))
      (fun a b c h1 h2 => by simp only [decide_eq_true_eq] at *; exact le_trans h1 h2)
      (fun a b => by simp only [Bool.or_eq_true, decide_eq_true_eq]; exact le_total _ _) l0
    exact this.imp fun h => by simpa using h
  have hn : (l.map (·.1)).Nodup := by
    have := h.2
    rw [show (Quot.mk _ l0 : Multiset (K × V)) = (l0 : Multiset (K × V)) from rfl, Multiset.map_coe, Multiset.coe_nodup] at this
    exact (hp.map _).nodup_iff.2 this
  refine ⟨l, ⟨?_, fun k v => ?_⟩, Multiset.coe_eq_coe.2 hp⟩
  · rw [List.Nodup, List.pairwise_map] at hn
    exact (hs.and hn).imp fun h => lt_of_le_of_ne h.1 h.2
  · rw [← h.1 k v]
    exact hp.mem_iff

theorem bag_swap {m : AMap K V} {rest : Multiset (K × V)} {k : K} {o' : Option V}
    (h : Bag m (Scattered.one ((m k).map fun v => (k, v)) + rest)) :
    Bag (m.set k o') (Scattered.one (o'.map fun v => (k, v)) + rest) := by
  obtain ⟨h1, h2⟩ := h
  have hr : ∀ e ∈ rest, e.1 ≠ k := by
    rintro ⟨x, w⟩ he rfl
    have h3 := (h1 x w).1 (Multiset.mem_add.2 (.inr he))
    rw [h3] at h2
    simp only [Scattered.one, Option.map_some, Option.toList_some, Multiset.coe_singleton, Multiset.singleton_add,
      Multiset.map_cons, Multiset.nodup_cons] at h2
    exact h2.1 (Multiset.mem_map.2 ⟨_, he, rfl⟩)
  refine ⟨fun x w => ?_, ?_⟩
  · have h3 := h1 x w
    rw [Multiset.mem_add, one_mem] at h3 ⊢
    simp only [AMap.set]
    by_cases hx : x = k
    · subst hx
      have h4 : (x, w) ∉ rest := fun h => hr _ h rfl
      cases o' <;> simp [h4]
    · have hne : ∀ o : Option V, (o.map fun v => (k, v)) ≠ some (x, w) := by
        intro o h
        obtain ⟨v, -, h5⟩ := Option.map_eq_some_iff.1 h
        exact hx (congrArg Prod.fst h5).symm
      rw [if_neg hx]
      simpa [hne] using h3
  · have h3 : (rest.map (·.1)).Nodup := by
      rw [Multiset.map_add] at h2
      exact (Multiset.nodup_add.1 h2).2.1
    cases o' with
    | none => simpa [Scattered.one] using h3
    | some v =>
      simp only [Scattered.one, Option.map_some, Option.toList_some, Multiset.coe_singleton, Multiset.singleton_add,
        Multiset.map_cons, Multiset.nodup_cons]
      refine ⟨fun h => ?_, h3⟩
      obtain ⟨e, he, h4⟩ := Multiset.mem_map.1 h
      exact hr e he h4

/-- As long as no entry is lost, a call that returns is the call of an ordered map. -/
theorem ret_clean {m : AMap K V} {M : Multiset (K × V)} (h : Bag m M) {op : MapOp K V} {r : MapRes K V}
    {σ : Scattered K V} (hr : Scattered.Ret op ⟨M, 0⟩ r σ) : ∃ m' M', op.Spec m r m' ∧ Bag m' M' ∧ σ = ⟨M', 0⟩ := by
  have hsd : ∀ k, (⟨M, 0⟩ : Scattered K V).Sound k := fun k e he => by simp at he
  have hans : ∀ {k : K} {o : Option (K × V)}, (⟨M, 0⟩ : Scattered K V).Answer k o → o = (m k).map fun v => (k, v) := by
    rintro k o ⟨h1, h2⟩
    cases o with
    | none =>
      cases hm : m k with
      | none => rfl
      | some v => exact absurd rfl (h2 rfl (hsd k) (k, v) ((h.1 k v).2 hm))
    | some e =>
      obtain ⟨h3, h4⟩ := h1 e rfl
      obtain ⟨x, w⟩ := e
      simp only at h3
      subst h3
      have h5 : (x, w) ∈ M := h4.resolve_right fun h => by simp at h
      rw [(h.1 x w).1 h5]
      rfl
  have hsw : ∀ {k : K} {o' : Option V} {σ' : Scattered K V},
      Scattered.Swap k (Scattered.one ((m k).map fun v => (k, v))) (Scattered.one (o'.map fun v => (k, v))) ⟨M, 0⟩ σ' →
      ∃ M', Bag (m.set k o') M' ∧ σ' = ⟨M', 0⟩ := by
    rintro k o' ⟨S, Lo⟩ (⟨rest, s1, s2, s3⟩ | ⟨-, h6⟩)
    · simp only at s1 s2 s3
      subst s1 s2 s3
      exact ⟨_, bag_swap h, rfl⟩
    · exact absurd (hsd k) h6
  have hhas : ∀ k, m.Has k ↔ ∃ v, (k, v) ∈ M := by
    intro k
    simp only [AMap.Has, Option.isSome_iff_exists, h.1]
  cases op with
  | insert k v =>
    obtain ⟨o, rfl, h1, h2⟩ := hr
    obtain rfl := hans h1
    obtain ⟨M', h3, h4⟩ := hsw (o' := some v) (by simpa [Scattered.one] using h2)
    exact ⟨_, M', ⟨rfl, rfl⟩, h3, h4⟩
  | remove k =>
    obtain ⟨o, rfl, h1, h2⟩ := hr
    obtain rfl := hans h1
    obtain ⟨M', h3, h4⟩ := hsw (o' := none) (by simpa [Scattered.one] using h2)
    exact ⟨_, M', ⟨rfl, rfl⟩, h3, h4⟩
  | getMut k f =>
    obtain ⟨o, rfl, h1, h2⟩ := hr
    obtain rfl := hans h1
    obtain ⟨M', h3, h4⟩ := hsw (o' := (m k).map f) (by
      have : ((m k).map fun v => (k, v)).map (fun e => (e.1, f e.2)) = ((m k).map f).map fun v => (k, v) := by
        cases m k <;> rfl
      rwa [this] at h2)
    exact ⟨_, M', ⟨by cases m k <;> rfl, rfl⟩, h3, h4⟩
  | get k =>
    obtain ⟨o, rfl, h1, rfl⟩ := hr
    obtain rfl := hans h1
    exact ⟨m, M, ⟨by cases m k <;> rfl, rfl⟩, h, rfl⟩
  | containsKey k =>
    obtain ⟨o, rfl, h1, rfl⟩ := hr
    obtain rfl := hans h1
    exact ⟨m, M, ⟨by cases m k <;> rfl, rfl⟩, h, rfl⟩
  | floor k =>
    obtain ⟨o, rfl, h1, h2, rfl⟩ := hr
    refine ⟨m, M, ⟨⟨_, rfl, ?_⟩, rfl⟩, h, rfl⟩
    cases o with
    | none =>
      rintro x ⟨h3, h4⟩
      obtain ⟨v, h5⟩ := (hhas x).1 h3
      obtain ⟨f, h6, -⟩ := h2 (hsd k) _ h5 h4
      simp at h6
    | some e =>
      obtain ⟨h3, h4⟩ := h1 e rfl
      refine ⟨⟨(hhas _).2 ⟨e.2, h4.resolve_right (by simp)⟩, h3⟩, ?_⟩
      rintro x ⟨h5, h6⟩
      obtain ⟨v, h7⟩ := (hhas x).1 h5
      obtain ⟨f, h8, h9⟩ := h2 (hsd k) _ h7 h6
      cases h8
      exact h9
  | ceil k =>
    obtain ⟨o, rfl, h1, h2, rfl⟩ := hr
    refine ⟨m, M, ⟨⟨_, rfl, ?_⟩, rfl⟩, h, rfl⟩
    cases o with
    | none =>
      rintro x ⟨h3, h4⟩
      obtain ⟨v, h5⟩ := (hhas x).1 h3
      obtain ⟨f, h6, -⟩ := (h2 (hsd k)).2 _ h5 h4
      simp at h6
    | some e =>
      obtain ⟨h3, h4⟩ := h1 e rfl
      refine ⟨⟨(hhas _).2 ⟨e.2, h4.resolve_right (by simp)⟩, h3⟩, ?_⟩
      rintro x ⟨h5, h6⟩
      obtain ⟨v, h7⟩ := (hhas x).1 h5
      obtain ⟨f, h8, h9⟩ := (h2 (hsd k)).2 _ h7 h6
      cases h8
      exact h9
  | min =>
    obtain ⟨o, rfl, h1, h2, rfl⟩ := hr
    refine ⟨m, M, ⟨⟨_, rfl, ?_⟩, rfl⟩, h, rfl⟩
    cases o with
    | none =>
      rintro x h3
      obtain ⟨v, h5⟩ := (hhas x).1 h3
      obtain ⟨f, h6, -⟩ := h2 _ h5
      simp at h6
    | some e =>
      refine ⟨(hhas _).2 ⟨e.2, h1 e rfl⟩, ?_⟩
      rintro x h5
      obtain ⟨v, h7⟩ := (hhas x).1 h5
      obtain ⟨f, h8, h9⟩ := h2 _ h7
      cases h8
      exact h9
  | max =>
    obtain ⟨o, rfl, h1, h2, rfl⟩ := hr
    refine ⟨m, M, ⟨⟨_, rfl, ?_⟩, rfl⟩, h, rfl⟩
    cases o with
    | none =>
      rintro x h3
      obtain ⟨v, h5⟩ := (hhas x).1 h3
      obtain ⟨f, h6, -⟩ := h2 rfl _ h5
      simp at h6
    | some e =>
      refine ⟨(hhas _).2 ⟨e.2, (h1 e rfl).resolve_right (by simp)⟩, ?_⟩
      rintro x h5
      obtain ⟨v, h7⟩ := (hhas x).1 h5
      obtain ⟨f, h8, h9⟩ := h2 rfl _ h7
      cases h8
      exact h9
  | len =>
    obtain ⟨rfl, rfl⟩ := hr
    obtain ⟨l, h1, rfl⟩ := lists_of_bag h
    exact ⟨m, _, ⟨⟨l, h1, by simp [Scattered.count]⟩, rfl⟩, h, rfl⟩
  | isEmpty =>
    obtain ⟨rfl, rfl⟩ := hr
    refine ⟨m, M, ⟨⟨_, rfl, ?_⟩, rfl⟩, h, rfl⟩
    simp only [Scattered.count, Multiset.card_zero, Nat.add_zero, beq_iff_eq, Multiset.card_eq_zero]
    constructor
    · rintro rfl k
      cases hm : m k with
      | none => rfl
      | some v => have := (h.1 k v).2 hm; simp at this
    · intro h1
      refine Multiset.eq_zero_of_forall_notMem fun e he => ?_
      have := (h.1 e.1 e.2).1 he
      rw [h1] at this
      cases this
  | iter =>
    obtain ⟨l, rfl, h1, h2, rfl⟩ := hr
    simp only at h2
    subst h2
    exact ⟨m, _, ⟨⟨l, ⟨h1, fun k v => by rw [← h.1 k v]; simp⟩, rfl⟩, rfl⟩, h, rfl⟩
  | clear =>
    obtain ⟨rfl, rfl⟩ := hr
    exact ⟨AMap.empty, 0, ⟨rfl, rfl⟩, ⟨fun k v => by simp [AMap.empty], by simp⟩, rfl⟩

/-- A history without panics, from a map without lost entries, is a history of an ordered map. -/
theorem history_clean {m : AMap K V} {M : Multiset (K × V)} (hb : Bag m M) {h : List (MapOp K V × MapRes K V)}
    {σ : Scattered K V}
    (hh : PanicHistory Scattered.Ret Scattered.Left ⟨M, 0⟩ (h.map fun c => (c.1, some c.2)) σ) : ∃ m', History m h m' := by
  induction h generalizing m M with
  | nil => exact ⟨m, .nil m⟩
  | cons c h ih =>
    rw [List.map_cons] at hh
    cases hh with
    | ret h1 h2 =>
      obtain ⟨m', M', h3, h4, rfl⟩ := ret_clean hb h1
      obtain ⟨m'', h5⟩ := ih h4 h2
      exact ⟨m'', .cons h3 h5⟩

/-! ### The property -/

/-- Iteration shows the bindings of `m`, in ascending order. -/
def Shows (s : SkipMap K V) (m : AMap K V) : Prop := ∃ E, s.iter = some E ∧ Lists m E

/-- From now on the map acts as one with the contents `m` that no panic has touched: whatever calls are made of it and
whatever comparisons panic in them, nothing goes wrong, only these panics lose entries, and the map can be dropped; and
if none panics it is an ordered map. -/
def Sane (c : SkipMap K V) (m : AMap K V) : Prop :=
  ∃ out : List (K × V), Lists m out ∧ ∀ ops : List (MapOp K V × Draw × Nat), ∃ s h σ md,
    (panicImpl K V 0).run c ops = some (s, h) ∧ h.map (·.1) = ops.map (·.1) ∧
    PanicHistory Scattered.Ret Scattered.Left ⟨(out : Multiset (K × V)), 0⟩ h σ ∧ s.drop = some md ∧
    ∀ h' : List (MapOp K V × MapRes K V), h = h'.map (fun c => (c.1, some c.2)) → ∃ m', History m h' m'

/-- Dropping `c` leaves allocated exactly what dropping `l` and dropping `r` would have left. -/
def LeaksOf (l r c : SkipMap K V) : Prop :=
  ∃ mc ml mr, c.drop = some mc ∧ l.drop = some ml ∧ r.drop = some mr ∧ ∀ x, mc x ≠ none ↔ ml x ≠ none ∨ mr x ≠ none

/-- The contents as a function. -/
def bindings (E : List (K × V)) : AMap K V := fun k => (find k E).map (·.2)

theorem lists_bindings {E : List (K × V)} (h : Sorted E) : Lists (bindings E) E := by
  refine ⟨h, fun k v => ?_⟩
  simp only [bindings, Option.map_eq_some_iff]
  constructor
  · intro hm
    exact ⟨(k, v), find_of_mem h hm, rfl⟩
  · rintro ⟨⟨k', v'⟩, h1, rfl⟩
    have := find_some_mem h1
    have h2 := find_some_key h1
    simp only at h2
    subst h2
    exact this

theorem made_sane {l r c : SkipMap K V} {out : List (K × V)} (h : Made l r c out) {m : AMap K V} (hm : bindings out = m) :
    Shows c m ∧ Sane c m ∧ LeaksOf l r c := by
  subst hm
  have hl := lists_bindings h.sorted
  refine ⟨⟨out, h.iter, hl⟩, ⟨out, hl, fun ops => ?_⟩, h.drop⟩
  obtain ⟨s, lg, σ, h1, h2, h3, h4⟩ := (webSim K V 0).run ops _ _ h.rel
  obtain ⟨md, h5⟩ := drop_web h4
  refine ⟨s, lg, σ, md, h1, h2, h3, h5, ?_⟩
  rintro h' rfl
  exact history_clean (bag_of_lists hl) h3

theorem shows_bindings {s : SkipMap K V} {m : AMap K V} (h : Shows s m) {E : List (K × V)} (hE : s.iter = some E)
    (hs : Sorted E) : m = bindings E := by
  obtain ⟨E', h1, h2⟩ := h
  rw [hE] at h1
  cases h1
  funext k
  have h3 := lists_bindings hs
  cases hm : m k with
  | some v => exact ((h3.2 k v).1 ((h2.2 k v).2 hm)).symm
  | none =>
    cases hb : bindings E k with
    | none => rfl
    | some v => rw [(h2.2 k v).1 ((h3.2 k v).2 hb)] at hm; cases hm

theorem has_bindings {E : List (K × V)} (h : Sorted E) (k : K) : (bindings E).Has k ↔ ∃ x ∈ E, x.1 = k := by
  simp only [AMap.Has, Option.isSome_iff_exists]
  constructor
  · rintro ⟨v, hv⟩
    exact ⟨(k, v), ((lists_bindings h).2 k v).2 hv, rfl⟩
  · rintro ⟨x, hx, rfl⟩
    exact ⟨x.2, ((lists_bindings h).2 x.1 x.2).1 hx⟩

/-- C91, the operands: iteration of a map shows the bindings of some ordered map, whatever panicked before. -/
theorem C91_shows {s : SkipMap K V} (hs : Reached s) : ∃ m, Shows s m := by
  obtain ⟨⟨σ, h⟩, -⟩ := ok_of_reached hs
  obtain ⟨l, h1, h2, -⟩ := iter_web h
  exact ⟨_, l, h1, lists_bindings h2⟩

/-- C91, union (`+`): of any two maps, whatever panicked in the calls that made them, the union succeeds; the result has
the entries that iteration shows in either, `l`'s values on common keys, and behaves as a map that no panic has
touched.  Nodes that panics had made unreachable stay allocated, no others do. -/
theorem C91_union {l r : SkipMap K V} (hl : Reached l) (hr : Reached r) (hd : Disjoint l r) (off : Nat)
    {ml mr : AMap K V} (hml : Shows l ml) (hmr : Shows r mr) :
    ∃ c, l.union r off = some c ∧ Shows c (fun k => (ml k).or (mr k)) ∧ Sane c (fun k => (ml k).or (mr k)) ∧
      LeaksOf l r c := by
  obtain ⟨El, Er, out, h1, h2, h3, h4, h5, c, h6, h7⟩ := union_made off (ok_of_reached hl) (ok_of_reached hr) hd
  obtain rfl := shows_bindings hml h1 h3
  obtain rfl := shows_bindings hmr h2 h4
  refine ⟨c, h6, made_sane h7 ?_⟩
  funext k
  simp only [bindings, h5.2, gU]
  cases find k El <;> rfl

/-- C91, difference (`-`), partial: when no key that iteration shows in `l` exceeds all those it shows in `r`, the
difference succeeds, and the result is as in `C91_union`.  Missing: the other pairs of maps, for which the call
dereferences null (`C91_difference_crash`). -/
theorem C91_difference_partial {l r : SkipMap K V} (hl : Reached l) (hr : Reached r) (hd : Disjoint l r) (off : Nat)
    {ml mr : AMap K V} (hml : Shows l ml) (hmr : Shows r mr) (ho : ∀ x, ml.Has x → ∃ y, mr.Has y ∧ x ≤ y) :
    ∃ c, l.difference r off = some c ∧ Shows c (fun k => if (mr k).isSome then none else ml k) ∧
      Sane c (fun k => if (mr k).isSome then none else ml k) ∧ LeaksOf l r c := by
  obtain ⟨El, Er, h1, h2, h3, h4, h5, -⟩ := diff_made false off (ok_of_reached hl) (ok_of_reached hr) hd
  obtain rfl := shows_bindings hml h1 h3
  obtain rfl := shows_bindings hmr h2 h4
  obtain ⟨out, h6, c, h7, h8⟩ := h5 fun x hx => by
    obtain ⟨y, h9, h10⟩ := ho x.1 ((has_bindings h3 _).2 ⟨x, hx, rfl⟩)
    obtain ⟨z, h11, rfl⟩ := (has_bindings h4 _).1 h9
    exact ⟨z, h11, h10⟩
  refine ⟨c, h7, made_sane h8 ?_⟩
  funext k
  simp only [bindings, h6.2, Option.isSome_map]
  cases find k El <;> cases find k Er <;> rfl

/-- C91, symmetric difference, partial: the same for the entries whose key iteration shows in exactly one of the
maps.  Missing: as for `C91_difference_partial`. -/
theorem C91_symmetric_difference_partial {l r : SkipMap K V} (hl : Reached l) (hr : Reached r) (hd : Disjoint l r)
    (off : Nat) {ml mr : AMap K V} (hml : Shows l ml) (hmr : Shows r mr) (ho : ∀ x, ml.Has x → ∃ y, mr.Has y ∧ x ≤ y) :
    ∃ c, l.symmetricDifference r off = some c ∧
      Shows c (fun k => if (mr k).isSome then (if (ml k).isSome then none else mr k) else ml k) ∧
      Sane c (fun k => if (mr k).isSome then (if (ml k).isSome then none else mr k) else ml k) ∧ LeaksOf l r c := by
  obtain ⟨El, Er, h1, h2, h3, h4, h5, -⟩ := diff_made true off (ok_of_reached hl) (ok_of_reached hr) hd
  obtain rfl := shows_bindings hml h1 h3
  obtain rfl := shows_bindings hmr h2 h4
  obtain ⟨out, h6, c, h7, h8⟩ := h5 fun x hx => by
    obtain ⟨y, h9, h10⟩ := ho x.1 ((has_bindings h3 _).2 ⟨x, hx, rfl⟩)
    obtain ⟨z, h11, rfl⟩ := (has_bindings h4 _).1 h9
    exact ⟨z, h11, h10⟩
  refine ⟨c, h7, made_sane h8 ?_⟩
  funext k
  simp only [bindings, h6.2, Option.isSome_map]
  cases find k El <;> cases find k Er <;> rfl

/-- C91, exact failure of the differences: when some key that iteration shows in `l` exceeds all those it shows in `r`,
both differences dereference a null pointer. -/
theorem C91_difference_crash {l r : SkipMap K V} (hl : Reached l) (hr : Reached r) (hd : Disjoint l r) (off : Nat)
    {ml mr : AMap K V} (hml : Shows l ml) (hmr : Shows r mr) (ho : ∃ x, ml.Has x ∧ ∀ y, mr.Has y → y < x) :
    l.difference r off = none ∧ l.symmetricDifference r off = none := by
  have main : ∀ sym, mergeWith (diffPick sym) 0 l r off = none := by
    intro sym
    obtain ⟨El, Er, h1, h2, h3, h4, -, h5⟩ := diff_made sym off (ok_of_reached hl) (ok_of_reached hr) hd
    obtain rfl := shows_bindings hml h1 h3
    obtain rfl := shows_bindings hmr h2 h4
    obtain ⟨x, h6, h7⟩ := ho
    obtain ⟨e, h8, rfl⟩ := (has_bindings h3 _).1 h6
    exact h5 ⟨e, h8, fun y hy => h7 _ ((has_bindings h4 _).2 ⟨y, hy, rfl⟩)⟩
  exact ⟨main false, main true⟩

/-- C91, the way out: adding an empty map brings back a map that no panic has touched, with the entries that iteration
shows. -/
theorem C91_recover {s : SkipMap K V} (hs : Reached s) {m : AMap K V} (hm : Shows s m) (a off : Nat) (ha : s.bump ≤ a) :
    ∃ c, s.union (SkipMap.new a) off = some c ∧ Shows c m ∧ Sane c m := by
  have hd : Disjoint s (SkipMap.new a) := by
    intro x
    by_cases hx : x < a
    · right
      have hne : x ≠ a := Nat.ne_of_lt hx
      simp only [SkipMap.new, Heap.put, if_neg hne]
    · left
      by_contra hc
      obtain ⟨n, hn⟩ := Option.ne_none_iff_exists'.1 hc
      have := ((ok_of_reached hs).2 x n hn).2
      exact hx (Nat.lt_of_lt_of_le this ha)
  obtain ⟨m0, h0⟩ := C91_shows (.new a : Reached (SkipMap.new a : SkipMap K V))
  have he : m0 = fun _ => none := by
    obtain ⟨E, h1, h2⟩ := h0
    have h3 : (SkipMap.new a : SkipMap K V).iter = some [] := iter_of_rel (out := []) (new_web a) List.Pairwise.nil
    rw [h3] at h1
    cases h1
    funext k
    cases hk : m0 k with
    | none => rfl
    | some v => exact absurd ((h2.2 k v).2 hk) (by simp)
  obtain ⟨c, h1, h2, h3, -⟩ := C91_union hs (.new a) hd off hm h0
  subst he
  simp only [Option.or_none] at h2 h3
  exact ⟨c, h1, h2, h3⟩

/-! ### Examples -/

theorem reached_run {a : Addr} {ops : List (MapOp K V × Draw × Nat)} {s s' : SkipMap K V} {h : PanicLog K V}
    (hs : Reached s) (hr : (panicImpl K V a).run s ops = some (s', h)) : Reached s' := by
  induction ops generalizing s h with
  | nil =>
    have h1 : s = s' := (Prod.mk.inj (Option.some.inj hr)).1
    exact h1 ▸ hs
  | cons c ops ih =>
    obtain ⟨op, d, b⟩ := c
    obtain ⟨⟨s1, o⟩, h1, hr⟩ := Option.bind_eq_some_iff.1 hr
    obtain ⟨⟨s2, h2⟩, h3, h4⟩ := Option.bind_eq_some_iff.1 hr
    have h5 : s2 = s' := (Prod.mk.inj (Option.some.inj h4)).1
    subst h5
    exact ih (.call hs h1) h3

/-- The map of the examples of C90, in which `get` does not find 8, is met by the theorems. -/
example : ∃ s h c, (panicImpl Nat String 0).run (SkipMap.new 0) halfway = some (s, h) ∧
    s.union (SkipMap.new s.bump) 0 = some c ∧ Sane c (bindings [(2, "a"), (4, "b"), (8, "c")]) := by
  obtain ⟨s, h, σ, h1, -, -⟩ := C90_calls Nat String 0 halfway
  have hr : Reached s := reached_run (.new 0) h1
  have h2 : (((panicImpl Nat String 0).run (SkipMap.new 0) halfway).bind fun r => SkipMap.iter r.1) =
    some [(2, "a"), (4, "b"), (8, "c")] := by decide +kernel
  rw [show (panicImpl Nat String 0).run (SkipMap.new 0) halfway = some (s, h) from h1, Option.bind_some] at h2
  obtain ⟨c, h3, -, h4⟩ := C91_recover hr ⟨_, h2, lists_bindings (by simp [Sorted])⟩ s.bump 0 (Nat.le_refl _)
  exact ⟨s, h, c, h1, h3, h4⟩

/-- A map in which 5 was inserted halfway, joined with one holding 4 and 9: afterwards 8 is found again, and the length is
that of the iteration. -/
example : (((panicImpl Nat String 0).run (SkipMap.new 0) halfway).bind fun l =>
    ((panicImpl Nat String 100).run (SkipMap.new 100) [(.insert 4 "x", (1, 0), 99), (.insert 9 "y", (0, 0), 99)]).bind fun r =>
      (SkipMap.union (K := Nat) (V := String) l.1 r.1 0).bind fun c => ((panicImpl Nat String 0).run c
        [(.iter, (0, 0), 99), (.len, (0, 0), 99), (.get 8, (0, 0), 99), (.get 5, (0, 0), 99), (.get 4, (0, 0), 99)]).map
          fun r => r.2.map (·.2)) =
    some [some (.list [(2, "a"), (4, "b"), (8, "c"), (9, "y")]), some (.num 4), some (.val (some "c")), some (.val none),
      some (.val (some "b"))] := by decide +kernel

/-- And the difference with a map whose keys are all smaller than 8 dereferences null. -/
example : (((panicImpl Nat String 0).run (SkipMap.new 0) halfway).bind fun l =>
    ((panicImpl Nat String 100).run (SkipMap.new 100) [(.insert 4 "x", (1, 0), 99)]).map fun r =>
      ((SkipMap.difference (K := Nat) (V := String) l.1 r.1 0).isSome, (SkipMap.difference (K := Nat) (V := String) r.1 l.1 0).isSome)) =
    some (false, true) := by decide +kernel

end Verif.Skip.Map.Torn
