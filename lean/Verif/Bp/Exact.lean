/- C28: exactly which histories of a BpMap behave as an ordered map. -/
import Verif.Bp.Violations

namespace Verif.Bp

open Verif.Spec

section
variable {K V : Type} [LinearOrder K] {ld id : Nat}

theorem searchNode_page {p : Pager K V} {k : K} : ∀ {f q st pg m path},
    searchNode p k f q st = some (pg, m, path) → p.disk.pages[pg]? = some (some m) := by
  intro f
  induction f with
  | zero => intro q st pg m path h; simp [searchNode] at h
  | succ f ih =>
    intro q st pg m path h
    rw [searchNode] at h
    cases hp : p.getPage q with
    | none => rw [hp] at h; simp at h
    | some x =>
      have hq : p.disk.pages[q]? = some (some x) := by
        rw [Pager.getPage] at hp
        cases hd : p.disk.pages[q]? with
        | none => rw [hd] at hp; simp at hp
        | some y =>
          rw [hd] at hp
          cases y with
          | none => cases hp
          | some y => cases hp; rfl
      rw [hp] at h
      cases x with
      | leaf n => simp at h; obtain ⟨rfl, rfl, rfl⟩ := h; exact hq
      | free n => cases h; exact hq
      | internal n =>
        simp only at h
        split at h
        · cases h
        · split at h
          · cases h
          · exact ih h

/-- What `get` finds is in a leaf of the file. -/
theorem get_page {p : Pager K V} {k : K} {v : V} (h : get p k = some (some v)) :
    ∃ (pg : Nat) (n : LNode K V), p.disk.pages[pg]? = some (some (.leaf n)) ∧ some (k, v) ∈ n.entries := by
  rw [get] at h
  split at h
  · rename_i pg n path hs
    have hp := searchNode_page hs
    refine ⟨pg, n, hp, ?_⟩
    split at h
    · cases h
    · cases h
    · rename_i i hi
      split at h
      · cases h
      · rename_i e he
        have : ∃ w, n.entries[i]? = some (some (k, w)) := by
          rw [LNode.search] at hi
          split at hi
          · cases hi
          · exact leafSearch_sound hi
        obtain ⟨w, hw⟩ := this
        rw [hw] at he
        cases he
        cases h
        exact List.mem_of_getElem? hw
  · cases h

/-- Overwriting a harmful key loses an entry: the call succeeds and returns the old entry, but some other key that was
there is not found any more. -/
theorem insert_lost (hid : 1 ≤ id) {p : Pager K V} {n : Nat} {t : BT K V n} (h : Holds ld id p t) {k : K} (v : V)
    (hk : Harmful ld p.disk k) :
    ∃ p' o k' v', insert p k v = some (p', some (k, o)) ∧ k' ≠ k ∧ SL.find k t.toL = some (k, o) ∧
      SL.find k' t.toL = some (k', v') ∧ get p' k' ≠ some (some v') := by
  obtain ⟨pg, m, j, o, h1, h2, h3, h4⟩ := hk
  obtain ⟨es, nx, rfl, g2, g3, g4, g5⟩ := leaf_holds hid h h1
  have hj := encLeaf_get h3
  obtain ⟨hlt, hjv⟩ := List.getElem?_eq_some_iff.1 hj
  have hfull : es.length = ld := by
    simp only [encLeaf] at h2; rw [used_pad] at h2; exact h2
  have hes : es = es.take j ++ (k, o) :: es.drop (j + 1) := by
    rw [← hjv, List.getElem_cons_drop, List.take_append_drop]
  have hel : (es.take j).length = j := by simp; omega
  generalize es.take j = el at hes hel
  generalize es.drop (j + 1) = er at hes
  obtain ⟨s1, s2, s3, s4⟩ := SL.sorted_mid.1 (hes ▸ g3)
  -- the entry that is lost
  obtain ⟨x, y, z, hel2, hx⟩ : ∃ x y z, el = x ++ y :: z ∧ x.length = ld / 2 + 1 := by
    refine ⟨el.take (ld / 2 + 1), el[ld / 2 + 1]'(by omega), el.drop (ld / 2 + 1 + 1), ?_, by simp; omega⟩
    rw [List.getElem_cons_drop, List.take_append_drop]
  have hyk : y.1 < k := s3 y (by rw [hel2]; simp)
  have hye : y ∈ es := by rw [hes, hel2]; simp
  have hke : (k, o) ∈ es := by rw [hes]; simp
  have hxy : ∀ a ∈ x, a.1 < y.1 := by
    rw [hel2] at s1
    exact (SL.sorted_mid (x := y.1) (w := y.2)).1 s1 |>.2.2.1
  have hsort := ok_sorted h.ok
  let n' : LNode K V := ⟨ld, keep none (ld / 2 + 1) (el.map some) ++ ((k, v) :: er).map some, nx⟩
  have hins : (encLeaf ld es nx).insert (k, v) = some (n', .entry (k, o)) := by
    have hent : (encLeaf ld es nx).entries = (el ++ (k, o) :: er).map some := by
      simp only [encLeaf]
      rw [pad_full (by simp [hfull]), hes]
    have hlen : (encLeaf ld es nx).entries.length = ld := by
      rw [hent, List.length_map, ← hes, hfull]
    rw [LNode.insert]
    simp only [hlen]
    rw [if_neg (by simp [encLeaf, hfull]), hent, leafSplit_lost (e := (k, v)) (o := o) s3]
    simp [n', encLeaf, hfull]
  obtain ⟨p', c1, w1, b1, m1, f1⟩ := h.wf.write (leaf_page h h1) (.leaf n')
  obtain ⟨path, hse⟩ := g5 _ hke
  refine ⟨p', o, y.1, y.2, ?_, ne_of_lt hyk, SL.find_of_mem hsort (g4 _ hke), SL.find_of_mem hsort (g4 _ hye), fun hg => ?_⟩
  · simp only at hse
    rw [insert, hse]
    simp only [insertLeaf, hins, c1, Option.map_some]
  · obtain ⟨pg2, m2, q1, q2⟩ := get_page hg
    by_cases hpg : pg2 = pg
    · subst hpg
      rw [AtPage, q1] at b1
      cases b1
      simp only [n', keep, List.mem_append, List.mem_replicate] at q2
      rcases q2 with (q2 | ⟨_, q2⟩) | q2
      · rw [← List.map_take, List.mem_map] at q2
        obtain ⟨a, ha, hae⟩ := q2
        cases hae
        rw [hel2, List.take_append_of_le_length (by omega), ← hx, List.take_length] at ha
        exact absurd (hxy _ ha) (lt_irrefl _)
      · cases q2
      · rw [List.mem_map] at q2
        obtain ⟨a, ha, hae⟩ := q2
        cases hae
        rcases List.mem_cons.1 ha with ha | ha
        · exact ne_of_lt hyk (congrArg Prod.fst ha)
        · exact absurd (hyk.trans (s4 _ ha)) (lt_irrefl _)
    · rw [f1 pg2 hpg] at q1
      obtain ⟨es2, nx2, rfl, _, _, _, r5⟩ := leaf_holds hid h q1
      have hy2 : y ∈ es2 := by
        obtain ⟨i, hi⟩ := List.mem_iff_getElem?.1 q2
        exact List.mem_of_getElem? (encLeaf_get hi)
      obtain ⟨p1, e1⟩ := r5 y hy2
      obtain ⟨p2, e2⟩ := g5 y hye
      rw [e1] at e2
      simp only [Option.some.injEq, Prod.mk.injEq] at e2
      exact hpg e2.1

/-- The history behaves as an ordered map. -/
def AsMap (ld id : Nat) (ops : List (MapOp K V × Bool)) : Prop :=
  ∃ p h m, (bp K V ld id).run (new ld id) ops = some (p, h) ∧ History AMap.empty h m

theorem harmless_prefix {ops ops' : List (MapOp K V × Bool)} (h : Harmless ld id ops) (hp : ops' <+: ops) :
    Harmless ld id ops' := fun pre k v b hq => h pre k v b (hq.trans hp)

theorem harmless_get {ops : List (MapOp K V × Bool)} {k : K} {b} (h : Harmless ld id ops) :
    Harmless ld id (ops ++ [(.get k, b)]) := by
  intro pre k' v' b' hp
  rcases List.prefix_concat_iff.1 hp with hp | hp
  · have := List.append_inj_right' hp (by simp)
    simp at this
  · exact h pre k' v' b' hp

/-- **C28 (exact).**  For leaf degree at least 1 and internal degree at least 3: a history, and each of its beginnings
followed by any `get`, behaves as an ordered map if and only if no `insert` of it overwrites a key in a slot after
`leaf degree / 2 + 1` of a full leaf. -/
theorem C28_exact (hld : 1 ≤ ld) (hid : 3 ≤ id) (ops : List (MapOp K V × Bool)) (hs : ∀ op ∈ ops.map (·.1), Supported op) :
    (∀ pre, pre <+: ops → ∀ k, AsMap ld id (pre ++ [(.get k, false)])) ↔ Harmless ld id ops := by
  constructor
  · intro H
    by_contra hc
    -- the first harmful call
    have : ∃ pre k v b, pre ++ [(.insert k v, b)] <+: ops ∧ Harmless ld id pre ∧
        ∃ p h, (bp K V ld id).run (new ld id) pre = some (p, h) ∧ Harmful ld p.disk k := by
      by_contra hn
      push Not at hn
      refine hc ?_
      have key : ∀ m pre, pre.length ≤ m → pre <+: ops → Harmless ld id pre := by
        intro m
        induction m with
        | zero =>
          intro pre hm _ pre' k v b hp
          have := hp.length_le
          simp at this; omega
        | succ m ih =>
          intro pre hm hpre pre' k v b hp p h e hk
          have hle := hp.length_le
          simp at hle
          exact hn pre' k v b (hp.trans hpre)
            (ih pre' (by omega) (((List.prefix_append _ _).trans hp).trans hpre)) p h e hk
      exact key _ ops (le_refl _) (List.prefix_refl _)
    obtain ⟨pre, k, v, b, hp, hpre, p, h, e, hk⟩ := this
    have hsub : ∀ op ∈ (pre ++ [((.insert k v : MapOp K V), b)]).map (·.1), Supported op := fun op hop => hs op ((hp.map (·.1)).subset hop)
    have hsub1 : ∀ op ∈ pre.map (·.1), Supported op := fun op hop => hsub op (by rw [List.map_append]; exact List.mem_append_left _ hop)
    obtain ⟨p1, h1, l, e1, g1, _, g3, g4⟩ := run_rel hld hid pre rel_new hsub1
      fun pre' k' v' b' hp' => .inr fun p h e => safe_of_not_harmful (hpre pre' k' v' b' hp' p h e)
    rw [e1] at e
    cases e
    have h0 : Rel ld id (if b then Pager.openFile p.disk else p) l := by
      cases b
      · exact g3
      · exact rel_reopen g3
    have hk0 : Harmful ld (if b then Pager.openFile p.disk else p).disk k := by cases b <;> exact hk
    obtain ⟨n, t, ht, rfl⟩ := h0
    obtain ⟨p', o, k', v', c1, c2, c3, c4, c5⟩ := insert_lost (by omega) ht v hk0
    obtain ⟨q, hist, m, e2, hh⟩ := H _ hp k'
    have hst : (bp K V ld id).step p (.insert k v) b = some (p', .pair (some (k, o))) := by
      show step (if b then Pager.openFile p.disk else p) (.insert k v) = _
      simp only [step]
      rw [c1]; rfl
    rw [run_append, run_append, e1] at e2
    simp only [Option.bind_some] at e2
    rw [run_cons _ hst] at e2
    simp only [MapImpl.run, Option.map_some, Option.bind_some] at e2
    have hops : ∀ op ∈ (h ++ [((.insert k v : MapOp K V), (.pair (some (k, o)) : MapRes K V))]).map (·.1), Supported op := by
      intro op hop
      rw [List.map_append, g1] at hop
      exact hsub op (by rw [List.map_append]; exact hop)
    cases hg : get p' k' with
    | none => simp [step, hg] at e2
    | some r =>
      simp [step, hg] at e2
      obtain ⟨rfl, rfl⟩ := e2
      have := history_get (h := h ++ [((.insert k v : MapOp K V), (.pair (some (k, o)) : MapRes K V))]) (k := k') (o := r)
        hops (by simpa using hh)
      rw [List.map_append, List.foldl_append, g1] at this
      have e5 : r = (after (.insert k v) (SL.abs t.toL)) k' := by rw [g4]; exact this
      have e6 : SL.abs t.toL k' = some v' := by simp [SL.abs, c4]
      simp only [after, AMap.set] at e5
      rw [if_neg c2, e6] at e5
      exact c5 (by rw [hg, e5])
  · intro h pre hp k
    obtain ⟨p, hist, e, _, hh⟩ := C28_bp_map_partial hld hid (pre ++ [(.get k, false)])
      ⟨by
        intro op hop
        rw [List.map_append, List.mem_append] at hop
        rcases hop with hop | hop
        · exact hs op ((hp.map (·.1)).subset hop)
        · simp at hop; subst hop; trivial, harmless_get (harmless_prefix h hp)⟩
    exact ⟨p, hist, _, e, hh⟩

/-! ### A check for harmful overwriting -/

/-- A program that decides `Harmful`. -/
def harmfulB (ld : Nat) (d : Disk K V) (k : K) : Bool :=
  d.pages.any fun
    | some (.leaf n) => used n.entries == ld && (n.entries.drop (ld / 2 + 2)).any fun
      | some e => e.1 == k
      | none => false
    | _ => false

theorem harmfulB_of {d : Disk K V} {k : K} (h : Harmful ld d k) : harmfulB ld d k = true := by
  obtain ⟨pg, n, j, v, h1, h2, h3, h4⟩ := h
  rw [harmfulB, List.any_eq_true]
  refine ⟨_, List.mem_of_getElem? h1, ?_⟩
  simp only [h2, beq_self_eq_true, Bool.true_and, List.any_eq_true]
  refine ⟨some (k, v), ?_, by simp⟩
  refine List.mem_of_getElem? (i := j - (ld / 2 + 2)) ?_
  rw [List.getElem?_drop, show ld / 2 + 2 + (j - (ld / 2 + 2)) = j by omega]
  exact h3

/-- The call does not overwrite a harmful key. -/
def callOk (ld : Nat) (d : Disk K V) : MapOp K V → Bool
  | .insert k _ => !harmfulB ld d k
  | _ => true

/-- Run a history and check every `insert`. -/
def checked (ld id : Nat) (p : Pager K V) : List (MapOp K V × Bool) → Bool
  | [] => true
  | (op, b) :: ops =>
    callOk ld p.disk op &&
    match (bp K V ld id).step p op b with
    | none => true
    | some (p', _) => checked ld id p' ops

theorem harmless_of_checked {ops : List (MapOp K V × Bool)} (h : checked ld id (new ld id) ops = true) : Harmless ld id ops := by
  suffices H : ∀ (p : Pager K V), checked ld id p ops = true → ∀ pre k v b, pre ++ [(.insert k v, b)] <+: ops →
      ∀ p' h, (bp K V ld id).run p pre = some (p', h) → ¬ Harmful ld p'.disk k from H _ h
  clear h
  induction ops with
  | nil => intro p _ pre k v b hp; have := hp.length_le; simp at this
  | cons o ops ih =>
    intro p hc pre k v b hp p' h e hk
    obtain ⟨op, b0⟩ := o
    cases pre with
    | nil =>
      cases e
      simp at hp
      obtain ⟨⟨rfl, rfl⟩⟩ := hp
      simp [checked, callOk, harmfulB_of hk] at hc
    | cons x pre =>
      simp at hp
      obtain ⟨rfl, hp⟩ := hp
      rw [checked, Bool.and_eq_true] at hc
      cases hs : (bp K V ld id).step p op b0 with
      | none =>
        have hs' : step (if b0 = true then Pager.openFile p.disk else p) op = none := hs
        simp [MapImpl.run, hs'] at e
      | some y =>
        obtain ⟨p1, r⟩ := y
        rw [run_cons _ hs] at e
        rw [hs] at hc
        cases e1 : (bp K V ld id).run p1 pre with
        | none => rw [e1] at e; cases e
        | some z =>
          rw [e1] at e
          cases e
          exact ih p1 hc.2 pre k v b hp _ _ e1 hk

end

/-! ### Non-vacuity -/

/-- A history with leaf degree 6 that overwrites in full leaves, at slots that do no harm. -/
def harmlessSample : List (MapOp Nat Nat × Bool) := plain
  [.insert 0 0, .insert 1 1, .insert 2 2, .insert 3 3, .insert 4 4, .insert 5 5, .insert 4 44, .insert 0 10,
   .insert 6 6, .insert 5 55, .insert 6 66, .remove 3, .iter]

example : Admissible 6 3 harmlessSample ∧ ¬ NoOverwrite (harmlessSample.map (·.1)) := by
  refine ⟨⟨?_, harmless_of_checked (by decide +kernel)⟩, fun h => ?_⟩
  · intro op hop
    simp [harmlessSample, plain] at hop
    rcases hop with rfl | rfl | rfl | rfl | rfl | rfl | rfl | rfl | rfl | rfl | rfl | rfl | rfl <;> trivial
  · have := h [.insert 0 0, .insert 1 1, .insert 2 2, .insert 3 3, .insert 4 4, .insert 5 5] 4 44
      ⟨[.insert 0 10, .insert 6 6, .insert 5 55, .insert 6 66, .remove 3, .iter], rfl⟩
    have e : contents ([.insert 0 0, .insert 1 1, .insert 2 2, .insert 3 3, .insert 4 4, .insert 5 5] : List (MapOp Nat Nat)) 4 = some 4 := by
      rfl
    rw [e] at this
    cases this

/-- Overwriting key 5 instead is harmful. -/
example : ¬ Harmless 6 3 (plain [.insert 0 0, .insert 1 1, .insert 2 2, .insert 3 3, .insert 4 4, .insert 5 5, .insert 5 55]) := by
  intro h
  have hr : ∃ p h, (bp Nat Nat 6 3).run (new 6 3) (plain [.insert 0 0, .insert 1 1, .insert 2 2, .insert 3 3, .insert 4 4,
      .insert 5 5]) = some (p, h) ∧ p.disk.pages = [some (.leaf ⟨6, (firstN 6).map some, none⟩)] := ⟨_, _, rfl, rfl⟩
  obtain ⟨p, hist, e, hp⟩ := hr
  refine h _ 5 55 false (List.prefix_refl _) p hist e ⟨0, ⟨6, (firstN 6).map some, none⟩, 5, 5, ?_, rfl, rfl, by decide⟩
  rw [hp]
  rfl

end Verif.Bp
