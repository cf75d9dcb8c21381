/- The set operations of `SkipMap` with keys that are compared by rank (C82). -/
import Verif.Skip.MapRanked

namespace Verif.Skip.Map

open Verif.Spec

variable {K V L : Type} (rank : K → L)

/-- The locals of a set operation on the maps of ranks. -/
def tagM (s : Merge K V) : Merge L (K × V) := ⟨tagH rank s.mem, s.left, s.right, s.curr, s.len⟩

theorem tag_popL (s : Merge K V) : popL (tagM rank s) = (popL s).map fun p => (p.1, tagM rank p.2) := by
  have h : (tagM rank s).left = s.left := rfl
  have hm : (tagM rank s).mem = tagH rank s.mem := rfl
  unfold popL
  rw [h, hm]
  cases s.left with
  | none => rfl
  | some a => simp only [tag_getLink]; cases getLink s.mem a 0 <;> rfl

theorem tag_popR (s : Merge K V) : popR (tagM rank s) = (popR s).map fun p => (p.1, tagM rank p.2) := by
  have h : (tagM rank s).right = s.right := rfl
  have hm : (tagM rank s).mem = tagH rank s.mem := rfl
  unfold popR
  rw [h, hm]
  cases s.right with
  | none => rfl
  | some a => simp only [tag_getLink]; cases getLink s.mem a 0 <;> rfl

theorem tag_freeNode (s : Merge K V) (a : Addr) : freeNode (tagM rank s) a = (freeNode s a).map (tagM rank) := by
  have hm : (tagM rank s).mem = tagH rank s.mem := rfl
  simp only [freeNode, hm, tag_free]
  cases s.mem.free a <;> rfl

/-- The result of an iteration on the maps of ranks. -/
def tagP (p : Merge K V × Option Addr) : Merge L (K × V) × Option Addr := (tagM rank p.1, p.2)

theorem tag_takeL (s : Merge K V) : takeL (tagM rank s) = (takeL s).map (tagP rank) := by
  simp only [takeL, tag_popL, Option.map_map]; rfl

theorem tag_takeR (s : Merge K V) : takeR (tagM rank s) = (takeR s).map (tagP rank) := by
  simp only [takeR, tag_popR, Option.map_map]; rfl

theorem tag_dropL (s : Merge K V) : dropL (tagM rank s) = (dropL s).map (tagP rank) := by
  simp only [dropL, tag_popL]
  cases popL s with
  | none => rfl
  | some p =>
    simp only [Option.map_some, Option.bind_eq_bind, Option.bind_some, tag_freeNode]
    cases freeNode p.2 p.1 <;> rfl

theorem tag_dropR (s : Merge K V) : dropR (tagM rank s) = (dropR s).map (tagP rank) := by
  simp only [dropR, tag_popR]
  cases popR s with
  | none => rfl
  | some p =>
    simp only [Option.map_some, Option.bind_eq_bind, Option.bind_some, tag_freeNode]
    cases freeNode p.2 p.1 <;> rfl

theorem tag_relink (next : Addr) (n : Nat) : ∀ (i : Nat) (m : MHeap K V) (curr : List Addr),
    relink next i n (tagH rank m, curr) = (relink next i n (m, curr)).map fun p => (tagH rank p.1, p.2) := by
  induction n with
  | zero => intro i m curr; rfl
  | succ n ih =>
    intro i m curr
    simp only [relink]
    cases curr[i]? with
    | none => rfl
    | some c =>
      simp only [tag_setLink]
      cases setLink m c i (some next) with
      | none => rfl
      | some m' => simp only [Option.map_some, ih]

theorem tag_append (extra : Nat) (next : Addr) (s : Merge K V) :
    append extra next (tagM rank s) = (append extra next s).map (tagM rank) := by
  have hm : (tagM rank s).mem = tagH rank s.mem := rfl
  have hc : (tagM rank s).curr = s.curr := rfl
  simp only [append, hm, hc, tag_zeroLinks]
  cases zeroLinks s.mem none next with
  | none => rfl
  | some m =>
    have hn : tagH rank m next = (m next).map (tagN rank) := rfl
    simp only [Option.map_some, hn]
    cases m next with
    | none => rfl
    | some n =>
      have hl : (tagN rank n).links = n.links := rfl
      simp only [Option.map_some, hl, tag_relink]
      cases relink next 0 (n.links.length + extra) (m, s.curr) <;> rfl

theorem tag_mergeLoop {pick : Merge K V → Option (Merge K V × Option Addr)}
    {pick' : Merge L (K × V) → Option (Merge L (K × V) × Option Addr)}
    (hp : ∀ s, pick' (tagM rank s) = (pick s).map (tagP rank)) (extra f : Nat) : ∀ s : Merge K V,
    mergeLoop pick' extra f (tagM rank s) = (mergeLoop pick extra f s).map (tagM rank) := by
  have end' : ∀ f (s : Merge K V), s.left = none → s.right = none →
      mergeLoop pick' extra f (tagM rank s) = (mergeLoop pick extra f s).map (tagM rank) := by
    intro f s h1 h2
    have h1' : (tagM rank s).left = none := h1
    have h2' : (tagM rank s).right = none := h2
    rw [mergeLoop.eq_def, mergeLoop.eq_def pick]
    simp only [h1, h2, h1', h2', Option.map_some]
  induction f with
  | zero =>
    intro s
    by_cases h : s.left = none ∧ s.right = none
    · exact end' 0 s h.1 h.2
    · have h' : ¬ ((tagM rank s).left = none ∧ (tagM rank s).right = none) := h
      rw [mergeLoop.eq_def, mergeLoop.eq_def pick]
      have e : (tagM rank s).left = s.left := rfl
      have e' : (tagM rank s).right = s.right := rfl
      dsimp only
      rw [e, e']
      cases hl : s.left with
      | some a => exact rfl
      | none =>
        cases hr : s.right with
        | some b => exact rfl
        | none => exact absurd (And.intro hl hr) h
  | succ f ih =>
    intro s
    by_cases h : s.left = none ∧ s.right = none
    · exact end' (f + 1) s h.1 h.2
    · rw [mergeLoop.eq_def, mergeLoop.eq_def pick]
      have e : (tagM rank s).left = s.left := rfl
      have e' : (tagM rank s).right = s.right := rfl
      dsimp only
      rw [e, e']
      rcases hl : s.left with _ | a <;> rcases hr : s.right with _ | b
      · exact absurd (And.intro hl hr) h
      all_goals
        dsimp only
        rw [hp]
        cases pick s with
        | none => rfl
        | some p =>
          obtain ⟨s, o⟩ := p
          cases o with
          | none => exact ih s
          | some next =>
            simp only [Option.map_some, tagP, tag_append]
            cases append extra next s with
            | none => rfl
            | some s => exact ih s

theorem tag_mergeWith {pick : Merge K V → Option (Merge K V × Option Addr)}
    {pick' : Merge L (K × V) → Option (Merge L (K × V) × Option Addr)}
    (hp : ∀ s, pick' (tagM rank s) = (pick s).map (tagP rank)) (extra : Nat) (l r : SkipMap K V) (off : Nat) :
    mergeWith pick' extra (tagS rank l) (tagS rank r) off = (mergeWith pick extra l r off).map (tagS rank) := by
  have hmem : Heap.put (fun a => ((tagS rank l).mem a).or ((tagS rank r).mem a)) (Nat.max l.bump r.bump + off) headNode =
      tagH rank (Heap.put (fun a => (l.mem a).or (r.mem a)) (Nat.max l.bump r.bump + off) headNode) := by
    rw [← tag_put]
    congr 1
    funext a
    show ((l.mem a).map (tagN rank)).or ((r.mem a).map (tagN rank)) = ((l.mem a).or (r.mem a)).map (tagN rank)
    cases l.mem a <;> rfl
  have e1 : (tagS rank l).bump = l.bump := rfl
  have e2 : (tagS rank r).bump = r.bump := rfl
  have e3 : (tagS rank l).head = l.head := rfl
  have e4 : (tagS rank r).head = r.head := rfl
  have e5 : (tagS rank l).len = l.len := rfl
  have e6 : (tagS rank r).len = r.len := rfl
  simp only [mergeWith, e1, e2, e3, e4, e5, e6, hmem, tag_getLink, tag_zeroLinks]
  generalize Heap.put (fun a => (l.mem a).or (r.mem a)) (Nat.max l.bump r.bump + off) headNode = m
  simp only [Option.bind_eq_bind]
  cases getLink m l.head 0 with
  | none => rfl
  | some lf =>
    cases getLink m r.head 0 with
    | none => rfl
    | some rf =>
      simp only [Option.bind_some]
      cases zeroLinks m none l.head with
      | none => rfl
      | some m =>
        simp only [Option.map_some, Option.bind_some, tag_zeroLinks]
        cases zeroLinks m none r.head with
        | none => rfl
        | some m =>
          simp only [Option.map_some, Option.bind_some]
          have h := tag_mergeLoop rank hp extra (l.len + r.len)
            ⟨m, lf, rf, List.replicate (maxHeight + 1) (Nat.max l.bump r.bump + off), 0⟩
          rw [show mergeLoop pick' extra (l.len + r.len)
            ⟨tagH rank m, lf, rf, List.replicate (maxHeight + 1) (Nat.max l.bump r.bump + off), 0⟩ = _ from h]
          cases mergeLoop pick extra (l.len + r.len)
            ⟨m, lf, rf, List.replicate (maxHeight + 1) (Nat.max l.bump r.bump + off), 0⟩ with
          | none => rfl
          | some s =>
            have hm : (tagM rank s).mem = tagH rank s.mem := rfl
            simp only [Option.map_some, Option.bind_some, hm, tag_free]
            cases s.mem.free l.head with
            | none => rfl
            | some m =>
              simp only [Option.map_some, Option.bind_some, tag_free]
              cases m.free r.head <;> rfl

section
variable [LinearOrder L]

/-- `(*left.head).entry.cmp(&(*right.head).entry)` (map.rs:600, 692, 767), by rank. -/
def compareAtR (m : MHeap K V) (a b : Addr) : Option Ordering :=
  match entryAt m a, entryAt m b with
  | some e, some e' => some (compare (rank e.1) (rank e'.1))
  | _, _ => none

/-- map.rs:597-625, as `unionPick`, by rank. -/
def unionPickR (s : Merge K V) : Option (Merge K V × Option Addr) :=
  match s.left, s.right with
  | some a, some b =>
    match compareAtR rank s.mem a b with
    | none => none
    | some .eq => dropR s
    | some .lt => takeL s
    | some .gt => takeR s
  | none, _ => takeR s
  | some _, none => takeL s

/-- map.rs:764-804, as `diffPick`, by rank. -/
def diffPickR (sym : Bool) (s : Merge K V) : Option (Merge K V × Option Addr) :=
  match s.left, s.right with
  | some a, some b =>
    match compareAtR rank s.mem a b with
    | none => none
    | some .eq => do
      let (a, s) ← popL s
      let (b, s) ← popR s
      let s ← freeNode s a
      let s ← freeNode s b
      return (s, none)
    | some .lt => takeL s
    | some .gt => if sym then takeR s else dropR s
  | none, _ => if sym then takeR s else dropR s
  | some _, none => takeR s

/-- map.rs:576-644 `union`, by rank. -/
def SkipMap.unionR (l r : SkipMap K V) (off : Nat) : Option (SkipMap K V) := mergeWith (unionPickR rank) 0 l r off
/-- map.rs:848-853 `difference`, by rank. -/
def SkipMap.differenceR (l r : SkipMap K V) (off : Nat) : Option (SkipMap K V) :=
  mergeWith (diffPickR rank false) 0 l r off
/-- map.rs:877-882 `symmetric_difference`, by rank. -/
def SkipMap.symmetricDifferenceR (l r : SkipMap K V) (off : Nat) : Option (SkipMap K V) :=
  mergeWith (diffPickR rank true) 0 l r off

theorem tag_compareAt (m : MHeap K V) (a b : Addr) : compareAt (tagH rank m) a b = compareAtR rank m a b := by
  simp only [compareAt, compareAtR, tag_entryAt]
  cases entryAt m a with
  | none => rfl
  | some e => cases entryAt m b <;> rfl

theorem tag_unionPick (s : Merge K V) : unionPick (tagM rank s) = (unionPickR rank s).map (tagP rank) := by
  have e : (tagM rank s).left = s.left := rfl
  have e' : (tagM rank s).right = s.right := rfl
  have hm : (tagM rank s).mem = tagH rank s.mem := rfl
  unfold unionPick unionPickR
  rw [e, e', hm]
  cases s.left with
  | none => exact tag_takeR rank s
  | some a =>
    cases s.right with
    | none => exact tag_takeL rank s
    | some b =>
      simp only [tag_compareAt]
      cases compareAtR rank s.mem a b with
      | none => rfl
      | some o =>
        cases o
        · exact tag_takeL rank s
        · exact tag_dropR rank s
        · exact tag_takeR rank s

theorem tag_diffPick (sym : Bool) (s : Merge K V) :
    diffPick sym (tagM rank s) = (diffPickR rank sym s).map (tagP rank) := by
  have e : (tagM rank s).left = s.left := rfl
  have e' : (tagM rank s).right = s.right := rfl
  have hm : (tagM rank s).mem = tagH rank s.mem := rfl
  have hr : (if sym then takeR (tagM rank s) else dropR (tagM rank s)) =
      (if sym then takeR s else dropR s).map (tagP rank) := by
    cases sym
    · exact tag_dropR rank s
    · exact tag_takeR rank s
  unfold diffPick diffPickR
  rw [e, e', hm]
  cases s.left with
  | none => exact hr
  | some a =>
    cases s.right with
    | none => exact tag_takeR rank s
    | some b =>
      simp only [tag_compareAt]
      cases compareAtR rank s.mem a b with
      | none => rfl
      | some o =>
        cases o
        · exact tag_takeL rank s
        · simp only [tag_popL]
          cases popL s with
          | none => rfl
          | some p =>
            simp only [Option.map_some, Option.bind_eq_bind, Option.bind_some, tag_popR]
            cases popR p.2 with
            | none => rfl
            | some q =>
              simp only [Option.map_some, Option.bind_some, tag_freeNode]
              cases freeNode q.2 p.1 with
              | none => rfl
              | some s =>
                simp only [Option.map_some, Option.bind_some, tag_freeNode]
                cases freeNode s q.1 <;> rfl
        · exact hr

theorem tag_union (l r : SkipMap K V) (off : Nat) :
    (tagS rank l).union (tagS rank r) off = (l.unionR rank r off).map (tagS rank) :=
  tag_mergeWith rank (tag_unionPick rank) 0 l r off

theorem tag_difference (l r : SkipMap K V) (off : Nat) :
    (tagS rank l).difference (tagS rank r) off = (l.differenceR rank r off).map (tagS rank) :=
  tag_mergeWith rank (tag_diffPick rank false) 0 l r off

theorem tag_symmetricDifference (l r : SkipMap K V) (off : Nat) :
    (tagS rank l).symmetricDifference (tagS rank r) off = (l.symmetricDifferenceR rank r off).map (tagS rank) :=
  tag_mergeWith rank (tag_diffPick rank true) 0 l r off

/-- The maps a program can build from keys that are compared by their rank: by any call and by the set operations that
can succeed.  Two maps that are alive together own different memory. -/
inductive RBuilt (rank : K → L) : SkipMap K V → Prop
  | new (a) : RBuilt rank (SkipMap.new a)
  | call {s s' d r} (op : RankOp K V) : RBuilt rank s → stepL s (op.lcall rank) d = some (s', r) → RBuilt rank s'
  | union {a b c off} : RBuilt rank a → RBuilt rank b → Disjoint a b → a.unionR rank b off = some c → RBuilt rank c
  | difference {a b c off} : RBuilt rank a → RBuilt rank b → Disjoint a b → a.differenceR rank b off = some c →
      RBuilt rank c
  | symmetricDifference {a b c off} : RBuilt rank a → RBuilt rank b → Disjoint a b →
      a.symmetricDifferenceR rank b off = some c → RBuilt rank c

omit [LinearOrder L] in
theorem disjoint_tag {a b : SkipMap K V} (h : Disjoint a b) : Disjoint (tagS rank a) (tagS rank b) := by
  intro x
  rcases h x with h | h
  · exact .inl (by simp [tagS, tagH, h])
  · exact .inr (by simp [tagS, tagH, h])

theorem rbuilt_reach {s : SkipMap K V} (h : RBuilt rank s) : Reach (tagS rank s) := by
  induction h with
  | new a => rw [tag_new]; exact .new a
  | @call s s' d r op _ hs ih =>
    obtain ⟨T, hT⟩ := good_of_reach ih
    obtain ⟨t', T', g1, _, _⟩ := step_ok hT (op.tag rank) d
    obtain ⟨t, r', h1, h2, _⟩ := stepL_tag rank s op d g1
    rw [h1] at hs
    cases hs
    exact h2 ▸ Reach.step ih g1
  | union _ _ hd hc iha ihb => exact .union iha ihb (disjoint_tag rank hd) (by rw [tag_union, hc]; rfl)
  | difference _ _ hd hc iha ihb => exact .difference iha ihb (disjoint_tag rank hd) (by rw [tag_difference, hc]; rfl)
  | symmetricDifference _ _ hd hc iha ihb =>
    exact .symmetricDifference iha ihb (disjoint_tag rank hd) (by rw [tag_symmetricDifference, hc]; rfl)

/-- The map behaves from now on as one with one entry per rank that holds `M`. -/
abbrev RHolds (s : SkipMap K V) (M : RMap L K V) : Prop :=
  RankRepresents rank (fun s op (d : Draw) => stepL s (op.lcall rank) d) s M

theorem rholds_of {s : SkipMap K V} {M : AMap L (K × V)} (h : Reach (tagS rank s)) (hM : Rp (tagS rank s) M) :
    RHolds rank s M := by
  obtain ⟨T, hT⟩ := good_of_reach h
  exact ranked_of_represents rank hT hM

/-- C82 for `union` of `SkipMap`: on common ranks the entry of the left map is kept, with its key. -/
theorem C82_skip_union {a b : SkipMap K V} (ha : RBuilt rank a) (hb : RBuilt rank b) (hd : Disjoint a b) (off : Nat) :
    ∃ A B c, RHolds rank a A ∧ RHolds rank b B ∧ a.unionR rank b off = some c ∧ RHolds rank c (A.union B) := by
  have ra := rbuilt_reach rank ha
  have rb := rbuilt_reach rank hb
  obtain ⟨A, hA⟩ := C05_skip_map_represents ra
  obtain ⟨B, hB⟩ := C05_skip_map_represents rb
  obtain ⟨c', h1, h2⟩ := C15_union ra rb (disjoint_tag rank hd) hA hB off
  have hr := Reach.union ra rb (disjoint_tag rank hd) h1
  rw [tag_union] at h1
  obtain ⟨c, h3, rfl⟩ := Option.map_eq_some_iff.1 h1
  exact ⟨A, B, c, rholds_of rank ra hA, rholds_of rank rb hB, h3, rholds_of rank hr h2⟩

/-- C82 for `difference` and `symmetric_difference` of `SkipMap`, exactly: they succeed if no left entry is above all
right ones, and then hold what a map with one entry per rank would, with the keys that went in; otherwise they follow a
null pointer.  (`intersection` is not here: it corrupts memory already when equal keys are the same, C15.)
Missing: success in the other case, which is false (C15). -/
theorem C82_skip_difference_partial {a b : SkipMap K V} (ha : RBuilt rank a) (hb : RBuilt rank b) (hd : Disjoint a b)
    (off : Nat) :
    ∃ A B : RMap L K V, RHolds rank a A ∧ RHolds rank b B ∧
      ((∀ p, A p ≠ none → ∃ q, B q ≠ none ∧ p ≤ q) →
        (∃ c, a.differenceR rank b off = some c ∧ RHolds rank c (A.difference B)) ∧
        ∃ c, a.symmetricDifferenceR rank b off = some c ∧ RHolds rank c (A.symmetricDifference B)) ∧
      ((∃ p, A p ≠ none ∧ ∀ q, B q ≠ none → q < p) →
        a.differenceR rank b off = none ∧ a.symmetricDifferenceR rank b off = none) := by
  have ra := rbuilt_reach rank ha
  have rb := rbuilt_reach rank hb
  have hd' := disjoint_tag rank hd
  obtain ⟨A, hA⟩ := C05_skip_map_represents ra
  obtain ⟨B, hB⟩ := C05_skip_map_represents rb
  have has : ∀ (M : AMap L (K × V)) q, M.Has q ↔ M q ≠ none := by
    intro M q; unfold AMap.Has; cases M q <;> simp
  refine ⟨A, B, rholds_of rank ra hA, rholds_of rank rb hB, fun h => ?_, ?_⟩
  · have ho : ∀ x, A.Has x → ∃ y, B.Has y ∧ x ≤ y := fun x hx => by
      obtain ⟨q, h1, h2⟩ := h x ((has A x).1 hx)
      exact ⟨q, (has B q).2 h1, h2⟩
    obtain ⟨c', h1, h2⟩ := C15_difference_partial ra rb hd' hA hB ho off
    obtain ⟨d', h3, h4⟩ := C15_symmetric_difference_partial ra rb hd' hA hB ho off
    have r1 := Reach.difference ra rb hd' h1
    have r2 := Reach.symmetricDifference ra rb hd' h3
    rw [tag_difference] at h1
    rw [tag_symmetricDifference] at h3
    obtain ⟨c, h5, rfl⟩ := Option.map_eq_some_iff.1 h1
    obtain ⟨d, h6, rfl⟩ := Option.map_eq_some_iff.1 h3
    exact ⟨⟨c, h5, rholds_of rank r1 h2⟩, d, h6, rholds_of rank r2 h4⟩
  · rintro ⟨p, h1, h2⟩
    obtain ⟨h3, h4⟩ := C15_difference_crash ra rb hd' hA hB ⟨p, (has A p).2 h1, fun y hy => h2 y ((has B y).1 hy)⟩ off
    rw [tag_difference] at h3
    rw [tag_symmetricDifference] at h4
    exact ⟨Option.map_eq_none_iff.1 h3, Option.map_eq_none_iff.1 h4⟩

end

/-- Maps by tens with the heads at 0 and 10. -/
def exTens : SkipMap Nat String :=
  ((runRanked (fun s op (d : Draw) => stepL s (op.lcall (· / 10)) d) (SkipMap.new 0)
    [(.insert 14 "a", (0, 0)), (.insert 31 "b", (2, 0))]).map (·.1)).getD (SkipMap.new 0)
def exTens' : SkipMap Nat String :=
  ((runRanked (fun s op (d : Draw) => stepL s (op.lcall (· / 10)) d) (SkipMap.new 10)
    [(.insert 17 "c", (1, 0)), (.insert 52 "d", (0, 0))]).map (·.1)).getD (SkipMap.new 10)

/-- Of 14 and 17, which compare equal, the union keeps the left one. -/
example : ((exTens.unionR (· / 10) exTens' 0).bind (·.iter),
      (exTens.differenceR (· / 10) exTens' 0).bind (·.iter),
      (exTens.symmetricDifferenceR (· / 10) exTens' 0).bind (·.iter)) =
    (some [(14, "a"), (31, "b"), (52, "d")], some [(31, "b")], some [(31, "b"), (52, "d")]) := by decide +kernel

end Verif.Skip.Map
