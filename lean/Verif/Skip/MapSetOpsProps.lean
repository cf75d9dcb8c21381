/- C78: the set operations of a `SkipMap` when comparisons are wrong or panic. -/
import Verif.Skip.MapSetOpsSim

namespace Verif.Skip.Map

open Verif.Spec Verif.SL

variable {K V : Type}

/-- The maps that can be built with comparisons that obey no law: by calls (with answers that do not change during an
`insert` or `remove`, see C75), and by set operations, in which the answers may be anything. -/
inductive Built : SkipMap K V → Prop where
  | new (a : Addr) : Built (SkipMap.new a)
  | call {s s' : SkipMap K V} {op : LCall K V} {d : Draw} {r : LRes K V} :
      Built s → (op.Edits → op.Steady) → stepL s op d = some (s', r) → Built s'
  | setOp {l r c : SkipMap K V} {op : MergeOp} {ans : List Ordering} {off : Nat} {d : List (K × V)} :
      Built l → Built r → Disjoint l r → l.setOpA op ans r off = some (.returned c d) → Built c

/-- The call ends as the outcome says.  If it returns, the map holds the entries `out`, and dropping it frees all memory.
If a comparison panics, unwinding runs the destructors of the entries collected and of those that remain except for the
two that were compared, and of all memory only the two head nodes stay allocated. -/
def AsOutcome (l r : SkipMap K V) : Outcome (K × V) → Option (SetRes K V) → Prop
  | .returned out dropped, x => ∃ c, x = some (.returned c dropped) ∧ c.iter = some out ∧ c.len = out.length ∧
      ∃ m, c.drop = some m ∧ ∀ b, m b = none
  | .stopped out dropped left right, x => ∃ m, x = some (.unwound m (dropped ++ (out ++ right.tail ++ left.tail))) ∧
      ∀ b, m b ≠ none ↔ b = l.head ∨ b = r.head
  | .crashed, x => x = none

theorem setOpA_ok (op : MergeOp) (ans : List Ordering) (off : Nat) {l r : SkipMap K V} {Cl Cr : Nat → List Addr}
    {El Er : List (K × V)} (hl : WGood l Cl El) (hr : WGood r Cr Er) (hd : Disjoint l r) :
    AsOutcome l r (op.run ans El Er) (l.setOpA op ans r off) ∧
      ∀ c d, l.setOpA op ans r off = some (.returned c d) → ∃ C E, WGood c C E := by
  obtain ⟨L, hL, rfl⟩ := hl.laid
  obtain ⟨R, hR, rfl⟩ := hr.laid
  obtain ⟨s, head, h1, h2, h3, h4⟩ := mergeInit_ok off hL hR hd
  have nn : ∀ {m : MHeap K V} {a p}, Skip.shape m a = some p → m a ≠ none := by
    intro m a p h hc; simp [Skip.shape, hc] at h
  have hsim := loopA_ok op (B := fun t => t.addr < head) (l.len + r.len) ans [] h1 (by rw [hL.len, hR.len])
    (fun t ht => by
      by_contra hc
      exact nn (hL.tow t ht) (h3 _ (Nat.le_of_not_lt hc)).1)
    (fun t ht => by
      by_contra hc
      exact nn (hR.tow t ht) (h3 _ (Nat.le_of_not_lt hc)).2)
  have hrun := MergeOp.run_entries op ans (L.map (·.e)) (R.map (·.e))
  generalize op.run ans (L.map (·.e)) (R.map (·.e)) = o at hsim hrun
  cases o with
  | returned out d =>
    obtain ⟨s', Z, g1, rfl, g3, g4⟩ := hsim
    obtain ⟨m, m', e1, e2, e3⟩ := finish_ok (by simpa using g4) h2 g3 fun a ha => by
      constructor
      · rintro rfl; exact nn hL.hd (h3 _ ha).1
      · rintro rfl; exact nn hR.hd (h3 _ ha).2
    have e : l.setOpA op ans r off = some (.returned ⟨m', head, s'.len, head + 1⟩ d) := by
      simp [SkipMap.setOpA, h4, g1, e1, e2]
    refine ⟨⟨_, e, iterL_ok e3, ?_, lawlessDrop_ok e3⟩, ?_⟩
    · rw [e3.len_eq, e3.length]
    · intro c d' hc
      rw [e] at hc
      cases hc
      exact ⟨_, _, e3⟩
  | stopped out d le ri =>
    obtain ⟨s', Z, L', R', g1, rfl, rfl, rfl, g2, g3, g4⟩ := hsim
    obtain ⟨a, L', rfl⟩ := List.exists_cons_of_ne_nil g2
    obtain ⟨b, R', rfl⟩ := List.exists_cons_of_ne_nil g3
    have hlen := (hrun (by simp)).length_eq
    simp only [Outcome.entries, List.length_append, List.length_map, List.length_cons] at hlen
    obtain ⟨m, e1, e2⟩ := unwind_ok (steps := l.len + r.len) (by simpa using g4) (by rw [hL.len, hR.len]; omega)
      (by rw [hL.len, hR.len]; omega) (by rw [hL.len, hR.len]; omega)
    have e : l.setOpA op ans r off = some (.unwound m (d ++ (Z.map (·.e) ++ R'.map (·.e) ++ L'.map (·.e)))) := by
      simp [SkipMap.setOpA, h4, g1, e1]
    refine ⟨⟨m, by simpa using e, e2⟩, ?_⟩
    intro c d' hc
    rw [e] at hc
    cases hc
  | crashed =>
    have hsim : loopA op (l.len + r.len) ans s [] = none := hsim
    have e : l.setOpA op ans r off = none := by simp [SkipMap.setOpA, h4, hsim]
    exact ⟨e, by simp [e]⟩

theorem built_good {s : SkipMap K V} (h : Built s) : ∃ C E, WGood s C E := by
  induction h with
  | new a => exact ⟨_, _, wgood_new a⟩
  | call _ hop hs ih =>
    obtain ⟨C, E, hg⟩ := ih
    obtain ⟨s1, r1, C1, E1, h1, h2, _⟩ := stepL_ok hg _ hop _
    rw [h1, Option.some.injEq, Prod.mk.injEq] at hs
    exact ⟨C1, E1, hs.1 ▸ h2⟩
  | setOp _ _ hd hc ihl ihr =>
    obtain ⟨Cl, El, hl⟩ := ihl
    obtain ⟨Cr, Er, hr⟩ := ihr
    exact (setOpA_ok _ _ _ hl hr hd).2 _ _ hc

/-- C78, exactly: for all maps, whatever the comparisons answered while they were built and whatever they answer now, a
set operation ends as `MergeOp.run` says. -/
theorem C78_set_operations_exact (op : MergeOp) (ans : List Ordering) (off : Nat) {l r : SkipMap K V} (hl : Built l)
    (hr : Built r) (hd : Disjoint l r) :
    ∃ El Er, l.iter = some El ∧ r.iter = some Er ∧ AsOutcome l r (op.run ans El Er) (l.setOpA op ans r off) := by
  obtain ⟨Cl, El, gl⟩ := built_good hl
  obtain ⟨Cr, Er, gr⟩ := built_good hr
  exact ⟨El, Er, iterL_ok gl, iterL_ok gr, (setOpA_ok op ans off gl gr hd).1⟩

/-- The maps that set operations return can be used like any others (C75). -/
theorem C78_result_usable {s : SkipMap K V} (hs : Built s) (ops : List (LCall K V × Draw))
    (hops : ∀ x ∈ ops, x.1.Edits → x.1.Steady) :
    ∃ l s' h l', s.iter = some l ∧ runL s ops = some (s', h) ∧ h.map (·.1) = ops.map (·.1) ∧ LHistory l h l' ∧
      s'.iter = some l' ∧ ∃ m, s'.drop = some m ∧ ∀ b, m b = none := by
  obtain ⟨C, E, hg⟩ := built_good hs
  obtain ⟨s', h, C', l', h1, h2, h3, h4⟩ := runL_ok hg ops hops
  exact ⟨E, s', h, l', iterL_ok hg, h1, h2, h4, iterL_ok h3, lawlessDrop_ok h3⟩

/-- C78 for `union` from the side of the caller: it never touches memory it must not.  If it returns, every entry of the
two maps is in the result or has been dropped, once.  If a comparison panics, every entry except the two that were being
compared has been dropped, once; those two never are, and the two head nodes are never freed.

Missing: that all entries are dropped and all memory is freed when a comparison panics, which is false
(`C78_violated`); and `intersection`, which breaks the lists already with a proper order (C15). -/
theorem C78_union_partial (ans : List Ordering) (off : Nat) {l r : SkipMap K V} (hl : Built l) (hr : Built r)
    (hd : Disjoint l r) :
    ∃ El Er, l.iter = some El ∧ r.iter = some Er ∧
      ((∃ c out dropped, l.setOpA .union ans r off = some (.returned c dropped) ∧ c.iter = some out ∧
          c.len = out.length ∧ (out ++ dropped).Perm (El ++ Er) ∧ ∃ m, c.drop = some m ∧ ∀ b, m b = none) ∨
        ∃ m dropped, l.setOpA .union ans r off = some (.unwound m dropped) ∧
          (∃ a ∈ El, ∃ b ∈ Er, (a :: b :: dropped).Perm (El ++ Er)) ∧ ∀ x, m x ≠ none ↔ x = l.head ∨ x = r.head) := by
  obtain ⟨Cl, El, gl⟩ := built_good hl
  obtain ⟨Cr, Er, gr⟩ := built_good hr
  refine ⟨El, Er, iterL_ok gl, iterL_ok gr, ?_⟩
  have h := (setOpA_ok .union ans off gl gr hd).1
  have hp := MergeOp.run_entries .union ans El Er (union_not_crashed ans El Er)
  have hs := union_not_crashed ans El Er
  have hf := MergeOp.run_fronts .union ans El Er
  generalize MergeOp.union.run ans El Er = o at h hp hs hf
  cases o with
  | crashed => exact absurd rfl hs
  | returned out d =>
    obtain ⟨c, h1, h2, h3, h4⟩ := h
    exact .inl ⟨c, out, d, h1, h2, h3, hp, h4⟩
  | stopped out d le ri =>
    obtain ⟨m, h1, h2⟩ := h
    obtain ⟨a, le', b, ri', rfl, rfl, ha, hb⟩ := hf out d le ri rfl
    refine .inr ⟨m, _, h1, ⟨a, ha, b, hb, .trans ?_ hp⟩, h2⟩
    classical
    refine List.perm_iff_count.2 fun x => ?_
    simp only [Outcome.entries, List.tail_cons, List.count_append, List.count_cons]
    omega

section
variable [LinearOrder K]

theorem union_loop_covers (f : Nat) (s s' : Merge K V) (h : mergeLoop unionPick 0 f s = some s') (log : List (K × V)) :
    ∃ ans log', loopA .union f ans s log = some (s', log', false) := by
  induction f generalizing s log with
  | zero =>
    rw [mergeLoop.eq_def] at h
    simp only at h
    cases hl : s.left with
    | none =>
      cases hr : s.right with
      | none =>
        simp only [hl, hr, Option.some.injEq] at h
        exact ⟨[], log, by rw [loopA_none _ _ _ _ _ hl hr, h]⟩
      | some b => simp [hl, hr] at h
    | some a => cases hr : s.right <;> simp [hl, hr] at h
  | succ f ih =>
    cases hl : s.left with
    | none =>
      cases hr : s.right with
      | none =>
        rw [mergeLoop.eq_def] at h
        simp only [hl, hr, Option.some.injEq] at h
        exact ⟨[], log, by rw [loopA_none _ _ _ _ _ hl hr, h]⟩
      | some b =>
        rw [mergeLoop_step (by simp [hr])] at h
        simp only [unionPick, hl, takeR] at h
        cases hp : popR s with
        | none => simp [hp] at h
        | some q =>
          simp only [hp, Option.map_some] at h
          cases ha : append 0 q.1 q.2 with
          | none => simp [ha] at h
          | some s1 =>
            simp only [ha] at h
            obtain ⟨ans, log', h1⟩ := ih s1 h (log ++ [])
            exact ⟨ans, log', by rw [loopA_right _ _ _ _ _ hl hr]; simpa [onlyRight, keepR, hp, finish, ha] using h1⟩
    | some a =>
      cases hr : s.right with
      | none =>
        rw [mergeLoop_step (by simp [hl])] at h
        simp only [unionPick, hl, hr, takeL] at h
        cases hp : popL s with
        | none => simp [hp] at h
        | some q =>
          simp only [hp, Option.map_some] at h
          cases ha : append 0 q.1 q.2 with
          | none => simp [ha] at h
          | some s1 =>
            simp only [ha] at h
            obtain ⟨ans, log', h1⟩ := ih s1 h (log ++ [])
            exact ⟨ans, log', by rw [loopA_left _ _ _ _ _ hl hr]; simpa [onlyLeft, keepL, hp, finish, ha] using h1⟩
      | some b =>
        rw [mergeLoop_step (by simp [hl])] at h
        simp only [unionPick, hl, hr, compareAt] at h
        cases e1 : entryAt s.mem a with
        | none => simp [e1] at h
        | some x =>
          cases e2 : entryAt s.mem b with
          | none => simp [e1, e2] at h
          | some y =>
            simp only [e1, e2] at h
            cases ho : compare x.1 y.1 with
            | lt =>
              simp only [ho, takeL] at h
              cases hp : popL s with
              | none => simp [hp] at h
              | some q =>
                simp only [hp, Option.map_some] at h
                cases ha : append 0 q.1 q.2 with
                | none => simp [ha] at h
                | some s1 =>
                  simp only [ha] at h
                  obtain ⟨ans, log', h1⟩ := ih s1 h (log ++ [])
                  exact ⟨.lt :: ans, log', by
                    rw [loopA_both _ _ _ _ _ _ hl hr e1 e2]; simpa [onAnswer, keepL, hp, finish, ha] using h1⟩
            | gt =>
              simp only [ho, takeR] at h
              cases hp : popR s with
              | none => simp [hp] at h
              | some q =>
                simp only [hp, Option.map_some] at h
                cases ha : append 0 q.1 q.2 with
                | none => simp [ha] at h
                | some s1 =>
                  simp only [ha] at h
                  obtain ⟨ans, log', h1⟩ := ih s1 h (log ++ [])
                  exact ⟨.gt :: ans, log', by
                    rw [loopA_both _ _ _ _ _ _ hl hr e1 e2]; simpa [onAnswer, keepR, hp, finish, ha] using h1⟩
            | eq =>
              simp only [ho, dropR] at h
              cases hp : getLink s.mem b 0 with
              | none => simp [popR, hr, hp] at h
              | some nx =>
                simp only [popR, hr, hp, Option.map_some, Option.bind_eq_bind, Option.bind_some, freeNode] at h
                cases hf : s.mem.free b with
                | none => simp [hf] at h
                | some m =>
                  simp only [hf, Option.map_some, Option.bind_some] at h
                  obtain ⟨ans, log', h1⟩ := ih _ h (log ++ [y])
                  exact ⟨.eq :: ans, log', by
                    rw [loopA_both _ _ _ _ _ _ hl hr e1 e2]
                    simpa [onAnswer, loseR, popR, hr, hp, dropNode, e2, hf, finish] using h1⟩

/-- With the answers of a linear order, `setOpA` is the `union` of `Skip/MapModel`. -/
theorem C78_covers_lawful (l r c : SkipMap K V) (off : Nat) (h : l.union r off = some c) :
    ∃ ans d, l.setOpA .union ans r off = some (.returned c d) := by
  have e : l.union r off = (mergeInit l r off).bind fun (s, head) =>
      (mergeLoop unionPick 0 (l.len + r.len) s).bind fun s => (s.mem.free l.head).bind fun mem =>
        (mem.free r.head).bind fun mem => some ⟨mem, head, s.len, head + 1⟩ := by
    unfold SkipMap.union mergeWith mergeInit
    simp only [Option.bind_eq_bind, Option.bind_assoc]
    rfl
  rw [e] at h
  obtain ⟨⟨s, head⟩, h1, h⟩ := Option.bind_eq_some_iff.1 h
  obtain ⟨s', h2, h⟩ := Option.bind_eq_some_iff.1 h
  obtain ⟨m, h3, h⟩ := Option.bind_eq_some_iff.1 h
  obtain ⟨m', h4, h⟩ := Option.bind_eq_some_iff.1 h
  obtain ⟨ans, d, h5⟩ := union_loop_covers _ _ _ h2 []
  refine ⟨ans, d, ?_⟩
  simp only [Option.some.injEq] at h
  simp [SkipMap.setOpA, h1, h5, h3, h4, h]

end

theorem built_run {s s' : SkipMap K V} (hs : Built s) {ops : List (LCall K V × Draw)}
    (hops : ∀ x ∈ ops, x.1.Edits → x.1.Steady) {h : List (LCall K V × LRes K V)} (hr : runL s ops = some (s', h)) :
    Built s' := by
  induction ops generalizing s h with
  | nil =>
    simp only [runL, Option.some.injEq, Prod.mk.injEq] at hr
    exact hr.1 ▸ hs
  | cons x ops ih =>
    simp only [runL, Option.bind_eq_bind] at hr
    obtain ⟨⟨s1, r⟩, h1, hr⟩ := Option.bind_eq_some_iff.1 hr
    obtain ⟨⟨s2, h2⟩, h3, hr⟩ := Option.bind_eq_some_iff.1 hr
    simp only [Option.pure_def, Option.some.injEq, Prod.mk.injEq] at hr
    exact ih (.call hs (hops x (by simp)) h1) (fun y hy => hops y (by simp [hy])) (hr.1 ▸ h3)

/-- The map with the entries inserted one after the other, at addresses from `a` on. -/
def putAll (a : Addr) (l : List (Nat × Char × Fin 33)) : SkipMap Nat Char :=
  ((runL (SkipMap.new a) (l.map fun e => (.insert e.1 e.2.1 (lawful e.1), (e.2.2, 0)))).map (·.1)).getD (SkipMap.new a)

theorem built_putAll (a : Addr) (l : List (Nat × Char × Fin 33)) : Built (putAll a l) := by
  unfold putAll
  cases h : runL (SkipMap.new a) (l.map fun e => (.insert e.1 e.2.1 (lawful e.1), (e.2.2, 0))) with
  | none => exact .new a
  | some p =>
    refine built_run (.new a) (fun x hx _ => ?_) (show _ = some (p.1, p.2) from h)
    obtain ⟨e, _, rfl⟩ := List.mem_map.1 hx
    exact fun i k => ⟨rfl, rfl, rfl⟩

theorem built_disjoint {l r : SkipMap K V} (hl : Built l) (hr : ∀ x, x < l.bump → (r.mem x).isNone) : Disjoint l r := by
  obtain ⟨C, E, hg⟩ := built_good hl
  intro x
  by_cases h : x < l.bump
  · exact .inr (Option.isNone_iff_eq_none.1 (hr x h))
  · exact .inl (hg.bump x (Nat.le_of_not_lt h))

/-- `{1, 3, 5}`. -/
def demoL : SkipMap Nat Char := putAll 0 [(1, 'a', 0), (3, 'b', 2), (5, 'c', 1)]
/-- `{3, 7}`. -/
def demoR : SkipMap Nat Char := putAll 4 [(3, 'x', 3), (7, 'y', 0)]

theorem demo_disjoint : Disjoint demoL demoR := built_disjoint (built_putAll 0 _) (by decide +kernel)

/-- What a call leaves to see: the entries of the result, if it returns, and the entries dropped. -/
def SetRes.view : SetRes Nat Char → Option (List (Nat × Char)) × List (Nat × Char)
  | .returned c d => (c.iter, d)
  | .unwound _ d => (none, d)

/-- The hypotheses are met.  Right answers; wrong answers; a panic in the third comparison, with 1 and 3 collected and 5
and 7 compared: these two are never dropped; a difference that comes to the end of the right map first. -/
example : Built demoL ∧ Built demoR ∧ Disjoint demoL demoR ∧
    (demoL.setOpA .union [.lt, .eq, .lt, .lt] demoR 0).map (·.view) =
      some (some [(1, 'a'), (3, 'b'), (5, 'c'), (7, 'y')], [(3, 'x')]) ∧
    (demoL.setOpA .union [.gt, .eq] demoR 0).map (·.view) =
      some (some [(3, 'x'), (1, 'a'), (3, 'b'), (5, 'c')], [(7, 'y')]) ∧
    (demoL.setOpA .union [.lt, .eq, .lt] demoR 0).map (·.view) = some (none, [(3, 'x'), (1, 'a'), (3, 'b')]) ∧
    (demoL.setOpA (.difference false) [.eq, .eq] demoR 0).map (·.view) = none ∧
    (demoL.setOpA (.difference true) [.eq, .lt, .lt] demoR 0).map (·.view) =
      some (some [(3, 'b'), (5, 'c'), (7, 'y')], [(1, 'a'), (3, 'x')]) :=
  ⟨built_putAll 0 _, built_putAll 4 _, demo_disjoint, by decide +kernel, by decide +kernel, by decide +kernel,
    by decide +kernel, by decide +kernel⟩

/-- C78 is false: if a comparison panics, not all entries are dropped and not all memory is freed. -/
theorem C78_violated :
    ¬ ∀ (ans : List Ordering) (off : Nat) (l r : SkipMap Nat Char), Built l → Built r → Disjoint l r →
      ∀ m d, l.setOpA .union ans r off = some (.unwound m d) → d.length = l.len + r.len ∧ ∀ b, m b = none := by
  intro h
  obtain ⟨El, Er, _, _, h1 | ⟨m, d, h1, ⟨a, _, b, _, hp⟩, h2⟩⟩ :=
    C78_union_partial [.lt, .eq, .lt] 0 (built_putAll 0 [(1, 'a', 0), (3, 'b', 2), (5, 'c', 1)])
      (built_putAll 4 [(3, 'x', 3), (7, 'y', 0)]) demo_disjoint
  · obtain ⟨c, out, d, h1, h3, _⟩ := h1
    have e : (demoL.setOpA .union [.lt, .eq, .lt] demoR 0).map (·.view) = some (none, [(3, 'x'), (1, 'a'), (3, 'b')]) := by
      decide +kernel
    have h1 : demoL.setOpA .union [.lt, .eq, .lt] demoR 0 = some (.returned c d) := h1
    rw [h1] at e
    simp [SetRes.view, h3] at e
  · exact (h2 _).2 (.inl rfl) ((h _ _ _ _ (built_putAll 0 _) (built_putAll 4 _) demo_disjoint m d h1).2 _)

end Verif.Skip.Map
