/- The nodes of a `SkipMap` after panics: no tower is too tall, and all nodes are below the next address. -/
import Verif.Skip.WebSim

namespace Verif.Skip.Map.Torn

open Verif.Spec

variable {K V : Type}

/-- The nodes of `m'` are nodes of `m`, with towers of the same height. -/
def Thins (m m' : MHeap K V) : Prop := ∀ a n', m' a = some n' → ∃ n, m a = some n ∧ n.links.length = n'.links.length

theorem Thins.refl (m : MHeap K V) : Thins m m := fun _ n h => ⟨n, h, rfl⟩

theorem Thins.trans {m m' m'' : MHeap K V} (h : Thins m m') (h' : Thins m' m'') : Thins m m'' := by
  intro a n h1
  obtain ⟨n1, h2, h3⟩ := h' a n h1
  obtain ⟨n2, h4, h5⟩ := h a n1 h2
  exact ⟨n2, h4, h5.trans h3⟩

theorem thins_put {m : MHeap K V} {a : Addr} {n n' : Node (K × V) (Option Addr)} (h : m a = some n)
    (hl : n.links.length = n'.links.length) : Thins m (m.put a n') := by
  intro b x hb
  unfold Heap.put at hb
  split at hb
  · rename_i e; subst e
    cases hb
    exact ⟨n, h, hl⟩
  · exact ⟨x, hb, rfl⟩

theorem setLink_thins {m m' : MHeap K V} {a : Addr} {i : Nat} {l : Option Addr} (h : setLink m a i l = some m') :
    Thins m m' := by
  unfold setLink at h
  cases hm : m a with
  | none => simp [hm] at h
  | some n =>
    simp only [hm] at h
    split at h
    · cases h
      exact thins_put hm (by simp)
    · simp at h

theorem zeroLinks_thins {m m' : MHeap K V} {a : Addr} {z : Option Addr} (h : zeroLinks m z a = some m') : Thins m m' := by
  unfold zeroLinks at h
  cases hm : m a with
  | none => simp [hm] at h
  | some n =>
    simp only [hm] at h
    cases h
    exact thins_put hm (by simp)

theorem free_thins {m m' : MHeap K V} {a : Addr} (h : m.free a = some m') : Thins m m' := by
  unfold Heap.free at h
  cases hm : m a with
  | none => simp [hm] at h
  | some n =>
    simp only [hm] at h
    cases h
    intro b x hb
    simp only at hb
    split at hb
    · simp at hb
    · exact ⟨x, hb, rfl⟩

theorem modifyAt_thins {m m' : MHeap K V} {a : Addr} {f : V → V} {e : K × V} (h : modifyAt m a f = some (m', e)) :
    Thins m m' := by
  unfold modifyAt at h
  split at h
  · rename_i e ls hm
    simp only [Option.some.injEq, Prod.mk.injEq] at h
    obtain ⟨rfl, -⟩ := h
    exact thins_put hm rfl
  · simp at h

theorem freeAll_thins {m m' : MHeap K V} {f : Nat} {o : Option Addr} (h : freeAll m f o = some m') : Thins m m' := by
  induction f generalizing m o with
  | zero =>
    cases o with
    | none => simp only [freeAll, Option.some.injEq] at h; subst h; exact .refl _
    | some a => simp [freeAll] at h
  | succ f ih =>
    cases o with
    | none => simp only [freeAll, Option.some.injEq] at h; subst h; exact .refl _
    | some a =>
      simp only [freeAll, Option.bind_eq_bind] at h
      obtain ⟨l, -, h⟩ := Option.bind_eq_some_iff.1 h
      obtain ⟨m1, h1, h⟩ := Option.bind_eq_some_iff.1 h
      exact (free_thins h1).trans (ih h)

theorem linkNew_thins {w w' : Work K V} {new : Addr} {nh i : Nat} (h : linkNew new nh i w = some w') :
    Thins w.mem w'.mem := by
  unfold linkNew at h
  split at h
  · simp only [Option.bind_eq_bind] at h
    obtain ⟨l, -, h⟩ := Option.bind_eq_some_iff.1 h
    obtain ⟨m1, h1, h⟩ := Option.bind_eq_some_iff.1 h
    obtain ⟨m2, h2, h⟩ := Option.bind_eq_some_iff.1 h
    cases h
    exact (setLink_thins h1).trans (setLink_thins h2)
  · cases h; exact .refl _

theorem release_thins {w w' : Work K V} {i : Nat} {b : Addr} {e : K × V} (h : release i b e w = some w') :
    Thins w.mem w'.mem := by
  cases i with
  | zero =>
    simp only [release, Option.bind_eq_bind] at h
    obtain ⟨m1, h1, h⟩ := Option.bind_eq_some_iff.1 h
    obtain ⟨n, h2, h⟩ := Option.bind_eq_some_iff.1 h
    cases h
    exact free_thins h1
  | succ i => cases h; exact .refl _

variable [LinearOrder K]

theorem unlink_thins {w w' : Work K V} {key : K} {i : Nat} {o : Option Addr} (h : unlink key i w o = some w') :
    Thins w.mem w'.mem := by
  cases o with
  | none => cases h; exact .refl _
  | some b =>
    simp only [unlink] at h
    cases he : entryAt w.mem b with
    | none => simp [he] at h
    | some e =>
      simp only [he] at h
      split at h
      · simp only [Option.bind_eq_bind] at h
        obtain ⟨l, -, h⟩ := Option.bind_eq_some_iff.1 h
        obtain ⟨m1, h1, h⟩ := Option.bind_eq_some_iff.1 h
        exact (setLink_thins h1).trans (release_thins h)
      · cases h; exact .refl _

theorem unlinkP_thins {w w' : Work K V} {key : K} {i b b' : Nat} {o : Option Addr}
    (h : unlinkP key i b w o = some (some (w', b'))) : Thins w.mem w'.mem := by
  unfold unlinkP at h
  split at h
  · obtain ⟨x, h1, h2⟩ := Option.map_eq_some_iff.1 h
    cases h2
    exact unlink_thins h1
  · simp at h
  · obtain ⟨x, h1, h2⟩ := Option.map_eq_some_iff.1 h
    cases h2
    exact unlink_thins h1

theorem removeLevelP_thins {f : Nat} {w w' : Work K V} {key : K} {i b b' : Nat}
    (h : removeLevelP f key i b w = some (some (w', b'))) : Thins w.mem w'.mem := by
  unfold removeLevelP at h
  split at h
  · simp at h
  · simp at h
  · have := unlinkP_thins h
    exact this

theorem insertLevelP_thins {f new nh : Nat} {w w' : Work K V} {key : K} {i b b' : Nat}
    (h : insertLevelP f new nh key i b w = some (some (w', b'))) : Thins w.mem w'.mem := by
  unfold insertLevelP at h
  split at h
  · simp at h
  · simp at h
  · rename_i h1
    obtain ⟨x, h2, h3⟩ := Option.map_eq_some_iff.1 h
    cases h3
    exact (removeLevelP_thins h1).trans (linkNew_thins h2)

omit [LinearOrder K] in
theorem downFromP_thins {body : Nat → Nat → Work K V → Option (Option (Work K V × Nat))}
    (hb : ∀ i b w w' b', body i b w = some (some (w', b')) → Thins w.mem w'.mem) {i b : Nat} {w w' : Work K V}
    {o : Except Nat Nat} (h : downFromP body i b w = some (w', o)) : Thins w.mem w'.mem := by
  induction i generalizing b w with
  | zero =>
    simp only [downFromP] at h
    cases h1 : body 0 b w with
    | none => simp [h1] at h
    | some x =>
      cases x with
      | none => simp only [h1, Option.some.injEq, Prod.mk.injEq] at h; rw [← h.1]; exact .refl _
      | some y =>
        simp only [h1, Option.some.injEq, Prod.mk.injEq] at h
        rw [← h.1]
        exact hb _ _ _ _ _ h1
  | succ i ih =>
    simp only [downFromP] at h
    cases h1 : body (i + 1) b w with
    | none => simp [h1] at h
    | some x =>
      cases x with
      | none => simp only [h1, Option.some.injEq, Prod.mk.injEq] at h; rw [← h.1]; exact .refl _
      | some y =>
        simp only [h1] at h
        exact (hb _ _ _ _ _ h1).trans (ih h)

/-- No tower is too tall, and all nodes are below the next address. -/
def Fit (s : SkipMap K V) : Prop := ∀ a n, s.mem a = some n → n.links.length ≤ maxHeight + 1 ∧ a < s.bump

omit [LinearOrder K] in
theorem Fit.thins {s s' : SkipMap K V} (h : Fit s) (ht : Thins s.mem s'.mem) (hb : s.bump ≤ s'.bump) : Fit s' := by
  intro a n ha
  obtain ⟨n1, h1, h2⟩ := ht a n ha
  obtain ⟨h3, h4⟩ := h a n1 h1
  exact ⟨by omega, Nat.lt_of_lt_of_le h4 hb⟩

omit [LinearOrder K] in
theorem fit_new (a : Addr) : Fit (SkipMap.new a : SkipMap K V) := by
  intro b n hb
  simp only [SkipMap.new, Heap.put] at hb
  split at hb
  · rename_i e
    subst e
    cases hb
    exact ⟨by simp [headNode], Nat.lt_succ_self _⟩
  · simp at hb

theorem fit_stepP {s s' : SkipMap K V} (h : Fit s) {op : MapOp K V} {d : Draw} {b : Nat} {o : Option (MapRes K V)}
    (hs : stepP s op d b = some (s', o)) : Fit s' := by
  have keep : ∀ {α : Type} {x : Option α} {f : α → Option (MapRes K V)}, x.map (fun y => (s, f y)) = some (s', o) → Fit s' := by
    intro α x f hx
    obtain ⟨y, -, h2⟩ := Option.map_eq_some_iff.1 hx
    cases h2
    exact h
  have keep' : ∀ {α : Type} {x : Option α} {f : α → MapRes K V},
      (x.map (fun y => (s, f y))).map (fun (s, r) => (s, some r)) = some (s', o) → Fit s' := by
    intro α x f hx
    obtain ⟨y, h1, h2⟩ := Option.map_eq_some_iff.1 hx
    obtain ⟨z, -, h3⟩ := Option.map_eq_some_iff.1 h1
    subst h3
    cases h2
    exact h
  cases op with
  | insert k v =>
    simp only [stepP] at hs
    obtain ⟨⟨s1, r1⟩, h1, h2⟩ := Option.map_eq_some_iff.1 hs
    simp only [Prod.mk.injEq] at h2
    obtain ⟨rfl, -⟩ := h2
    simp only [SkipMap.insertP, Option.bind_eq_bind] at h1
    obtain ⟨⟨w, x⟩, h3, h4⟩ := Option.bind_eq_some_iff.1 h1
    cases h4
    have h5 := downFromP_thins (fun _ _ _ _ _ => insertLevelP_thins) h3
    refine Fit.thins (s := ⟨_, s.head, s.len, s.bump + d.2 + 1⟩) ?_ h5 (Nat.le_refl _)
    intro a n ha
    simp only [Heap.put] at ha
    split at ha
    · rename_i e
      subst e
      cases ha
      have := d.1.isLt
      refine ⟨by simp only [List.length_replicate, maxHeight]; omega, Nat.lt_succ_self _⟩
    · obtain ⟨h6, h7⟩ := h a n ha
      exact ⟨h6, Nat.lt_of_lt_of_le h7 (Nat.le_trans (Nat.le_add_right _ _) (Nat.le_succ _))⟩
  | remove k =>
    simp only [stepP] at hs
    obtain ⟨⟨s1, r1⟩, h1, h2⟩ := Option.map_eq_some_iff.1 hs
    simp only [Prod.mk.injEq] at h2
    obtain ⟨rfl, -⟩ := h2
    simp only [SkipMap.removeP, Option.bind_eq_bind] at h1
    obtain ⟨⟨w, x⟩, h3, h4⟩ := Option.bind_eq_some_iff.1 h1
    cases h4
    exact h.thins (downFromP_thins (fun _ _ _ _ _ => removeLevelP_thins) h3) (Nat.le_refl _)
  | getMut k f =>
    simp only [stepP] at hs
    obtain ⟨⟨s1, r1⟩, h1, h2⟩ := Option.map_eq_some_iff.1 hs
    simp only [Prod.mk.injEq] at h2
    obtain ⟨rfl, -⟩ := h2
    unfold SkipMap.getMutP at h1
    split at h1
    · simp at h1
    · cases h1; exact h
    · cases h1; exact h
    · obtain ⟨⟨m, e⟩, h3, h4⟩ := Option.map_eq_some_iff.1 h1
      cases h4
      exact h.thins (modifyAt_thins h3) (Nat.le_refl _)
  | clear =>
    simp only [stepP, step] at hs
    obtain ⟨⟨s1, r1⟩, h1, h2⟩ := Option.map_eq_some_iff.1 hs
    obtain ⟨s2, h3, h4⟩ := Option.map_eq_some_iff.1 h1
    cases h4
    cases h2
    simp only [SkipMap.clear, Option.bind_eq_bind] at h3
    obtain ⟨l, -, h3⟩ := Option.bind_eq_some_iff.1 h3
    obtain ⟨m1, h5, h3⟩ := Option.bind_eq_some_iff.1 h3
    obtain ⟨m2, h6, h3⟩ := Option.bind_eq_some_iff.1 h3
    cases h3
    exact h.thins ((freeAll_thins h5).trans (zeroLinks_thins h6)) (Nat.le_refl _)
  | get k => exact keep hs
  | containsKey k => exact keep hs
  | floor k => exact keep hs
  | ceil k => exact keep hs
  | min => exact keep' hs
  | max => exact keep' hs
  | iter => exact keep' hs
  | len => cases hs; exact h
  | isEmpty => cases hs; exact h

end Verif.Skip.Map.Torn
