/- `SkipMap` with keys that are compared by rank (C82). -/
import Verif.Skip.MapLawless
import Verif.Skip.MapProps
import Verif.Spec.RankedLemmas

namespace Verif.Skip.Map

open Verif.Spec

variable {K V L : Type} (rank : K → L)

/-- A node of the map of ranks. -/
def tagN (n : Node (K × V) (Option Addr)) : Node (L × (K × V)) (Option Addr) := ⟨n.entry.map (tagE rank), n.links⟩

/-- The memory of the map of ranks. -/
def tagH (m : MHeap K V) : MHeap L (K × V) := fun a => (m a).map (tagN rank)

theorem tag_put (m : MHeap K V) (a : Addr) (n : Node (K × V) (Option Addr)) :
    Heap.put (tagH rank m) a (tagN rank n) = tagH rank (m.put a n) := by
  funext b; simp only [Heap.put, tagH]; split <;> rfl

theorem tag_getLink (m : MHeap K V) (a : Addr) (i : Nat) : getLink (tagH rank m) a i = getLink m a i := by
  simp only [getLink, tagH]; cases m a <;> rfl

theorem tag_entryAt (m : MHeap K V) (a : Addr) : entryAt (tagH rank m) a = (entryAt m a).map (tagE rank) := by
  simp only [entryAt, tagH]; cases m a <;> rfl

theorem tag_free (m : MHeap K V) (a : Addr) : Heap.free (tagH rank m) a = (m.free a).map (tagH rank) := by
  simp only [Heap.free]
  have : tagH rank m a = (m a).map (tagN rank) := rfl
  rw [this]
  cases m a with
  | none => rfl
  | some n =>
    simp only [Option.map_some, Option.some.injEq]
    funext b; simp only [tagH]; split <;> rfl

theorem tag_setLink (m : MHeap K V) (a : Addr) (i : Nat) (l : Option Addr) :
    setLink (tagH rank m) a i l = (setLink m a i l).map (tagH rank) := by
  simp only [setLink]
  have : tagH rank m a = (m a).map (tagN rank) := rfl
  rw [this]
  cases m a with
  | none => rfl
  | some n =>
    simp only [Option.map_some]
    have : (tagN rank n).links = n.links := rfl
    rw [this]
    split
    · rw [Option.map_some, ← tag_put]; rfl
    · rfl

theorem tag_zeroLinks (m : MHeap K V) (a : Addr) :
    zeroLinks (tagH rank m) none a = (zeroLinks m none a).map (tagH rank) := by
  simp only [zeroLinks]
  have : tagH rank m a = (m a).map (tagN rank) := rfl
  rw [this]
  cases m a with
  | none => rfl
  | some n => simp only [Option.map_some]; rw [← tag_put]; rfl

theorem tag_walk (m : MHeap K V) (p : L × (K × V) → Bool) (i f : Nat) (cur : Addr) :
    walk (tagH rank m) p i f cur = walk m (fun e => p (tagE rank e)) i f cur := by
  induction f generalizing cur with
  | zero => rfl
  | succ f ih =>
    simp only [walk, tag_getLink]
    cases getLink m cur i with
    | none => rfl
    | some o =>
      cases o with
      | none => rfl
      | some b =>
        simp only [tag_entryAt]
        cases entryAt m b with
        | none => rfl
        | some e => simp only [Option.map_some, ih]

/-- The locals of the map of ranks. -/
def tagW (w : Work K V) : Work L (K × V) := ⟨tagH rank w.mem, w.cur, w.ret.map (tagE rank), w.len⟩

/-- The answers for a key with that rank. -/
def pull (c : Answers L) : Answers K := ⟨fun i x => c.lt i (rank x), fun i x => c.eq i (rank x), fun i x => c.le i (rank x)⟩

theorem tag_release (i : Nat) (b : Addr) (e : K × V) (w : Work K V) :
    release i b (tagE rank e) (tagW rank w) = (release i b e w).map (tagW rank) := by
  cases i with
  | succ i => rfl
  | zero =>
    simp only [release, tagW, tag_free]
    cases w.mem.free b with
    | none => rfl
    | some m => cases w.len <;> rfl

theorem tag_unlink (c : Answers L) (i : Nat) (w : Work K V) (o : Option Addr) :
    unlinkL (c.eq i) i (tagW rank w) o = (unlinkL ((pull rank c).eq i) i w o).map (tagW rank) := by
  cases o with
  | none => rfl
  | some b =>
    have hm : (tagW rank w).mem = tagH rank w.mem := rfl
    have hc : (tagW rank w).cur = w.cur := rfl
    simp only [unlinkL, hm, hc, tag_entryAt]
    cases entryAt w.mem b with
    | none => rfl
    | some e =>
      simp only [Option.map_some]
      have : (pull rank c).eq i e.1 = c.eq i (tagE rank e).1 := rfl
      rw [this]
      split
      · simp only [tag_getLink, tag_setLink, Option.bind_eq_bind]
        cases getLink w.mem b i with
        | none => rfl
        | some l =>
          simp only [Option.bind_some]
          cases setLink w.mem w.cur i l with
          | none => rfl
          | some m => exact tag_release rank i b e { w with mem := m }
      · rfl

theorem tag_linkNew (new : Addr) (nh i : Nat) (w : Work K V) :
    linkNew new nh i (tagW rank w) = (linkNew new nh i w).map (tagW rank) := by
  have hm : (tagW rank w).mem = tagH rank w.mem := rfl
  have hc : (tagW rank w).cur = w.cur := rfl
  simp only [linkNew, hm, hc]
  split
  · simp only [tag_getLink, Option.bind_eq_bind]
    cases getLink w.mem w.cur i with
    | none => rfl
    | some l =>
      simp only [Option.bind_some, tag_setLink]
      cases setLink w.mem w.cur i (some new) with
      | none => rfl
      | some m =>
        simp only [Option.map_some, Option.bind_some, tag_setLink]
        cases setLink m new i l <;> rfl
  · rfl

theorem tag_removeLevel (fuel : Nat) (c : Answers L) (i : Nat) (w : Work K V) :
    removeLevelL fuel c i (tagW rank w) = (removeLevelL fuel (pull rank c) i w).map (tagW rank) := by
  have hm : (tagW rank w).mem = tagH rank w.mem := rfl
  have hc : (tagW rank w).cur = w.cur := rfl
  simp only [removeLevelL, hm, hc, tag_walk]
  have : (fun e : K × V => c.lt i (tagE rank e).1) = fun e => (pull rank c).lt i e.1 := rfl
  rw [this]
  cases walk w.mem (fun e => (pull rank c).lt i e.1) i fuel w.cur with
  | none => rfl
  | some p => exact tag_unlink rank c i { w with cur := p.1 } p.2

theorem tag_insertLevel (fuel : Nat) (new : Addr) (nh : Nat) (c : Answers L) (i : Nat) (w : Work K V) :
    insertLevelL fuel new nh c i (tagW rank w) = (insertLevelL fuel new nh (pull rank c) i w).map (tagW rank) := by
  have hm : (tagW rank w).mem = tagH rank w.mem := rfl
  have hc : (tagW rank w).cur = w.cur := rfl
  simp only [insertLevelL, hm, hc, tag_walk]
  have : (fun e : K × V => c.lt i (tagE rank e).1) = fun e => (pull rank c).lt i e.1 := rfl
  rw [this]
  cases walk w.mem (fun e => (pull rank c).lt i e.1) i fuel w.cur with
  | none => rfl
  | some p =>
    simp only [Option.bind_eq_bind, Option.bind_some]
    have h := tag_unlink rank c i { w with cur := p.1 } p.2
    rw [show unlinkL (c.eq i) i ⟨tagH rank w.mem, p.1, (tagW rank w).ret, (tagW rank w).len⟩ p.2 = _ from h]
    cases unlinkL ((pull rank c).eq i) i { w with cur := p.1 } p.2 with
    | none => rfl
    | some w' => simp only [Option.map_some, Option.bind_some, tag_linkNew]

theorem tag_downFrom {B : Nat → Work L (K × V) → Option (Work L (K × V))} {B' : Nat → Work K V → Option (Work K V)}
    (h : ∀ i w, B i (tagW rank w) = (B' i w).map (tagW rank)) (i : Nat) (w : Work K V) :
    downFrom B i (tagW rank w) = (downFrom B' i w).map (tagW rank) := by
  induction i generalizing w with
  | zero => exact h 0 w
  | succ i ih =>
    simp only [downFrom, h]
    cases B' (i + 1) w with
    | none => rfl
    | some w' => simp only [Option.map_some, Option.bind_eq_bind, Option.bind_some, ih]

/-- The map of ranks. -/
def tagS (s : SkipMap K V) : SkipMap L (K × V) := ⟨tagH rank s.mem, s.head, s.len, s.bump⟩

/-- The map and the entry that are returned, for the map of ranks. -/
def tagRet (p : SkipMap K V × Option (K × V)) : SkipMap L (K × V) × Option (L × (K × V)) :=
  (tagS rank p.1, p.2.map (tagE rank))

theorem tag_new (a : Addr) : tagS rank (SkipMap.new a : SkipMap K V) = SkipMap.new a := by
  simp only [tagS, SkipMap.new, SkipMap.mk.injEq, and_true]
  rw [← tag_put]; rfl

theorem tag_insert (s : SkipMap K V) (k : K) (v : V) (c : Answers L) (nh off : Nat) :
    (tagS rank s).insertL (rank k) (k, v) c nh off = (s.insertL k v (pull rank c) nh off).map (tagRet rank) := by
  simp only [SkipMap.insertL, tagS]
  have h := tag_downFrom rank (tag_insertLevel rank (s.len + 1) (s.bump + off) nh c) maxHeight
    ⟨s.mem.put (s.bump + off) ⟨some (k, v), List.replicate (nh + 1) none⟩, s.head, none, s.len + 1⟩
  simp only [tagW, ← tag_put] at h
  rw [show downFrom (insertLevelL (s.len + 1) (s.bump + off) nh c) maxHeight
    ⟨Heap.put (tagH rank s.mem) (s.bump + off) ⟨some (rank k, k, v), List.replicate (nh + 1) none⟩, s.head, none, s.len + 1⟩ = _ from h]
  cases downFrom (insertLevelL (s.len + 1) (s.bump + off) nh (pull rank c)) maxHeight
    ⟨s.mem.put (s.bump + off) ⟨some (k, v), List.replicate (nh + 1) none⟩, s.head, none, s.len + 1⟩ <;> rfl

theorem tag_remove (s : SkipMap K V) (c : Answers L) :
    (tagS rank s).removeL c = (s.removeL (pull rank c)).map (tagRet rank) := by
  simp only [SkipMap.removeL, tagS]
  have h := tag_downFrom rank (tag_removeLevel rank (s.len + 1) c) maxHeight ⟨s.mem, s.head, none, s.len⟩
  rw [show downFrom (removeLevelL (s.len + 1) c) maxHeight ⟨tagH rank s.mem, s.head, none, s.len⟩ = _ from h]
  cases downFrom (removeLevelL (s.len + 1) (pull rank c)) maxHeight ⟨s.mem, s.head, none, s.len⟩ <;> rfl

theorem tag_hit (m : MHeap K V) (c : Answers L) (i : Nat) (o : Option Addr) :
    hitL (tagH rank m) (c.eq i) o = hitL m ((pull rank c).eq i) o := by
  cases o with
  | none => rfl
  | some b =>
    simp only [hitL, tag_entryAt]
    cases entryAt m b <;> rfl

theorem tag_lookup (m : MHeap K V) (c : Answers L) (fuel i : Nat) (cur : Addr) :
    lookupL (tagH rank m) c fuel i cur = lookupL m (pull rank c) fuel i cur := by
  induction i generalizing cur with
  | zero =>
    rw [lookupL.eq_def, lookupL.eq_def m]
    simp only [tag_walk, tag_hit]; rfl
  | succ i ih =>
    rw [lookupL.eq_def, lookupL.eq_def m]
    simp only [tag_walk, tag_hit, ih]; rfl

theorem tag_get (s : SkipMap K V) (c : Answers L) :
    (tagS rank s).getL c = (s.getL (pull rank c)).map fun o => o.map (tagE rank) := by
  simp only [SkipMap.getL, tagS, tag_lookup]
  cases lookupL s.mem (pull rank c) (s.len + 1) (startHeight s.len) s.head with
  | none => rfl
  | some o =>
    cases o with
    | none => rfl
    | some b =>
      simp only [Option.bind_eq_bind, Option.bind_some, tag_entryAt]
      cases entryAt s.mem b <;> rfl

theorem tag_modifyAt (m : MHeap K V) (b : Addr) (f : V → V) :
    modifyAt (tagH rank m) b (fun e => (e.1, f e.2)) =
      (modifyAt m b f).map fun p => (tagH rank p.1, tagE rank p.2) := by
  have : tagH rank m b = (m b).map (tagN rank) := rfl
  simp only [modifyAt, this]
  cases m b with
  | none => rfl
  | some n =>
    obtain ⟨e, ls⟩ := n
    cases e with
    | none => rfl
    | some e => simp only [Option.map_some, ← tag_put]; rfl

theorem tag_getMut (s : SkipMap K V) (c : Answers L) (f : V → V) :
    (tagS rank s).getMutL c (fun e => (e.1, f e.2)) = (s.getMutL (pull rank c) f).map (tagRet rank) := by
  have hl : (tagS rank s).len = s.len := rfl
  have hm : (tagS rank s).mem = tagH rank s.mem := rfl
  have hh : (tagS rank s).head = s.head := rfl
  simp only [SkipMap.getMutL, hl, hm, hh, tag_lookup]
  cases lookupL s.mem (pull rank c) (s.len + 1) (startHeight s.len) s.head with
  | none => rfl
  | some o =>
    cases o with
    | none => rfl
    | some b =>
      simp only [Option.bind_eq_bind, Option.bind_some, tag_modifyAt]
      cases modifyAt s.mem b f <;> rfl

theorem tag_descend (m : MHeap K V) (p : Nat → L × (K × V) → Bool) (fuel i : Nat) (cur : Addr) :
    descendL (tagH rank m) p fuel i cur = descendL m (fun i e => p i (tagE rank e)) fuel i cur := by
  induction i generalizing cur with
  | zero => exact tag_walk rank m _ 0 fuel cur
  | succ i ih => simp only [descendL, tag_walk, ih]

theorem tag_orHead (s : SkipMap K V) (a : Addr) :
    orHead (tagS rank s) a = (orHead s a).map fun o => o.map (tagE rank) := by
  have hm : (tagS rank s).mem = tagH rank s.mem := rfl
  have hh : (tagS rank s).head = s.head := rfl
  simp only [orHead, hm, hh, tag_entryAt]
  split
  · rfl
  · cases entryAt s.mem a <;> rfl

theorem tag_orNull (s : SkipMap K V) (o : Option Addr) :
    orNull (tagS rank s) o = (orNull s o).map fun o => o.map (tagE rank) := by
  have hm : (tagS rank s).mem = tagH rank s.mem := rfl
  cases o with
  | none => rfl
  | some a =>
    simp only [orNull, hm, tag_entryAt]
    cases entryAt s.mem a <;> rfl

theorem tag_floor (s : SkipMap K V) (c : Answers L) :
    (tagS rank s).floorL c = (s.floorL (pull rank c)).map fun o => o.map (tagE rank) := by
  have hl : (tagS rank s).len = s.len := rfl
  have hm : (tagS rank s).mem = tagH rank s.mem := rfl
  have hh : (tagS rank s).head = s.head := rfl
  simp only [SkipMap.floorL, hl, hm, hh, tag_descend]
  have : (fun (i : Nat) (e : K × V) => c.le i (tagE rank e).1) = fun i e => (pull rank c).le i e.1 := rfl
  rw [this]
  cases descendL s.mem (fun i e => (pull rank c).le i e.1) (s.len + 1) (startHeight s.len) s.head with
  | none => rfl
  | some p => exact tag_orHead rank s p.1

theorem tag_ceil (s : SkipMap K V) (c : Answers L) :
    (tagS rank s).ceilL c = (s.ceilL (pull rank c)).map fun o => o.map (tagE rank) := by
  have hl : (tagS rank s).len = s.len := rfl
  have hm : (tagS rank s).mem = tagH rank s.mem := rfl
  have hh : (tagS rank s).head = s.head := rfl
  simp only [SkipMap.ceilL, hl, hm, hh, tag_descend]
  have : (fun (i : Nat) (e : K × V) => c.lt i (tagE rank e).1) = fun i e => (pull rank c).lt i e.1 := rfl
  rw [this]
  cases descendL s.mem (fun i e => (pull rank c).lt i e.1) (s.len + 1) (startHeight s.len) s.head with
  | none => rfl
  | some p => exact tag_orNull rank s p.2

theorem tag_min (s : SkipMap K V) : (tagS rank s).min = s.min.map fun o => o.map (tagE rank) := by
  have hm : (tagS rank s).mem = tagH rank s.mem := rfl
  have hh : (tagS rank s).head = s.head := rfl
  simp only [SkipMap.min, hm, hh, tag_getLink]
  cases getLink s.mem s.head 0 with
  | none => rfl
  | some o => exact tag_orNull rank s o

theorem tag_max (s : SkipMap K V) : (tagS rank s).max = s.max.map fun o => o.map (tagE rank) := by
  have hl : (tagS rank s).len = s.len := rfl
  have hm : (tagS rank s).mem = tagH rank s.mem := rfl
  have hh : (tagS rank s).head = s.head := rfl
  simp only [SkipMap.max, hl, hm, hh, ← descend_const, tag_descend]
  cases descendL s.mem (fun _ _ => true) (s.len + 1) (startHeight s.len) s.head with
  | none => rfl
  | some p => exact tag_orHead rank s p.1

theorem tag_collect (m : MHeap K V) (f : Nat) (o : Option Addr) :
    collect (tagH rank m) f o = (collect m f o).map fun l => l.map (tagE rank) := by
  induction f generalizing o with
  | zero => cases o <;> rfl
  | succ f ih =>
    cases o with
    | none => rfl
    | some a =>
      simp only [collect, tag_entryAt, tag_getLink]
      cases entryAt m a with
      | none => rfl
      | some e =>
        cases getLink m a 0 with
        | none => rfl
        | some o =>
          simp only [Option.map_some, Option.bind_eq_bind, Option.bind_some, ih]
          cases collect m f o <;> rfl

theorem tag_iter (s : SkipMap K V) : (tagS rank s).iter = s.iter.map fun l => l.map (tagE rank) := by
  have hl : (tagS rank s).len = s.len := rfl
  have hm : (tagS rank s).mem = tagH rank s.mem := rfl
  have hh : (tagS rank s).head = s.head := rfl
  simp only [SkipMap.iter, hl, hm, hh, tag_getLink]
  cases getLink s.mem s.head 0 with
  | none => rfl
  | some o => exact tag_collect rank s.mem s.len o

theorem tag_freeAll (f : Nat) (m : MHeap K V) (o : Option Addr) :
    freeAll (tagH rank m) f o = (freeAll m f o).map (tagH rank) := by
  induction f generalizing m o with
  | zero => cases o <;> rfl
  | succ f ih =>
    cases o with
    | none => rfl
    | some a =>
      simp only [freeAll, tag_getLink, tag_free]
      cases getLink m a 0 with
      | none => rfl
      | some o =>
        simp only [Option.bind_eq_bind, Option.bind_some]
        cases m.free a with
        | none => rfl
        | some m' => simp only [Option.map_some, Option.bind_some, ih]

theorem tag_clear (s : SkipMap K V) : (tagS rank s).clear = s.clear.map (tagS rank) := by
  have hl : (tagS rank s).len = s.len := rfl
  have hm : (tagS rank s).mem = tagH rank s.mem := rfl
  have hh : (tagS rank s).head = s.head := rfl
  simp only [SkipMap.clear, hl, hm, hh, tag_getLink]
  cases getLink s.mem s.head 0 with
  | none => rfl
  | some o =>
    simp only [Option.bind_eq_bind, Option.bind_some, tag_freeAll]
    cases freeAll s.mem s.len o with
    | none => rfl
    | some m =>
      simp only [Option.map_some, Option.bind_some, tag_zeroLinks]
      cases zeroLinks m none s.head <;> rfl

variable [LinearOrder L]

theorem pull_ranked (k : K) : Answers.ranked rank k = pull rank (lawful (rank k)) := rfl

/-- A call on the ranked keys is the call on the map of ranks. -/
theorem stepL_tag (s : SkipMap K V) (op : RankOp K V) (d : Draw) {t' r'}
    (h : step (tagS rank s) (op.tag rank) d = some (t', r')) :
    ∃ t r, stepL s (op.lcall rank) d = some (t, r) ∧ t' = tagS rank t ∧ ResTag rank r r' := by
  cases op with
  | insert k v =>
    simp only [RankOp.tag, step, ← lawful_insert, tag_insert, Option.map_map, Option.map_eq_some_iff] at h
    obtain ⟨p, h1, h2⟩ := h
    cases h2
    exact ⟨p.1, .pair p.2, by simp only [RankOp.lcall, stepL, pull_ranked, h1]; rfl, rfl, rfl⟩
  | remove k =>
    simp only [RankOp.tag, step, ← lawful_remove, tag_remove, Option.map_map, Option.map_eq_some_iff] at h
    obtain ⟨p, h1, h2⟩ := h
    cases h2
    exact ⟨p.1, .pair p.2, by simp only [RankOp.lcall, stepL, pull_ranked, h1]; rfl, rfl, rfl⟩
  | get k =>
    simp only [RankOp.tag, step, ← lawful_get, tag_get, Option.map_map, Option.map_eq_some_iff] at h
    obtain ⟨o, h1, h2⟩ := h
    cases h2
    exact ⟨s, .val (o.map (·.2)), by simp only [RankOp.lcall, stepL, pull_ranked, h1]; rfl, rfl, _, rfl,
      by cases o <;> rfl⟩
  | getMut k f =>
    simp only [RankOp.tag, step, ← lawful_getMut, tag_getMut, Option.map_map, Option.map_eq_some_iff] at h
    obtain ⟨p, h1, h2⟩ := h
    cases h2
    exact ⟨p.1, .val (p.2.map (·.2)), by simp only [RankOp.lcall, stepL, pull_ranked, h1]; rfl, rfl, _, rfl,
      by simp only [tagRet]; cases p.2 <;> rfl⟩
  | floor k =>
    simp only [RankOp.tag, step, ← lawful_floor, tag_floor, Option.map_map, Option.map_eq_some_iff] at h
    obtain ⟨o, h1, h2⟩ := h
    cases h2
    exact ⟨s, .key (o.map (·.1)), by simp only [RankOp.lcall, stepL, pull_ranked, h1]; rfl, rfl,
      by cases o <;> rfl⟩
  | ceil k =>
    simp only [RankOp.tag, step, ← lawful_ceil, tag_ceil, Option.map_map, Option.map_eq_some_iff] at h
    obtain ⟨o, h1, h2⟩ := h
    cases h2
    exact ⟨s, .key (o.map (·.1)), by simp only [RankOp.lcall, stepL, pull_ranked, h1]; rfl, rfl,
      by cases o <;> rfl⟩
  | min =>
    simp only [RankOp.tag, step, tag_min, Option.map_map, Option.map_eq_some_iff] at h
    obtain ⟨o, h1, h2⟩ := h
    cases h2
    exact ⟨s, .key (o.map (·.1)), by simp only [RankOp.lcall, stepL, h1]; rfl, rfl, by cases o <;> rfl⟩
  | max =>
    simp only [RankOp.tag, step, tag_max, Option.map_map, Option.map_eq_some_iff] at h
    obtain ⟨o, h1, h2⟩ := h
    cases h2
    exact ⟨s, .key (o.map (·.1)), by simp only [RankOp.lcall, stepL, h1]; rfl, rfl, by cases o <;> rfl⟩
  | len =>
    cases h
    exact ⟨s, .num s.len, rfl, rfl, rfl⟩
  | iter =>
    simp only [RankOp.tag, step, tag_iter, Option.map_map, Option.map_eq_some_iff] at h
    obtain ⟨l, h1, h2⟩ := h
    cases h2
    exact ⟨s, .list l, by simp only [RankOp.lcall, stepL, h1]; rfl, rfl, rfl⟩
  | clear =>
    simp only [RankOp.tag, step, tag_clear, Option.map_map, Option.map_eq_some_iff] at h
    obtain ⟨t, h1, h2⟩ := h
    cases h2
    exact ⟨t, .unit, by simp only [RankOp.lcall, stepL, h1]; rfl, rfl, rfl⟩

/-- A good map of ranks makes a map that is right for the ranked keys. -/
theorem ranked_of_represents {s : SkipMap K V} {T : List (Tower (L × (K × V)))} {M : AMap L (K × V)}
    (hg : Good (tagS rank s) T) (hM : Rp (tagS rank s) M) :
    RankRepresents rank (fun s op (d : Draw) => stepL s (op.lcall rank) d) s M := by
  have inside : ∀ {s : SkipMap K V} {T : List (Tower (L × (K × V)))}, Good (tagS rank s) T →
      ∀ {l : List (K × V)} {t : SkipMap K V} {d : Draw}, stepL s (RankOp.lcall rank .iter) d = some (t, .list l) →
      ∀ {e : K × V}, tagE rank e ∈ T.map (·.e) → e ∈ l := by
    intro s T hg l t d hi e he
    have h1 := iter_ok hg
    rw [tag_iter] at h1
    obtain ⟨l', h2, h3⟩ := Option.map_eq_some_iff.1 h1
    simp only [RankOp.lcall, stepL, h2, Option.map_some, Option.some.injEq, Prod.mk.injEq, LRes.list.injEq] at hi
    rw [← h3, hi.2] at he
    obtain ⟨e', h4, h5⟩ := List.mem_map.1 he
    exact (Prod.mk.inj h5).2 ▸ h4
  have found : ∀ {s : SkipMap K V} {T : List (Tower (L × (K × V)))} {o o' : Option (Option (K × V))}
      {x : Option (L × (K × V))} {t : SkipMap K V} {k : K}, o = o' →
      o.map (fun o => o.map (tagE rank)) = some x → (∀ y, x = some y → y ∈ T.map (·.e)) →
      o'.map (fun o => ((s, .key (o.map (·.1))) : SkipMap K V × LRes K V)) = some (t, .key (some k)) →
      ∃ e : K × V, e.1 = k ∧ tagE rank e ∈ T.map (·.e) := by
    rintro s T o _ x t k rfl h1 h2 h3
    obtain ⟨u, rfl, h4⟩ := Option.map_eq_some_iff.1 h1
    simp only [Option.map_some, Option.some.injEq, Prod.mk.injEq, LRes.key.injEq] at h3
    cases u with
    | none => simp at h3
    | some e =>
      refine ⟨e, by simpa using h3.2, h2 _ h4.symm⟩
  refine rankRepresents_of_tag (impl L (K × V) 0) (D := Draw) id
    (fun s s' => s' = tagS rank s ∧ ∃ T, Good s' T) ?_ ?_ ⟨rfl, T, hg⟩ hM
  · rintro s _ op d t' r' ⟨rfl, T, hT⟩ h
    obtain ⟨t, r, h1, h2, h3⟩ := stepL_tag rank s op d h
    obtain ⟨s', T', g1, g2, _⟩ := step_ok hT (op.tag rank) d
    have h : step (tagS rank s) (op.tag rank) d = some (t', r') := h
    rw [g1] at h
    cases h
    exact ⟨t, r, h1, ⟨h2, T', g2⟩, h3⟩
  · rintro s _ op d t k t' l ⟨rfl, T, hT⟩ hop h hi
    have conclude : (∃ e : K × V, e.1 = k ∧ tagE rank e ∈ T.map (·.e)) → ∃ v, (k, v) ∈ l := by
      rintro ⟨e, rfl, he⟩
      exact ⟨e.2, inside hT hi he⟩
    refine conclude ?_
    cases op with
    | floor k' =>
      have h1 := floor_ok hT (rank k')
      rw [← lawful_floor, tag_floor] at h1
      exact found (pull_ranked rank k' ▸ rfl) h1 (fun y hy => by
        unfold SL.floor at hy
        exact (List.mem_filter.1 (List.mem_of_getLast? hy)).1) h
    | ceil k' =>
      have h1 := ceil_ok hT (rank k')
      rw [← lawful_ceil, tag_ceil] at h1
      exact found (pull_ranked rank k' ▸ rfl) h1 (fun y hy => List.mem_of_find?_eq_some hy) h
    | min =>
      have h1 := min_ok hT
      rw [tag_min] at h1
      exact found rfl h1 (fun y hy => List.mem_of_mem_head? hy) h
    | max =>
      have h1 := max_ok hT
      rw [tag_max] at h1
      exact found rfl h1 (fun y hy => List.mem_of_getLast? hy) h
    | _ => exact absurd hop id

/-- C82 for `SkipMap`: with keys that are compared by their rank it is a map with one entry per rank. -/
theorem C82_skip (a : Addr) :
    RankCorrect rank (SkipMap.new a : SkipMap K V) fun s op (d : Draw) => stepL s (op.lcall rank) d := by
  have h : Good (tagS rank (SkipMap.new a : SkipMap K V)) [] := by rw [tag_new]; exact good_new a
  exact ranked_of_represents rank h (good_represents h)

/-- Keys with the same tens compare equal: the last `insert` replaces the key 14 by 17 and hands 14 out; `get_mut` and
`remove` with 12 work on the entry of 17. -/
example : (runRanked (fun s op d => stepL s (op.lcall fun n => n / 10) d) (SkipMap.new 5 : SkipMap Nat String)
    [(.insert 14 "a", (0, 0)), (.insert 31 "b", (1, 1)), (.insert 17 "c", (2, 2)), (.floor 29, (0, 3)), (.ceil 28, (1, 4)),
      (.getMut 12 fun v => v ++ "!", (0, 0)), (.remove 12, (0, 0)), (.min, (0, 0)), (.len, (0, 0))]).map
      (fun p => p.2.map (·.2)) =
    some [.pair none, .pair none, .pair (some (14, "a")), .key (some 17), .key (some 31), .val (some "c"),
      .pair (some (17, "c!")), .key (some 31), .num 1] := by decide +kernel

end Verif.Skip.Map
