/- `SkipMap` when a comparison of keys panics and the client catches the panic (C74).

The functions of `Skip.MapModel` once more: the first `b` comparisons of keys of a call return, the next one panics.
All changes made to memory before the panic stay. -/
import Verif.Skip.MapSim
import Verif.Lib.PanicSim

namespace Verif.Skip.Map

open Verif.Spec Verif.SL

variable {K V : Type}

/-- The inner loop of a descent (see `walk`), one comparison per node looked at.  The outer `none` is undefined
behaviour; the inner one says that the comparison panicked; the number is what is left of `b`. -/
def walkP (m : MHeap K V) (p : K × V → Bool) (i : Nat) :
    Nat → Nat → Addr → Option (Option ((Addr × Option Addr) × Nat))
  | 0, _, _ => none
  | f + 1, b, cur =>
    match getLink m cur i with
    | none => none
    | some none => some (some ((cur, none), b))
    | some (some a) =>
      match entryAt m a with
      | none => none
      | some e =>
        match b with
        | 0 => some none
        | b + 1 => if p e then walkP m p i f b a else some (some ((cur, some a), b))

variable [LinearOrder K]

/-- map.rs:160-172, 219-231 (see `unlink`): one more comparison (`==`) if there is a next node. -/
def unlinkP (key : K) (i : Nat) (b : Nat) (w : Work K V) (nxt : Option Addr) : Option (Option (Work K V × Nat)) :=
  match nxt, b with
  | none, b => (unlink key i w none).map fun w => some (w, b)
  | some _, 0 => some none
  | some a, b + 1 => (unlink key i w (some a)).map fun w => some (w, b)

/-- map.rs:212-232 (see `removeLevel`).  Nothing is written before the last comparison of the level. -/
def removeLevelP (fuel : Nat) (key : K) (i : Nat) (b : Nat) (w : Work K V) : Option (Option (Work K V × Nat)) :=
  match walkP w.mem (fun e => decide (e.1 < key)) i fuel b w.cur with
  | none => none
  | some none => some none
  | some (some ((cur, nxt), b)) => unlinkP key i b { w with cur := cur } nxt

/-- map.rs:153-178 (see `insertLevel`). -/
def insertLevelP (fuel : Nat) (new : Addr) (nh : Nat) (key : K) (i : Nat) (b : Nat) (w : Work K V) :
    Option (Option (Work K V × Nat)) :=
  match removeLevelP fuel key i b w with
  | none => none
  | some none => some none
  | some (some (w, b)) => (linkNew new nh i w).map fun w => some (w, b)

omit [LinearOrder K] in
/-- The outer loops (see `downFrom`): the locals at the end, and what is left of `b`, or the level at which a
comparison panicked. -/
def downFromP (body : Nat → Nat → Work K V → Option (Option (Work K V × Nat))) :
    Nat → Nat → Work K V → Option (Work K V × Except Nat Nat)
  | 0, b, w =>
    match body 0 b w with
    | none => none
    | some none => some (w, .error 0)
    | some (some (w', b')) => some (w', .ok b')
  | i + 1, b, w =>
    match body (i + 1) b w with
    | none => none
    | some none => some (w, .error (i + 1))
    | some (some (w', b')) => downFromP body i b' w'

/-- map.rs:141-187 `insert`: the map afterwards and the result, or the level at which a comparison panicked.  The
length is incremented and the node allocated before the first comparison; the node is linked level by level. -/
def SkipMap.insertP (s : SkipMap K V) (key : K) (value : V) (nh off : Nat) (b : Nat) :
    Option (SkipMap K V × Except Nat (Option (K × V))) := do
  let new := s.bump + off
  let mem := s.mem.put new ⟨some (key, value), List.replicate (nh + 1) none⟩
  let (w, o) ← downFromP (insertLevelP (s.len + 1) new nh key) maxHeight b ⟨mem, s.head, none, s.len + 1⟩
  return (⟨w.mem, s.head, w.len, new + 1⟩, o.map fun _ => w.ret)

/-- map.rs:202-241 `remove`. -/
def SkipMap.removeP (s : SkipMap K V) (key : K) (b : Nat) : Option (SkipMap K V × Except Nat (Option (K × V))) := do
  let (w, o) ← downFromP (removeLevelP (s.len + 1) key) maxHeight b ⟨s.mem, s.head, none, s.len⟩
  return (⟨w.mem, s.head, w.len, s.bump⟩, o.map fun _ => w.ret)

/-- map.rs:281-302, 324-345 (see `lookup`): the inner `none` says that a comparison panicked. -/
def lookupP (m : MHeap K V) (key : K) (fuel : Nat) : Nat → Nat → Addr → Option (Option (Option Addr))
  | i, b, cur =>
    match walkP m (fun e => decide (e.1 < key)) i fuel b cur with
    | none => none
    | some none => some none
    | some (some ((cur', nxt), b)) =>
      match nxt.isSome, b with
      | true, 0 => some none
      | _, b =>
        match hit m key nxt with
        | none => none
        | some (some a) => some (some (some a))
        | some none =>
          match i with
          | 0 => some (some none)
          | i + 1 => lookupP m key fuel i (if nxt.isSome then b - 1 else b) cur'

omit [LinearOrder K] in
/-- map.rs:424-442, 466-484 (see `descend`). -/
def descendP (m : MHeap K V) (p : K × V → Bool) (fuel : Nat) :
    Nat → Nat → Addr → Option (Option (Addr × Option Addr))
  | 0, b, cur => (walkP m p 0 fuel b cur).map fun o => o.map (·.1)
  | i + 1, b, cur =>
    match walkP m p (i + 1) fuel b cur with
    | none => none
    | some none => some none
    | some (some ((cur', _), b)) => descendP m p fuel i b cur'

/-- map.rs:276-304 `get`. -/
def SkipMap.getP (s : SkipMap K V) (key : K) (b : Nat) : Option (Option (Option (K × V))) :=
  match lookupP s.mem key (s.len + 1) (startHeight s.len) b s.head with
  | none => none
  | some none => some none
  | some (some none) => some (some none)
  | some (some (some a)) => (entryAt s.mem a).map fun e => some (some e)

/-- map.rs:319-347 `get_mut`. -/
def SkipMap.getMutP (s : SkipMap K V) (key : K) (f : V → V) (b : Nat) :
    Option (SkipMap K V × Option (Option (K × V))) :=
  match lookupP s.mem key (s.len + 1) (startHeight s.len) b s.head with
  | none => none
  | some none => some (s, none)
  | some (some none) => some (s, some none)
  | some (some (some a)) => (modifyAt s.mem a f).map fun (m, e) => ({ s with mem := m }, some (some e))

/-- map.rs:416-443 `floor`. -/
def SkipMap.floorP (s : SkipMap K V) (key : K) (b : Nat) : Option (Option (Option (K × V))) :=
  match descendP s.mem (fun e => decide (e.1 ≤ key)) (s.len + 1) (startHeight s.len) b s.head with
  | none => none
  | some none => some none
  | some (some (cur, _)) => (orHead s cur).map some

/-- map.rs:458-485 `ceil`. -/
def SkipMap.ceilP (s : SkipMap K V) (key : K) (b : Nat) : Option (Option (Option (K × V))) :=
  match descendP s.mem (fun e => decide (e.1 < key)) (s.len + 1) (startHeight s.len) b s.head with
  | none => none
  | some none => some none
  | some (some (_, nxt)) => (orNull s nxt).map some

omit [LinearOrder K] in
/-- The result of a call, `none` if it panicked. -/
def outcome {α : Type} : Except Nat α → Option α
  | .error _ => none
  | .ok a => some a

/-- The API calls (see `step`), comparison `b + 1` of the call panicking. -/
def stepP (s : SkipMap K V) (op : MapOp K V) (d : Draw) (b : Nat) : Option (SkipMap K V × Option (MapRes K V)) :=
  match op with
  | .insert k v => (s.insertP k v d.1 d.2 b).map fun (s, r) => (s, (outcome r).map .pair)
  | .remove k => (s.removeP k b).map fun (s, r) => (s, (outcome r).map .pair)
  | .get k => (s.getP k b).map fun o => (s, o.map fun o => .val (o.map (·.2)))
  | .containsKey k => (s.getP k b).map fun o => (s, o.map fun o => .bool o.isSome)
  | .getMut k f => (s.getMutP k f b).map fun (s, o) => (s, o.map fun o => .val (o.map (·.2)))
  | .floor k => (s.floorP k b).map fun o => (s, o.map fun o => .key (o.map (·.1)))
  | .ceil k => (s.ceilP k b).map fun o => (s, o.map fun o => .key (o.map (·.1)))
  | op => (step s op d).map fun (s, r) => (s, some r)

/-- `SkipMap` under panicking comparisons; the head of the initial map is at address `a`. -/
def panicImpl (K V : Type) [LinearOrder K] (a : Addr) : PanicImpl K V where
  State := SkipMap K V
  Draw := Draw
  empty := SkipMap.new a
  step := stepP

/-- The call is not an `insert` in which a comparison panics at a level below the new node's height; the node has
been linked at its upper levels then, but not yet at the lower ones. -/
def NotHalfway (s : SkipMap K V) (op : MapOp K V) (d : Draw) (b : Nat) : Prop :=
  match op with
  | .insert k v => ∀ s' i, s.insertP k v d.1 d.2 b = some (s', .error i) → d.1.val ≤ i
  | _ => True

/-! ### Memories with more in them -/

omit [LinearOrder K] in
/-- `m` holds all nodes of `m'`; towers may be taller, and there may be other nodes. -/
def Ext (m m' : MHeap K V) : Prop :=
  ∀ a n', m' a = some n' → ∃ ex, m a = some ⟨n'.entry, n'.links ++ ex⟩

omit [LinearOrder K] in
theorem Ext.refl (m : MHeap K V) : Ext m m := fun _ n h => ⟨[], by simp [h]⟩

omit [LinearOrder K] in
theorem Ext.trans {m₁ m₂ m₃ : MHeap K V} (h : Ext m₁ m₂) (h' : Ext m₂ m₃) : Ext m₁ m₃ := by
  intro a n hn
  obtain ⟨ex, h1⟩ := h' a n hn
  obtain ⟨ex', h2⟩ := h a _ h1
  exact ⟨ex ++ ex', by simp [h2]⟩

omit [LinearOrder K] in
theorem getLink_ext {m m' : MHeap K V} (h : Ext m m') {a : Addr} {i : Nat} {l} (hl : getLink m' a i = some l) :
    getLink m a i = some l := by
  unfold getLink at hl
  cases hm : m' a with
  | none => simp [hm] at hl
  | some n =>
    obtain ⟨ex, h1⟩ := h a n hm
    simp only [hm] at hl
    simp only [getLink, h1]
    obtain ⟨hi, -⟩ := List.getElem?_eq_some_iff.1 hl
    rw [List.getElem?_append_left hi, hl]

omit [LinearOrder K] in
theorem entryAt_ext {m m' : MHeap K V} (h : Ext m m') {a : Addr} {e} (he : entryAt m' a = some e) :
    entryAt m a = some e := by
  unfold entryAt at he
  cases hm : m' a with
  | none => simp [hm] at he
  | some n =>
    obtain ⟨ex, h1⟩ := h a n hm
    simp only [hm] at he
    simp [entryAt, h1, he]

omit [LinearOrder K] in
theorem put_ext {m m' : MHeap K V} (h : Ext m m') (a : Addr) (n n' : Node (K × V) (Option Addr)) (ex)
    (hn : n = ⟨n'.entry, n'.links ++ ex⟩) : Ext (m.put a n) (m'.put a n') := by
  intro b x hx
  by_cases hb : b = a
  · simp only [Heap.put, hb, if_true, Option.some.injEq] at hx ⊢
    subst hx
    exact ⟨ex, hn⟩
  · simp only [Heap.put, hb, if_false] at hx ⊢
    exact h b x hx

omit [LinearOrder K] in
theorem setLink_ext {m m' m₁' : MHeap K V} (h : Ext m m') {a : Addr} {i : Nat} {l}
    (hs : setLink m' a i l = some m₁') : ∃ m₁, setLink m a i l = some m₁ ∧ Ext m₁ m₁' := by
  unfold setLink at hs
  cases hm : m' a with
  | none => simp [hm] at hs
  | some n =>
    obtain ⟨ex, h1⟩ := h a n hm
    simp only [hm] at hs
    split at hs
    · rename_i hi
      cases hs
      refine ⟨_, by simp only [setLink, h1]; rw [if_pos (by simp; omega)], put_ext h a _ _ ex ?_⟩
      simp [List.set_append_left _ _ hi]
    · simp at hs

omit [LinearOrder K] in
theorem free_ext {m m' m₁' : MHeap K V} (h : Ext m m') {a : Addr} (hs : m'.free a = some m₁') :
    ∃ m₁, m.free a = some m₁ ∧ Ext m₁ m₁' := by
  unfold Heap.free at hs
  cases hm : m' a with
  | none => simp [hm] at hs
  | some n =>
    obtain ⟨ex, h1⟩ := h a n hm
    simp only [hm, Option.some.injEq] at hs
    subst hs
    refine ⟨_, by simp only [Heap.free, h1]; rfl, ?_⟩
    intro b x hx
    by_cases hb : b = a
    · simp [hb] at hx
    · simp only [hb, if_false] at hx ⊢
      exact h b x hx

omit [LinearOrder K] in
theorem zeroLinks_ext {m m' m₁' : MHeap K V} (h : Ext m m') {a : Addr} {z} (hs : zeroLinks m' z a = some m₁') :
    ∃ m₁, zeroLinks m z a = some m₁ ∧ Ext m₁ m₁' := by
  unfold zeroLinks at hs
  cases hm : m' a with
  | none => simp [hm] at hs
  | some n =>
    obtain ⟨ex, h1⟩ := h a n hm
    simp only [hm, Option.some.injEq] at hs
    subst hs
    refine ⟨_, by simp only [zeroLinks, h1]; rfl, put_ext h a _ _ (List.replicate ex.length z) ?_⟩
    simp

omit [LinearOrder K] in
theorem modifyAt_ext {m m' m₁' : MHeap K V} (h : Ext m m') {a : Addr} {f : V → V} {e}
    (hs : modifyAt m' a f = some (m₁', e)) : ∃ m₁, modifyAt m a f = some (m₁, e) ∧ Ext m₁ m₁' := by
  unfold modifyAt at hs
  cases hm : m' a with
  | none => simp [hm] at hs
  | some n =>
    obtain ⟨ex, h1⟩ := h a n hm
    obtain ⟨_ | e', ls⟩ := n
    · simp [hm] at hs
    · simp only [hm, Option.some.injEq, Prod.mk.injEq] at hs
      obtain ⟨rfl, rfl⟩ := hs
      exact ⟨_, by simp only [modifyAt, h1], put_ext h a _ _ ex rfl⟩

omit [LinearOrder K] in
theorem walk_ext {m m' : MHeap K V} (h : Ext m m') {p : K × V → Bool} {i : Nat} {f f' : Nat} (hf : f' ≤ f) {cur : Addr}
    {r} (hw : walk m' p i f' cur = some r) : walk m p i f cur = some r := by
  induction f' generalizing f cur with
  | zero => simp [walk] at hw
  | succ f' ih =>
    obtain ⟨f, rfl⟩ : ∃ g, f = g + 1 := ⟨f - 1, by omega⟩
    simp only [walk] at hw ⊢
    cases hl : getLink m' cur i with
    | none => simp [hl] at hw
    | some o =>
      rw [getLink_ext h hl]
      rw [hl] at hw
      cases o with
      | none => exact hw
      | some b =>
        simp only at hw ⊢
        cases he : entryAt m' b with
        | none => simp [he] at hw
        | some e =>
          rw [entryAt_ext h he]
          rw [he] at hw
          simp only at hw ⊢
          split at hw
          · rename_i hp
            rw [if_pos hp]
            exact ih (by omega) hw
          · rename_i hp
            rw [if_neg hp]
            exact hw

omit [LinearOrder K] in
/-- The locals of two runs, on `m` and on `m'`. -/
structure WExt (d : Nat) (w w' : Work K V) : Prop where
  mem : Ext w.mem w'.mem
  cur : w.cur = w'.cur
  ret : w.ret = w'.ret
  len : w.len = w'.len + d

theorem unlink_ext {d : Nat} {w w' w₁' : Work K V} (h : WExt d w w') {key : K} {i : Nat} {nxt : Option Addr}
    (hu : unlink key i w' nxt = some w₁') : ∃ w₁, unlink key i w nxt = some w₁ ∧ WExt d w₁ w₁' := by
  cases nxt with
  | none => simp only [unlink, Option.some.injEq] at hu ⊢; subst hu; exact ⟨w, rfl, h⟩
  | some b =>
    simp only [unlink] at hu ⊢
    cases he : entryAt w'.mem b with
    | none => simp [he] at hu
    | some e =>
      rw [entryAt_ext h.mem he]
      rw [he] at hu
      simp only at hu ⊢
      split at hu
      · rename_i hk
        rw [if_pos hk]
        cases hl : getLink w'.mem b i with
        | none => simp [hl] at hu
        | some l =>
          rw [getLink_ext h.mem hl, h.cur]
          simp only [hl, Option.bind_eq_bind, Option.bind_some] at hu ⊢
          cases hs : setLink w'.mem w'.cur i l with
          | none => simp [hs] at hu
          | some m₁' =>
            obtain ⟨m₁, h1, h2⟩ := setLink_ext h.mem hs
            rw [h1]
            simp only [hs, Option.bind_some] at hu ⊢
            cases i with
            | succ i =>
              simp only [release, Option.some.injEq] at hu ⊢
              subst hu
              exact ⟨_, rfl, h2, rfl, h.ret, h.len⟩
            | zero =>
              simp only [release] at hu ⊢
              cases hfr : m₁'.free b with
              | none => simp [hfr] at hu
              | some m₂' =>
                obtain ⟨m₂, h3, h4⟩ := free_ext h2 hfr
                rw [h3, h.len]
                simp only [hfr, Option.bind_eq_bind, Option.bind_some] at hu ⊢
                cases hn : w'.len with
                | zero => simp [hn, dec] at hu
                | succ n =>
                  simp only [hn, dec, Option.bind_some, Option.pure_def, Option.some.injEq] at hu
                  subst hu
                  exact ⟨{ w with mem := m₂, ret := some e, len := n + d }, by simp [dec, Nat.add_right_comm n 1 d, h.cur],
                    h4, h.cur, rfl, rfl⟩
      · rename_i hk
        rw [if_neg hk]
        cases hu
        exact ⟨w, rfl, h⟩

theorem removeLevel_ext {d : Nat} {w w' w₁' : Work K V} (h : WExt d w w') {f f' : Nat} (hf : f' ≤ f) {key : K} {i : Nat}
    (hu : removeLevel f' key i w' = some w₁') : ∃ w₁, removeLevel f key i w = some w₁ ∧ WExt d w₁ w₁' := by
  unfold removeLevel at hu ⊢
  cases hw : walk w'.mem (fun e => decide (e.1 < key)) i f' w'.cur with
  | none => simp [hw] at hu
  | some r =>
    rw [h.cur, walk_ext h.mem hf hw]
    simp only [hw, Option.bind_eq_bind, Option.bind_some] at hu ⊢
    exact unlink_ext (w := { w with cur := r.1 }) (w' := { w' with cur := r.1 }) ⟨h.mem, rfl, h.ret, h.len⟩ hu

omit [LinearOrder K] in
theorem linkNew_ext {d : Nat} {w w' w₁' : Work K V} (h : WExt d w w') {new : Addr} {nh i : Nat}
    (hu : linkNew new nh i w' = some w₁') : ∃ w₁, linkNew new nh i w = some w₁ ∧ WExt d w₁ w₁' := by
  unfold linkNew at hu ⊢
  split at hu
  · rename_i hi
    rw [if_pos hi]
    cases hl : getLink w'.mem w'.cur i with
    | none => simp [hl] at hu
    | some l =>
      rw [h.cur, getLink_ext h.mem hl]
      simp only [hl, Option.bind_eq_bind, Option.bind_some] at hu ⊢
      cases hs : setLink w'.mem w'.cur i (some new) with
      | none => simp [hs] at hu
      | some m₁' =>
        obtain ⟨m₁, h1, h2⟩ := setLink_ext h.mem hs
        rw [h1]
        simp only [hs, Option.bind_some] at hu ⊢
        cases hs2 : setLink m₁' new i l with
        | none => simp [hs2] at hu
        | some m₂' =>
          obtain ⟨m₂, h3, h4⟩ := setLink_ext h2 hs2
          rw [h3]
          simp only [hs2, Option.bind_some, Option.pure_def, Option.some.injEq] at hu ⊢
          subst hu
          exact ⟨_, rfl, h4, rfl, h.ret, h.len⟩
  · rename_i hi
    rw [if_neg hi]
    cases hu
    exact ⟨w, rfl, h⟩

theorem insertLevel_ext {d : Nat} {w w' w₁' : Work K V} (h : WExt d w w') {f f' : Nat} (hf : f' ≤ f) {key : K} {i : Nat}
    {new : Addr} {nh : Nat} (hu : insertLevel f' new nh key i w' = some w₁') :
    ∃ w₁, insertLevel f new nh key i w = some w₁ ∧ WExt d w₁ w₁' := by
  rw [insertLevel_eq] at hu ⊢
  cases hr : removeLevel f' key i w' with
  | none => simp [hr] at hu
  | some w₂' =>
    obtain ⟨w₂, h1, h2⟩ := removeLevel_ext h hf hr
    rw [h1]
    rw [hr] at hu
    exact linkNew_ext h2 hu

theorem lookup_ext {m m' : MHeap K V} (h : Ext m m') {f f' : Nat} (hf : f' ≤ f) {key : K} {i : Nat} {cur : Addr} {r}
    (hu : lookup m' key f' i cur = some r) : lookup m key f i cur = some r := by
  induction i generalizing cur with
  | zero =>
    rw [lookup.eq_def] at hu ⊢
    simp only at hu ⊢
    cases hw : walk m' (fun e => decide (e.1 < key)) 0 f' cur with
    | none => simp [hw] at hu
    | some q =>
      obtain ⟨cur', nxt⟩ := q
      rw [walk_ext h hf hw]
      simp only [hw] at hu ⊢
      cases nxt with
      | none => exact hu
      | some b =>
        simp only [hit] at hu ⊢
        cases he : entryAt m' b with
        | none => simp [he] at hu
        | some e => rw [entryAt_ext h he]; rw [he] at hu; exact hu
  | succ i ih =>
    rw [lookup.eq_def] at hu ⊢
    simp only at hu ⊢
    cases hw : walk m' (fun e => decide (e.1 < key)) (i + 1) f' cur with
    | none => simp [hw] at hu
    | some q =>
      obtain ⟨cur', nxt⟩ := q
      rw [walk_ext h hf hw]
      simp only [hw] at hu ⊢
      cases nxt with
      | none => exact ih hu
      | some b =>
        simp only [hit] at hu ⊢
        cases he : entryAt m' b with
        | none => simp [he] at hu
        | some e =>
          rw [entryAt_ext h he]
          rw [he] at hu
          simp only at hu ⊢
          by_cases hk : e.1 = key
          · simp only [hk, if_true] at hu ⊢; exact hu
          · simp only [hk, if_false] at hu ⊢; exact ih hu

omit [LinearOrder K] in
theorem descend_ext {m m' : MHeap K V} (h : Ext m m') {f f' : Nat} (hf : f' ≤ f) {p : K × V → Bool} {i : Nat}
    {cur : Addr} {r} (hu : descend m' p f' i cur = some r) : descend m p f i cur = some r := by
  induction i generalizing cur with
  | zero => exact walk_ext h hf hu
  | succ i ih =>
    simp only [descend] at hu ⊢
    cases hw : walk m' p (i + 1) f' cur with
    | none => simp [hw] at hu
    | some q =>
      rw [walk_ext h hf hw]
      rw [hw] at hu
      exact ih hu

omit [LinearOrder K] in
theorem collect_ext {m m' : MHeap K V} (h : Ext m m') {f f' : Nat} (hf : f' ≤ f) {o : Option Addr} {r}
    (hu : collect m' f' o = some r) : collect m f o = some r := by
  induction f' generalizing f o r with
  | zero =>
    cases o with
    | none => cases f <;> simpa [collect] using hu
    | some a => simp [collect] at hu
  | succ f' ih =>
    obtain ⟨f, rfl⟩ : ∃ g, f = g + 1 := ⟨f - 1, by omega⟩
    cases o with
    | none => simpa [collect] using hu
    | some a =>
      simp only [collect] at hu ⊢
      cases he : entryAt m' a with
      | none => simp [he] at hu
      | some e =>
        rw [entryAt_ext h he]
        simp only [he, Option.bind_eq_bind, Option.bind_some] at hu ⊢
        cases hl : getLink m' a 0 with
        | none => simp [hl] at hu
        | some l =>
          rw [getLink_ext h hl]
          simp only [hl, Option.bind_some] at hu ⊢
          cases hc : collect m' f' l with
          | none => simp [hc] at hu
          | some q => rw [ih (by omega) hc]; rw [hc] at hu; exact hu

omit [LinearOrder K] in
theorem freeAll_ext {m m' m₁' : MHeap K V} (h : Ext m m') {f f' : Nat} (hf : f' ≤ f) {o : Option Addr}
    (hu : freeAll m' f' o = some m₁') : ∃ m₁, freeAll m f o = some m₁ ∧ Ext m₁ m₁' := by
  induction f' generalizing f o m m' with
  | zero =>
    cases o with
    | none =>
      simp only [freeAll, Option.some.injEq] at hu
      subst hu
      exact ⟨m, by cases f <;> rfl, h⟩
    | some a => simp [freeAll] at hu
  | succ f' ih =>
    obtain ⟨f, rfl⟩ : ∃ g, f = g + 1 := ⟨f - 1, by omega⟩
    cases o with
    | none =>
      simp only [freeAll, Option.some.injEq] at hu
      subst hu
      exact ⟨m, rfl, h⟩
    | some a =>
      simp only [freeAll] at hu ⊢
      cases hl : getLink m' a 0 with
      | none => simp [hl] at hu
      | some l =>
        rw [getLink_ext h hl]
        simp only [hl, Option.bind_eq_bind, Option.bind_some] at hu ⊢
        cases hfr : m'.free a with
        | none => simp [hfr] at hu
        | some m₂' =>
          obtain ⟨m₂, h1, h2⟩ := free_ext h hfr
          rw [h1]
          simp only [hfr, Option.bind_some] at hu ⊢
          exact ih h2 (by omega) hu

end Verif.Skip.Map
