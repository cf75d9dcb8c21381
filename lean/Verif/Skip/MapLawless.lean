/- Model of `skiplist/map.rs` with comparisons that obey no law (C75).

The functions of `Skip/MapModel` with the comparisons `<`, `==`, `<=` of a stored key and the argument replaced by
arbitrary answers; each node is compared at most once with each of them on a level, so answers that depend on level and
key are as general as a comparison that may change its mind between levels.  `lawful_insert` … say that with the answers
of a linear order these are the functions of `Skip/MapModel`. -/
import Verif.Skip.MapModel
import Verif.Spec.Lawless

namespace Verif.Skip.Map

open Verif.Spec

variable {K V : Type}

/-- map.rs:160-172, 219-231 (`unlink`). -/
def unlinkL (eq : K → Bool) (i : Nat) (w : Work K V) : Option Addr → Option (Work K V)
  | none => some w
  | some b =>
    match entryAt w.mem b with
    | none => none
    | some e =>
      if eq e.1 then do
        let l ← getLink w.mem b i
        let m ← setLink w.mem w.cur i l
        release i b e { w with mem := m }
      else some w

/-- map.rs:212-232, one iteration of the outer loop of `remove`. -/
def removeLevelL (fuel : Nat) (c : Answers K) (i : Nat) (w : Work K V) : Option (Work K V) := do
  let (cur, nxt) ← walk w.mem (fun e => c.lt i e.1) i fuel w.cur
  unlinkL (c.eq i) i { w with cur := cur } nxt

/-- map.rs:153-178, one iteration of the outer loop of `insert`. -/
def insertLevelL (fuel : Nat) (new : Addr) (nh : Nat) (c : Answers K) (i : Nat) (w : Work K V) :
    Option (Work K V) := do
  let (cur, nxt) ← walk w.mem (fun e => c.lt i e.1) i fuel w.cur
  let w ← unlinkL (c.eq i) i { w with cur := cur } nxt
  linkNew new nh i w

/-- map.rs:141-187 `insert`. -/
def SkipMap.insertL (s : SkipMap K V) (key : K) (value : V) (c : Answers K) (nh : Nat) (off : Nat) :
    Option (SkipMap K V × Option (K × V)) := do
  let new := s.bump + off
  let mem := s.mem.put new ⟨some (key, value), List.replicate (nh + 1) none⟩
  let w ← downFrom (insertLevelL (s.len + 1) new nh c) maxHeight ⟨mem, s.head, none, s.len + 1⟩
  return (⟨w.mem, s.head, w.len, new + 1⟩, w.ret)

/-- map.rs:202-241 `remove`. -/
def SkipMap.removeL (s : SkipMap K V) (c : Answers K) : Option (SkipMap K V × Option (K × V)) := do
  let w ← downFrom (removeLevelL (s.len + 1) c) maxHeight ⟨s.mem, s.head, none, s.len⟩
  return (⟨w.mem, s.head, w.len, s.bump⟩, w.ret)

/-- map.rs:292-294, 335-337 (`hit`). -/
def hitL (m : MHeap K V) (eq : K → Bool) : Option Addr → Option (Option Addr)
  | none => some none
  | some b =>
    match entryAt m b with
    | none => none
    | some e => if eq e.1 then some (some b) else some none

/-- map.rs:281-302, 324-345 (`lookup`). -/
def lookupL (m : MHeap K V) (c : Answers K) (fuel : Nat) : Nat → Addr → Option (Option Addr)
  | i, cur =>
    match walk m (fun e => c.lt i e.1) i fuel cur with
    | none => none
    | some (cur', nxt) =>
      match hitL m (c.eq i) nxt with
      | none => none
      | some (some b) => some (some b)
      | some none =>
        match i with
        | 0 => some none
        | i + 1 => lookupL m c fuel i cur'

/-- map.rs:276-304 `get`. -/
def SkipMap.getL (s : SkipMap K V) (c : Answers K) : Option (Option (K × V)) := do
  let o ← lookupL s.mem c (s.len + 1) (startHeight s.len) s.head
  match o with
  | none => some none
  | some b => (entryAt s.mem b).map some

/-- map.rs:319-347 `get_mut`. -/
def SkipMap.getMutL (s : SkipMap K V) (c : Answers K) (f : V → V) : Option (SkipMap K V × Option (K × V)) := do
  let o ← lookupL s.mem c (s.len + 1) (startHeight s.len) s.head
  match o with
  | none => some (s, none)
  | some b => (modifyAt s.mem b f).map fun (m, e) => ({ s with mem := m }, some e)

/-- map.rs:424-442, 466-484 (`descend`). -/
def descendL (m : MHeap K V) (p : Nat → K × V → Bool) (fuel : Nat) : Nat → Addr → Option (Addr × Option Addr)
  | 0, cur => walk m (p 0) 0 fuel cur
  | i + 1, cur =>
    match walk m (p (i + 1)) (i + 1) fuel cur with
    | none => none
    | some (cur', _) => descendL m p fuel i cur'

/-- map.rs:416-443 `floor`. -/
def SkipMap.floorL (s : SkipMap K V) (c : Answers K) : Option (Option (K × V)) := do
  let (cur, _) ← descendL s.mem (fun i e => c.le i e.1) (s.len + 1) (startHeight s.len) s.head
  orHead s cur

/-- map.rs:458-485 `ceil`. -/
def SkipMap.ceilL (s : SkipMap K V) (c : Answers K) : Option (Option (K × V)) := do
  let (_, nxt) ← descendL s.mem (fun i e => c.lt i e.1) (s.len + 1) (startHeight s.len) s.head
  orNull s nxt

/-- The calls (map.rs: `insert` 141-187, `remove` 202-241, `get` 276-304, `get_mut` 319-347, `len` 360-362, `clear`
391-401, `floor` 416-443, `ceil` 458-485, `min` 499-511, `max` 525-551, `iter` 901-907); `d` is the drawn height and an
address choice. -/
def stepL (s : SkipMap K V) : LCall K V → Draw → Option (SkipMap K V × LRes K V)
  | .insert k v c, d => (s.insertL k v c d.1 d.2).map fun (s, r) => (s, .pair r)
  | .remove c, _ => (s.removeL c).map fun (s, r) => (s, .pair r)
  | .get c, _ => (s.getL c).map fun o => (s, .val (o.map (·.2)))
  | .getMut c f, _ => (s.getMutL c f).map fun (s, o) => (s, .val (o.map (·.2)))
  | .floor c, _ => (s.floorL c).map fun o => (s, .key (o.map (·.1)))
  | .ceil c, _ => (s.ceilL c).map fun o => (s, .key (o.map (·.1)))
  | .min, _ => s.min.map fun o => (s, .key (o.map (·.1)))
  | .max, _ => s.max.map fun o => (s, .key (o.map (·.1)))
  | .len, _ => some (s, .num s.len)
  | .iter, _ => s.iter.map fun l => (s, .list l)
  | .clear, _ => s.clear.map fun s => (s, .unit)

/-- Run calls, collecting the results; `none` if some call touches memory it must not. -/
def runL (s : SkipMap K V) : List (LCall K V × Draw) → Option (SkipMap K V × List (LCall K V × LRes K V))
  | [] => some (s, [])
  | (op, d) :: ops => do
    let (s₁, r) ← stepL s op d
    let (s₂, h) ← runL s₁ ops
    return (s₂, (op, r) :: h)

/-! ### With a linear order, these are the functions of `MapModel` -/

variable [LinearOrder K]

/-- The answers of a linear order. -/
def lawful (key : K) : Answers K := ⟨fun _ k => decide (k < key), fun _ k => decide (k = key), fun _ k => decide (k ≤ key)⟩

theorem lawful_unlink (key : K) (i : Nat) (w : Work K V) (o : Option Addr) :
    unlinkL ((lawful key).eq i) i w o = unlink key i w o := by
  cases o with
  | none => rfl
  | some b => simp only [unlinkL, unlink, lawful, decide_eq_true_eq]; rfl

theorem lawful_insert (s : SkipMap K V) (key : K) (v : V) (nh off : Nat) :
    s.insertL key v (lawful key) nh off = s.insert key v nh off := by
  have : ∀ fuel new, insertLevelL (V := V) fuel new nh (lawful key) = insertLevel fuel new nh key := by
    intro fuel new; funext i w; simp only [insertLevelL, insertLevel, lawful_unlink]; rfl
  unfold SkipMap.insertL SkipMap.insert
  simp only [this]

theorem lawful_remove (s : SkipMap K V) (key : K) : s.removeL (lawful key) = s.remove key := by
  have : ∀ fuel, removeLevelL (V := V) fuel (lawful key) = removeLevel fuel key := by
    intro fuel; funext i w; simp only [removeLevelL, removeLevel, lawful_unlink]; rfl
  unfold SkipMap.removeL SkipMap.remove
  simp only [this]

theorem lawful_lookup (m : MHeap K V) (key : K) (fuel i : Nat) (cur : Addr) :
    lookupL m (lawful key) fuel i cur = lookup m key fuel i cur := by
  have hh : ∀ i o, hitL m ((lawful key).eq i) o = hit m key o := by
    intro i o; cases o with
    | none => rfl
    | some b => simp only [hitL, hit, lawful, decide_eq_true_eq]; rfl
  induction i generalizing cur with
  | zero => rw [lookupL.eq_def, lookup.eq_def]; simp only [hh]; rfl
  | succ i ih => rw [lookupL.eq_def, lookup.eq_def]; simp only [hh, ih]; rfl

theorem lawful_get (s : SkipMap K V) (key : K) : s.getL (lawful key) = s.get key := by
  unfold SkipMap.getL SkipMap.get; rw [lawful_lookup]; rfl

theorem lawful_getMut (s : SkipMap K V) (key : K) (f : V → V) : s.getMutL (lawful key) f = s.getMut key f := by
  unfold SkipMap.getMutL SkipMap.getMut; rw [lawful_lookup]; rfl

omit [LinearOrder K] in
theorem descend_const (m : MHeap K V) (p : K × V → Bool) (fuel i : Nat) (cur : Addr) :
    descendL m (fun _ => p) fuel i cur = descend m p fuel i cur := by
  induction i generalizing cur with
  | zero => rfl
  | succ i ih => simp only [descendL, descend, ih]; rfl

theorem lawful_floor (s : SkipMap K V) (key : K) : s.floorL (lawful key) = s.floor key := by
  unfold SkipMap.floorL SkipMap.floor; rw [← descend_const]; rfl

theorem lawful_ceil (s : SkipMap K V) (key : K) : s.ceilL (lawful key) = s.ceil key := by
  unfold SkipMap.ceilL SkipMap.ceil; rw [← descend_const]; rfl

end Verif.Skip.Map
