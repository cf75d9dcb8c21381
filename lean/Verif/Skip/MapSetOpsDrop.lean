/- The set operations of a `SkipMap` when destructors panic, and comparisons answer anything or panic (C81).

The loops of `Skip/MapSetOps` with destructors that may panic.  After a panic the locals `ret`, `right` and `left` are
dropped as they are; if a destructor panics meanwhile the process is aborted. -/
import Verif.Skip.MapSetOpsProps
import Verif.Spec.SetOpsDrop

namespace Verif.Skip.Map

open Verif.Spec Verif.SL

variable {K V : Type}

/-- Why the loop stops. -/
inductive Stop where
  | finished
  /-- a comparison panicked -/
  | compared
  /-- the destructor of the entry of this node panicked -/
  | destroyed (a : Addr)

/-- What an iteration leaves behind: the state, the node to append, the entries whose destructors have run, the node
whose destructor panicked. -/
abbrev IteratedD (K V : Type) := Merge K V × Option Addr × List (K × V) × Option Addr

/-- `next_node` is the left node. -/
def keepLD (s : Merge K V) : Option (IteratedD K V) := (popL s).map fun (a, s) => (s, some a, [], none)
/-- `next_node` is the right node. -/
def keepRD (s : Merge K V) : Option (IteratedD K V) := (popR s).map fun (a, s) => (s, some a, [], none)

/-- `Node::free` (map.rs:60-63) with a destructor that may panic. -/
def dropNodeD (boom : K × V → Bool) (s : Merge K V) (a : Addr) : Option (Merge K V × (K × V) × Bool) :=
  (freeNodeD boom s.mem a).map fun (m, e, p) => ({ s with mem := m }, e, p)

/-- The right node is freed: `right.head` has moved on before (map.rs:603-604, 781-785, 792-796). -/
def loseRD (boom : K × V → Bool) (s : Merge K V) : Option (IteratedD K V) := do
  let (b, s) ← popR s
  let (s, e, p) ← dropNodeD boom s b
  return (s, none, [e], if p then some b else none)

/-- Both nodes are freed (map.rs:769-773): `right.head` moves on only after the left node has been freed. -/
def loseBothD (boom : K × V → Bool) (s : Merge K V) : Option (IteratedD K V) := do
  let (a, s) ← popL s
  let right := s.right
  let (b, s) ← popR s
  let (s, e, p) ← dropNodeD boom s a
  if p then return ({ s with right := right }, none, [e], some a)
  else
    let (s, e', p) ← dropNodeD boom s b
    return (s, none, [e, e'], if p then some b else none)

/-- map.rs:601-616 (`union`), 768-788 (`map_difference`): the branches of the comparison. -/
def onAnswerD (boom : K × V → Bool) : MergeOp → Ordering → Merge K V → Option (IteratedD K V)
  | .union, .eq => loseRD boom
  | .union, .lt => keepLD
  | .union, .gt => keepRD
  | .difference _, .eq => loseBothD boom
  | .difference _, .lt => keepLD
  | .difference sym, .gt => if sym then keepRD else loseRD boom

/-- map.rs:617-620, 790-798: only the right map has nodes left. -/
def onlyRightD (boom : K × V → Bool) : MergeOp → Merge K V → Option (IteratedD K V)
  | .union => keepRD
  | .difference sym => if sym then keepRD else loseRD boom

/-- map.rs:621-624, 799-802: only the left map has nodes left. -/
def onlyLeftD : MergeOp → Merge K V → Option (IteratedD K V)
  | .union => keepLD
  | .difference _ => keepRD

/-- The rest of an iteration: unwind, or append `next_node`, if there is one (map.rs:626-638, 805-817), and go on. -/
def goOn (k : Merge K V → List (K × V) → Option (Merge K V × List (K × V) × Stop)) (log : List (K × V)) :
    IteratedD K V → Option (Merge K V × List (K × V) × Stop)
  | (s, _, d, some a) => some (s, log ++ d, .destroyed a)
  | (s, none, d, none) => k s (log ++ d)
  | (s, some next, d, none) => (append 0 next s).bind fun s => k s (log ++ d)

/-- map.rs:595-639, 762-818: the loop with the answers `ans`; the comparison after the last answer panics. -/
def loopD (boom : K × V → Bool) (op : MergeOp) :
    Nat → List Ordering → Merge K V → List (K × V) → Option (Merge K V × List (K × V) × Stop)
  | f, ans, s, log =>
    match s.left, s.right with
    | none, none => some (s, log, .finished)
    | some a, some b =>
      match entryAt s.mem a, entryAt s.mem b, ans, f with
      | some _, some _, [], _ => some (s, log, .compared)
      | some _, some _, o :: ans, f + 1 => (onAnswerD boom op o s).bind (goOn (loopD boom op f ans) log)
      | _, _, _, _ => none
    | none, some _ =>
      match f with
      | 0 => none
      | f + 1 => (onlyRightD boom op s).bind (goOn (loopD boom op f ans) log)
    | some _, none =>
      match f with
      | 0 => none
      | f + 1 => (onlyLeftD op s).bind (goOn (loopD boom op f ans) log)

/-- How a call ends. -/
inductive SetResD (K V : Type) where
  | returned (map : SkipMap K V) (dropped : List (K × V))
  | unwound (mem : MHeap K V) (dropped : List (K × V))
  | aborted
  | undefined

/-- `Drop` (map.rs:939-950) of a map with this `head` while a panic unwinds, then `k`. -/
def droppingD (boom : K × V → Bool) (steps : Nat) (m : MHeap K V) (head : Option Addr)
    (k : MHeap K V → List (K × V) → SetResD K V) : SetResD K V :=
  match head with
  | none => .undefined
  | some head =>
    match dropD boom id steps m head with
    | .done r => if r.panicked then .aborted else k r.mem r.started
    | _ => .undefined

/-- Unwinding drops `ret`, then `right`, then `left`; `log` has been dropped before. -/
def unwindD (boom : K × V → Bool) (steps : Nat) (head : Addr) (s : Merge K V) (log : List (K × V)) : SetResD K V :=
  droppingD boom steps s.mem (some head) fun m d =>
    droppingD boom steps m s.right fun m d' =>
      droppingD boom steps m s.left fun m d'' => .unwound m (log ++ (d ++ d' ++ d''))

/-- map.rs:576-644 `union`, 743-823 `map_difference`. -/
def SkipMap.setOpD (boom : K × V → Bool) (op : MergeOp) (ans : List Ordering) (l r : SkipMap K V) (off : Nat) :
    SetResD K V :=
  match mergeInit l r off with
  | none => .undefined
  | some (s, head) =>
    match loopD boom op (l.len + r.len) ans s [] with
    | none => .undefined
    | some (s, log, .finished) =>
      match (s.mem.free l.head).bind fun m => m.free r.head with
      | none => .undefined
      | some m => .returned ⟨m, head, s.len, head + 1⟩ log
    | some (s, log, _) => unwindD boom (l.len + r.len) head s log

/-! ### The loop -/

/-- The memory of `s` is that of `s₀` except for nodes in hand, which are still allocated. -/
structure Halted (s₀ s : Merge K V) (X : List (Tower (K × V))) : Prop where
  left : s.left = s₀.left
  right : s.right = s₀.right
  off : ∀ a, a ∉ addrs X → s.mem a = s₀.mem a
  on : ∀ a ∈ addrs X, s.mem a ≠ none

section
variable {boom : K × V → Bool} {s : Merge K V} {head lh rh : Addr} {O L R X : List (Tower (K × V))} {t : Tower (K × V)}

theorem dropNodeD_ok (h : MInv s head lh rh O L R (t :: X)) (hb : boom t.e = false) :
    ∃ s', dropNodeD boom s t.addr = some (s', t.e, false) ∧ MInv s' head lh rh O L R X := by
  obtain ⟨s', h1, h2, _⟩ := free_hand h
  refine ⟨s', ?_, h2⟩
  unfold freeNode at h1
  obtain ⟨m, h3, h4⟩ := Option.map_eq_some_iff.1 h1
  obtain ⟨ls, h5, _⟩ := shape_eq (h.tow t (by simp))
  simp [dropNodeD, freeNodeD, h5, hb, h3, h4]

theorem dropNodeD_panics (h : MInv s head lh rh O L R [t]) (hb : boom t.e = true) :
    ∃ m, dropNodeD boom s t.addr = some ({ s with mem := m }, t.e, true) ∧
      (∀ a, a ∉ addrs [t] → m a = s.mem a) ∧ ∀ a ∈ addrs [t], m a ≠ none := by
  obtain ⟨ls, h5, _⟩ := shape_eq (h.tow t (by simp))
  refine ⟨s.mem.put t.addr ⟨none, ls⟩, by simp [dropNodeD, freeNodeD, h5, hb], ?_, ?_⟩
  · intro a ha
    have : a ≠ t.addr := by simpa using ha
    simp [Heap.put, this]
  · intro a ha
    have : a = t.addr := by simpa using ha
    simp [Heap.put, this]

end

/-- The result of the loop is as the specification says. -/
def SimD (boom : K × V → Bool) (head lh rh : Addr) (B : Tower (K × V) → Prop) (O : List (Tower (K × V))) (log : List (K × V)) :
    Halt (K × V) → Option (Merge K V × List (K × V) × Stop) → Prop
  | .finished out d, x => ∃ s Z, x = some (s, log ++ d, .finished) ∧ Z.map (·.e) = out ∧ (∀ t ∈ Z, B t) ∧
      MInv s head lh rh (O ++ Z) [] [] []
  | .compared out d l r, x => ∃ s Z L R, x = some (s, log ++ d, .compared) ∧ Z.map (·.e) = out ∧ L.map (·.e) = l ∧
      R.map (·.e) = r ∧ MInv s head lh rh (O ++ Z) L R []
  | .destroyed out d l r, x => ∃ s₀ s Z L R t, x = some (s, log ++ d, .destroyed t.addr) ∧ Z.map (·.e) = out ∧
      L.map (·.e) = l ∧ R.map (·.e) = r ∧ MInv s₀ head lh rh (O ++ Z) L R [t] ∧ Halted s₀ s [t] ∧ B t ∧ boom t.e = true
  | .crashed, x => x = none

section
variable {boom : K × V → Bool} {head lh rh : Addr} {B : Tower (K × V) → Prop} {O : List (Tower (K × V))} {log d : List (K × V)}
  {o : Halt (K × V)} {x : Option (Merge K V × List (K × V) × Stop)} {t : Tower (K × V)}

theorem SimD.keep (h : SimD boom head lh rh B (O ++ [t]) log o x) (hB : B t) :
    SimD boom head lh rh B O log (o.after [t.e] []) x := by
  cases o with
  | finished out d =>
    obtain ⟨s, Z, h1, h2, h3, h4⟩ := h
    exact ⟨s, t :: Z, by simpa using h1, by simp [h2], by simpa using ⟨hB, h3⟩, by simpa using h4⟩
  | compared out d l r =>
    obtain ⟨s, Z, L, R, h1, h2, h3, h4, h5⟩ := h
    exact ⟨s, t :: Z, L, R, by simpa using h1, by simp [h2], h3, h4, by simpa using h5⟩
  | destroyed out d l r =>
    obtain ⟨s₀, s, Z, L, R, u, h1, h2, h3, h4, h5, h6⟩ := h
    exact ⟨s₀, s, t :: Z, L, R, u, by simpa using h1, by simp [h2], h3, h4, by simpa using h5, h6⟩
  | crashed => exact h

theorem SimD.lose (h : SimD boom head lh rh B O (log ++ d) o x) : SimD boom head lh rh B O log (o.after [] d) x := by
  cases o with
  | finished out d =>
    obtain ⟨s, Z, h1, h2, h3, h4⟩ := h
    exact ⟨s, Z, by simpa using h1, h2, h3, h4⟩
  | compared out d l r =>
    obtain ⟨s, Z, L, R, h1, h2, h3, h4, h5⟩ := h
    exact ⟨s, Z, L, R, by simpa using h1, h2, h3, h4, h5⟩
  | destroyed out d l r =>
    obtain ⟨s₀, s, Z, L, R, u, h1, h2, h3, h4, h5, h6⟩ := h
    exact ⟨s₀, s, Z, L, R, u, by simpa using h1, h2, h3, h4, h5, h6⟩
  | crashed => exact h

end

section
variable {boom : K × V → Bool} {s : Merge K V} {head lh rh : Addr} {B : Tower (K × V) → Prop} {O L R : List (Tower (K × V))}
  {t u : Tower (K × V)} {log : List (K × V)} {k : Merge K V → List (K × V) → Option (Merge K V × List (K × V) × Stop)}
  {o : Halt (K × V)}

theorem keepLD_sim (h : MInv s head lh rh O (t :: L) R []) (hB : B t)
    (hk : ∀ s', MInv s' head lh rh (O ++ [t]) L R [] → SimD boom head lh rh B (O ++ [t]) log o (k s' log)) :
    SimD boom head lh rh B O log (o.after [t.e] []) ((keepLD s).bind (goOn k log)) := by
  obtain ⟨s1, h1, h2, _⟩ := popL_ok h
  obtain ⟨s2, h3, h4, _⟩ := append_ok h2
  have e : (keepLD s).bind (goOn k log) = k s2 log := by simp [keepLD, h1, goOn, h3]
  rw [e]
  exact (hk s2 h4).keep hB

theorem keepRD_sim (h : MInv s head lh rh O L (t :: R) []) (hB : B t)
    (hk : ∀ s', MInv s' head lh rh (O ++ [t]) L R [] → SimD boom head lh rh B (O ++ [t]) log o (k s' log)) :
    SimD boom head lh rh B O log (o.after [t.e] []) ((keepRD s).bind (goOn k log)) := by
  obtain ⟨s1, h1, h2, _⟩ := popR_ok h
  obtain ⟨s2, h3, h4, _⟩ := append_ok h2
  have e : (keepRD s).bind (goOn k log) = k s2 log := by simp [keepRD, h1, goOn, h3]
  rw [e]
  exact (hk s2 h4).keep hB

theorem loseRD_sim (h : MInv s head lh rh O L (t :: R) []) (hB : B t)
    (hk : ∀ s', MInv s' head lh rh O L R [] → SimD boom head lh rh B O (log ++ [t.e]) o (k s' (log ++ [t.e]))) :
    SimD boom head lh rh B O log (dropping boom t.e (L.map (·.e)) (R.map (·.e)) o) ((loseRD boom s).bind (goOn k log)) := by
  obtain ⟨s1, h1, h2, _⟩ := popR_ok h
  unfold dropping
  cases hb : boom t.e with
  | false =>
    obtain ⟨s2, h3, h4⟩ := dropNodeD_ok h2 hb
    have e : (loseRD boom s).bind (goOn k log) = k s2 (log ++ [t.e]) := by simp [loseRD, h1, h3, goOn]
    rw [e]
    exact (hk s2 h4).lose
  | true =>
    obtain ⟨m, h3, h4, h5⟩ := dropNodeD_panics h2 hb
    exact ⟨s1, { s1 with mem := m }, [], L, R, t, by simp [loseRD, h1, h3, goOn], rfl, rfl, rfl, by simpa using h2,
      ⟨rfl, rfl, h4, h5⟩, hB, hb⟩

theorem loseBothD_sim (h : MInv s head lh rh O (t :: L) (u :: R) []) (hB : B t) (hB' : B u)
    (hk : ∀ s', MInv s' head lh rh O L R [] → SimD boom head lh rh B O (log ++ [t.e] ++ [u.e]) o (k s' (log ++ [t.e] ++ [u.e]))) :
    SimD boom head lh rh B O log
      (dropping boom t.e (L.map (·.e)) ((u :: R).map (·.e)) (dropping boom u.e (L.map (·.e)) (R.map (·.e)) o))
      ((loseBothD boom s).bind (goOn k log)) := by
  obtain ⟨s1, h1, h2, _⟩ := popL_ok h
  obtain ⟨s2, h3, h4, _⟩ := popR_ok h2
  have hs2 : ∃ nx, s2 = { s1 with right := nx } := by
    unfold popR at h3
    have hr : s1.right = some u.addr := h2.right.1
    simp only [hr] at h3
    cases hg : getLink s1.mem u.addr 0 with
    | none => simp [hg] at h3
    | some nx => simp only [hg, Option.map_some, Option.some.injEq, Prod.mk.injEq] at h3; exact ⟨nx, h3.2.symm⟩
  unfold dropping
  cases hb : boom t.e with
  | false =>
    obtain ⟨s3, h5, h6⟩ := dropNodeD_ok (boom := boom) h4.swap hb
    simp only [Bool.false_eq_true, if_false]
    cases hb' : boom u.e with
    | false =>
      obtain ⟨s4, h7, h8⟩ := dropNodeD_ok h6 hb'
      have e : (loseBothD boom s).bind (goOn k log) = k s4 (log ++ [t.e] ++ [u.e]) := by
        simp [loseBothD, h1, h3, h5, h7, goOn]
      rw [e]
      simp only [Bool.false_eq_true, if_false]
      exact (hk s4 h8).lose.lose
    | true =>
      obtain ⟨m, h7, h8, h9⟩ := dropNodeD_panics h6 hb'
      simp only [if_true, Halt.after]
      exact ⟨s3, { s3 with mem := m }, [], L, R, u, by simp [loseBothD, h1, h3, h5, h7, goOn], rfl, rfl, rfl,
        by simpa using h6, ⟨rfl, rfl, h8, h9⟩, hB', hb'⟩
  | true =>
    obtain ⟨nx, rfl⟩ := hs2
    obtain ⟨m, h5, h6, h7⟩ := dropNodeD_panics (boom := boom) h2 hb
    have h5' : dropNodeD boom { s1 with right := nx } t.addr = some ({ s1 with mem := m, right := nx }, t.e, true) := by
      simp only [dropNodeD, Option.map_eq_some_iff] at h5 ⊢
      obtain ⟨q, q1, q2⟩ := h5
      refine ⟨q, q1, ?_⟩
      simp only [Prod.mk.injEq] at q2 ⊢
      obtain ⟨q3, q4⟩ := q2
      refine ⟨?_, q4⟩
      have := congrArg Merge.mem q3
      simp only at this
      rw [this]
    simp only [if_true]
    exact ⟨s1, { s1 with mem := m }, [], L, u :: R, t, by simp [loseBothD, h1, h3, h5', goOn], rfl, rfl, rfl,
      by simpa using h2, ⟨rfl, rfl, h6, h7⟩, hB, hb⟩

end

theorem loopD_none (boom : K × V → Bool) (op : MergeOp) (f : Nat) (ans : List Ordering) (s : Merge K V)
    (log : List (K × V)) (h1 : s.left = none) (h2 : s.right = none) : loopD boom op f ans s log = some (s, log, .finished) := by
  rw [loopD.eq_def]; simp only [h1, h2]

theorem loopD_right (boom : K × V → Bool) (op : MergeOp) (f : Nat) (ans : List Ordering) (s : Merge K V)
    (log : List (K × V)) {b : Addr} (h1 : s.left = none) (h2 : s.right = some b) : loopD boom op (f + 1) ans s log =
      (onlyRightD boom op s).bind (goOn (loopD boom op f ans) log) := by
  rw [loopD.eq_def]; simp only [h1, h2]

theorem loopD_left (boom : K × V → Bool) (op : MergeOp) (f : Nat) (ans : List Ordering) (s : Merge K V)
    (log : List (K × V)) {a : Addr} (h1 : s.left = some a) (h2 : s.right = none) : loopD boom op (f + 1) ans s log =
      (onlyLeftD op s).bind (goOn (loopD boom op f ans) log) := by
  rw [loopD.eq_def]; simp only [h1, h2]

theorem loopD_panic (boom : K × V → Bool) (op : MergeOp) (f : Nat) (s : Merge K V) (log : List (K × V)) {a b : Addr}
    {e e' : K × V} (h1 : s.left = some a) (h2 : s.right = some b) (h3 : entryAt s.mem a = some e)
    (h4 : entryAt s.mem b = some e') : loopD boom op f [] s log = some (s, log, .compared) := by
  rw [loopD.eq_def]; simp only [h1, h2, h3, h4]

theorem loopD_both (boom : K × V → Bool) (op : MergeOp) (f : Nat) (o : Ordering) (ans : List Ordering) (s : Merge K V)
    (log : List (K × V)) {a b : Addr} {e e' : K × V}
    (h1 : s.left = some a) (h2 : s.right = some b) (h3 : entryAt s.mem a = some e) (h4 : entryAt s.mem b = some e') :
    loopD boom op (f + 1) (o :: ans) s log = (onAnswerD boom op o s).bind (goOn (loopD boom op f ans) log) := by
  rw [loopD.eq_def]; simp only [h1, h2, h3, h4]

theorem loopD_ok (boom : K × V → Bool) (op : MergeOp) {head lh rh : Addr} {B : Tower (K × V) → Prop} (f : Nat)
    (ans : List Ordering) {s : Merge K V} {O L R : List (Tower (K × V))} (log : List (K × V))
    (h : MInv s head lh rh O L R []) (hf : L.length + R.length ≤ f) (hL : ∀ t ∈ L, B t) (hR : ∀ t ∈ R, B t) :
    SimD boom head lh rh B O log (op.runD boom ans (L.map (·.e)) (R.map (·.e))) (loopD boom op f ans s log) := by
  have nilnil : ∀ ans, op.runD boom ans ([] : List (K × V)) [] = .finished [] [] := by
    intro ans
    cases op with
    | union => simp [MergeOp.runD]
    | difference sym => cases sym <;> simp [MergeOp.runD, dropTail]
  induction f generalizing ans s O L R log with
  | zero =>
    obtain rfl : L = [] := List.eq_nil_of_length_eq_zero (by omega)
    obtain rfl : R = [] := List.eq_nil_of_length_eq_zero (by omega)
    rw [loopD_none boom op _ ans s log h.left.1 h.right.1, List.map_nil, nilnil]
    exact ⟨s, [], by simp, rfl, by simp, by simpa using h⟩
  | succ f ih =>
    have hl := h.left.1
    have hr := h.right.1
    cases L with
    | nil =>
      cases R with
      | nil =>
        rw [loopD_none boom op _ ans s log h.left.1 h.right.1, List.map_nil, nilnil]
        exact ⟨s, [], by simp, rfl, by simp, by simpa using h⟩
      | cons b R =>
        rw [loopD_right boom op f ans s log hl hr]
        have hf' : ([] : List (Tower (K × V))).length + R.length ≤ f := by simp at hf ⊢; omega
        have hB := hR b (by simp)
        have hR' : ∀ t ∈ R, B t := fun t ht => hR t (by simp [ht])
        have keep := keepRD_sim (log := log) (k := loopD boom op f ans) h hB fun s' h' => ih ans log h' hf' hL hR'
        have lose := loseRD_sim (boom := boom) (log := log) (k := loopD boom op f ans) h hB fun s' h' =>
          ih ans (log ++ [b.e]) h' hf' hL hR'
        cases op with
        | union => simpa [MergeOp.runD, Halt.after, onlyRightD] using keep
        | difference sym =>
          cases sym
          · simpa [MergeOp.runD, dropTail, onlyRightD] using lose
          · simpa [MergeOp.runD, Halt.after, onlyRightD] using keep
    | cons a L =>
      cases R with
      | nil =>
        rw [loopD_left boom op f ans s log hl hr]
        have hf' : L.length + ([] : List (Tower (K × V))).length ≤ f := by simp at hf ⊢; omega
        cases op with
        | union =>
          have := keepLD_sim (log := log) (k := loopD boom .union f ans) h (hL a (by simp)) fun s' h' =>
            ih ans log h' hf' (fun t ht => hL t (by simp [ht])) hR
          have e : MergeOp.union.runD boom ans ((a :: L).map (·.e)) (([] : List (Tower (K × V))).map (·.e)) =
              (MergeOp.union.runD boom ans (L.map (·.e)) (([] : List (Tower (K × V))).map (·.e))).after [a.e] [] := by
            cases L <;> simp [MergeOp.runD, Halt.after]
          rw [e]
          exact this
        | difference sym =>
          have e : (MergeOp.difference sym).runD boom ans ((a :: L).map (·.e)) (([] : List (Tower (K × V))).map (·.e)) =
              .crashed := by simp [MergeOp.runD]
          rw [e]
          have hr' : s.right = none := hr
          show _ = none
          simp [onlyLeftD, keepRD, popR, hr']
      | cons b R =>
        have ha := entryAt_of_shape (h.tow a (by simp))
        have hb := entryAt_of_shape (h.tow b (by simp))
        cases ans with
        | nil =>
          rw [loopD_panic boom op _ s log hl hr ha hb]
          have e : op.runD boom [] ((a :: L).map (·.e)) ((b :: R).map (·.e)) =
              .compared [] [] ((a :: L).map (·.e)) ((b :: R).map (·.e)) := by simp [MergeOp.runD]
          rw [e]
          exact ⟨s, [], a :: L, b :: R, by simp, rfl, rfl, rfl, by simpa using h⟩
        | cons o ans =>
          rw [loopD_both boom op f o ans s log hl hr ha hb]
          have hL' : ∀ t ∈ L, B t := fun t ht => hL t (by simp [ht])
          have hR' : ∀ t ∈ R, B t := fun t ht => hR t (by simp [ht])
          have kL := keepLD_sim (log := log) (k := loopD boom op f ans) h (hL a (by simp)) fun s' h' =>
            ih ans log h' (by simp at hf ⊢; omega) hL' hR
          have kR := keepRD_sim (log := log) (k := loopD boom op f ans) h (hR b (by simp)) fun s' h' =>
            ih ans log h' (by simp at hf ⊢; omega) hL hR'
          have lR := loseRD_sim (boom := boom) (log := log) (k := loopD boom op f ans) h (hR b (by simp)) fun s' h' =>
            ih ans (log ++ [b.e]) h' (by simp at hf ⊢; omega) hL hR'
          have lB := loseBothD_sim (boom := boom) (log := log) (k := loopD boom op f ans) h (hL a (by simp)) (hR b (by simp)) fun s' h' =>
            ih ans (log ++ [a.e] ++ [b.e]) h' (by simp at hf ⊢; omega) hL' hR'
          cases o with
          | lt => cases op <;> exact kL
          | eq =>
            cases op with
            | union => exact lR
            | difference sym => exact lB
          | gt =>
            cases op with
            | union => exact kR
            | difference sym => cases sym; exacts [lR, kR]

/-! ### Unwinding -/

/-- Dropping a map while a panic unwinds: abort, or go on with its memory freed. -/
theorem droppingD_ok {boom : K × V → Bool} {m : MHeap K V} {steps : Nat} {a : Addr} {T : List (Tower (K × V))}
    (hs : T.length ≤ steps) (ha : (m a).isSome) (hl : getLink m a 0 = some (addrs T).head?) (hr : Run m (addrs T))
    (ht : ∀ t ∈ T, Skip.shape m t.addr = some (some t.e, t.h)) (hn : (a :: addrs T).Nodup)
    (k : MHeap K V → List (K × V) → SetResD K V) :
    ∃ m', droppingD boom steps m (some a) k = (if (T.map (·.e)).any boom then .aborted else k m' (T.map (·.e))) ∧
      ((T.map (·.e)).any boom = false → ∀ b, m' b = if b ∈ a :: addrs T then none else m b) := by
  obtain ⟨hn1, hn2⟩ := List.nodup_cons.1 hn
  obtain ⟨n, hna⟩ := Option.isSome_iff_exists.1 ha
  have hfree : m.free a = some fun b => if b = a then none else m b := by simp [Heap.free, hna]
  have hne : ∀ t ∈ T, t.addr ≠ a := fun t h e => hn1 (e ▸ List.mem_map.2 ⟨t, h, rfl⟩)
  have hlk : Linked (id : Option Addr → Option Addr) (fun b => if b = a then none else m b) (addrs T).head?
      (T.map fun t => (t.addr, t.e)) := by
    refine linked_of_chain (fun t h => ⟨t.h, ?_⟩) fun b Q hP => ?_
    · simpa [Skip.shape, hne t h] using ht t h
    · have hb : b ∈ addrs T := by obtain ⟨P, hP⟩ := hP; simp only [addrs]; rw [hP]; simp
      have : b ≠ a := by rintro rfl; exact hn1 hb
      simpa [getLink, this] using hr b Q hP
  have e1 : (T.map fun t => (t.addr, t.e)).map (·.1) = addrs T := by simp [Function.comp_def]
  have e2 : (T.map fun t => (t.addr, t.e)).map (·.2) = T.map (·.e) := by simp [Function.comp_def]
  obtain ⟨m', h1, h2, _, h4, _⟩ := freeAllD_ok (boom := boom) steps [] (by simpa using hs)
    (by rw [e1]; exact hn2) hlk
  rw [e2] at h1 h4
  rw [e1] at h2 h4
  refine ⟨m', ?_, fun hb b => ?_⟩
  · simp only [droppingD, dropD, hl, hfree, id_eq, h1, List.nil_append]
    cases hb : (T.map (·.e)).any boom with
    | true => rfl
    | false =>
      rw [startedOf_all fun e he => by
        have := List.any_eq_false.1 hb e he
        simpa using this]
  · by_cases hm : b ∈ addrs T
    · rw [if_pos (List.mem_cons_of_mem _ hm)]; exact h4 hb b hm
    · rw [h2 b hm]
      simp only [List.mem_cons, hm, or_false]

/-- The end of a call as the specification says; `X` are nodes that nobody frees. -/
def EndsAs (X : List Addr) : CallEnd (K × V) → SetResD K V → Prop
  | .returned out dropped, x => ∃ c, x = .returned c dropped ∧ c.iter = some out ∧ c.len = out.length ∧
      ∃ m, c.drop = some m ∧ ∀ b, m b = none
  | .unwound dropped, x => ∃ m, x = .unwound m dropped ∧ ∀ b, m b ≠ none ↔ b ∈ X
  | .aborted, x => x = .aborted
  | .undefined, x => x = .undefined

theorem unwindD_ok (boom : K × V → Bool) {s₀ s : Merge K V} {head lh rh : Addr} {O L R X : List (Tower (K × V))}
    {steps : Nat} (log : List (K × V)) (h : MInv s₀ head lh rh O L R X) (hs : Halted s₀ s X) (hO : O.length ≤ steps)
    (hL : L.length ≤ steps) (hR : R.length ≤ steps) :
    EndsAs (lh :: rh :: addrs X) (unwinding boom log (O.map (·.e)) (L.map (·.e)) (R.map (·.e)))
      (unwindD boom steps head s log) := by
  have nn : ∀ {m : MHeap K V} {a p}, Skip.shape m a = some p → (m a).isSome := by
    intro m a p h
    obtain ⟨_, h, _⟩ := shape_eq h
    simp [h]
  have hnd := h.nodup
  simp only [List.map_append, List.cons_append, List.nil_append, List.append_assoc] at hnd
  have hc := h.chain 0 (Nat.zero_le _)
  rw [lv_zero fun t ht => (h.pos t (by simp [ht])).1] at hc
  have p : (head :: lh :: rh :: (addrs O ++ (addrs L ++ (addrs R ++ addrs X)))).Perm
      ((head :: addrs O) ++ (addrs R ++ (addrs L ++ (lh :: rh :: addrs X)))) := by
    classical
    refine List.perm_iff_count.2 fun x => ?_
    simp only [List.count_append, List.count_cons]
    omega
  rw [p.nodup_iff] at hnd
  obtain ⟨n1, n2, n3⟩ := List.nodup_append.1 hnd
  obtain ⟨n4, n5, n6⟩ := List.nodup_append.1 n2
  obtain ⟨n7, n8, n9⟩ := List.nodup_append.1 n5
  have hX : ∀ x, x ∈ addrs X → x ∈ addrs L ++ (lh :: rh :: addrs X) := fun x hx =>
    List.mem_append_right _ (List.mem_cons_of_mem _ (List.mem_cons_of_mem _ hx))
  have oO : ∀ x ∈ head :: addrs O, s.mem x = s₀.mem x := fun x hx => hs.off x fun hc =>
    n3 x hx x (List.mem_append_right _ (hX x hc)) rfl
  have oR : ∀ x ∈ addrs R, s.mem x = s₀.mem x := fun x hx => hs.off x fun hc => n6 x hx x (hX x hc) rfl
  have oL : ∀ x ∈ addrs L, s.mem x = s₀.mem x := fun x hx => hs.off x fun hc =>
    n9 x hx x (List.mem_cons_of_mem _ (List.mem_cons_of_mem _ hc)) rfl
  obtain ⟨m1, a1, a2⟩ := droppingD_ok (boom := boom) (m := s.mem) (a := head) (T := O) hO
    (by rw [oO _ (by simp)]; exact nn (h.hd head (by simp)))
    (by simp only [getLink, oO head (by simp)]; exact chain_link hc)
    (fun x Q hP => by
      have hx : x ∈ addrs O := by obtain ⟨P, hP⟩ := hP; rw [hP]; simp
      simp only [getLink, oO x (by simp [hx])]; exact chain_next (lk := lk s₀.mem 0) hc x Q hP)
    (fun t ht => by
      have : t.addr ∈ addrs O := List.mem_map.2 ⟨t, ht, rfl⟩
      simp only [Skip.shape, oO t.addr (List.mem_cons_of_mem _ this)]
      exact h.tow t (by simp [ht])) n1
    fun m d => droppingD boom steps m s.right fun m d' =>
      droppingD boom steps m s.left fun m d'' => .unwound m (log ++ (d ++ d' ++ d''))
  unfold unwindD
  rw [a1]
  unfold unwinding
  cases hbO : (O.map (·.e)).any boom with
  | true => exact rfl
  | false =>
    simp only [Bool.false_eq_true, if_false]
    have a2 := a2 hbO
    cases R with
    | nil =>
      have : s.right = none := by rw [hs.right]; exact h.right.1
      simp only [this, List.map_nil]
      exact rfl
    | cons b R =>
      have hsr : s.right = some b.addr := by rw [hs.right]; exact h.right.1
      have hr0 : getLink s₀.mem b.addr 0 = some (addrs R).head? := h.right.2 b.addr (addrs R) ⟨[], rfl⟩
      have f1 : ∀ x ∈ addrs (b :: R), m1 x = s₀.mem x := fun x hx => by
        rw [a2, if_neg fun hc => n3 x hc x (List.mem_append_left _ hx) rfl, oR x hx]
      obtain ⟨m2, b1, b2⟩ := droppingD_ok (boom := boom) (steps := steps) (m := m1) (a := b.addr) (T := R)
        (by simp only [List.length_cons] at hR; omega)
        (by rw [f1 _ (by simp)]; exact nn (h.tow b (by simp)))
        (by simp only [getLink, f1 b.addr (by simp)]; exact hr0)
        (fun x Q hP => by
          have hx : x ∈ addrs R := by obtain ⟨P, hP⟩ := hP; rw [hP]; simp
          simp only [getLink, f1 x (by simp only [addrs, List.map_cons]; exact List.mem_cons_of_mem _ hx)]
          exact run_tail h.right.2 x Q hP)
        (fun t ht => by
          have : t.addr ∈ addrs R := List.mem_map.2 ⟨t, ht, rfl⟩
          simp only [Skip.shape, f1 t.addr (List.mem_cons_of_mem _ this)]
          exact h.tow t (by simp [ht])) n4
        fun m d' => droppingD boom steps m s.left fun m d'' => .unwound m (log ++ (O.map (·.e) ++ d' ++ d''))
      simp only [hsr, List.map_cons]
      rw [b1]
      cases hbR : (R.map (·.e)).any boom with
      | true => exact rfl
      | false =>
        simp only [Bool.false_eq_true, if_false]
        have b2 := b2 hbR
        cases L with
        | nil =>
          have : s.left = none := by rw [hs.left]; exact h.left.1
          simp only [this, List.map_nil]
          exact rfl
        | cons a L =>
          have hsl : s.left = some a.addr := by rw [hs.left]; exact h.left.1
          have hl0 : getLink s₀.mem a.addr 0 = some (addrs L).head? := h.left.2 a.addr (addrs L) ⟨[], rfl⟩
          have f2 : ∀ x ∈ addrs (a :: L), m2 x = s₀.mem x := fun x hx => by
            rw [b2, if_neg fun hc : x ∈ b.addr :: addrs R => n6 x hc x (List.mem_append_left _ hx) rfl, a2,
              if_neg fun hc => n3 x hc x (List.mem_append_right _ (List.mem_append_left _ hx)) rfl, oL x hx]
          obtain ⟨m3, c1, c2⟩ := droppingD_ok (boom := boom) (steps := steps) (m := m2) (a := a.addr) (T := L)
            (by simp only [List.length_cons] at hL; omega)
            (by rw [f2 _ (by simp)]; exact nn (h.tow a (by simp)))
            (by simp only [getLink, f2 a.addr (by simp)]; exact hl0)
            (fun x Q hP => by
              have hx : x ∈ addrs L := by obtain ⟨P, hP⟩ := hP; rw [hP]; simp
              simp only [getLink, f2 x (by simp only [addrs, List.map_cons]; exact List.mem_cons_of_mem _ hx)]
              exact run_tail h.left.2 x Q hP)
            (fun t ht => by
              have : t.addr ∈ addrs L := List.mem_map.2 ⟨t, ht, rfl⟩
              simp only [Skip.shape, f2 t.addr (List.mem_cons_of_mem _ this)]
              exact h.tow t (by simp [ht])) n7
            fun m d'' => .unwound m (log ++ (O.map (·.e) ++ R.map (·.e) ++ d''))
          simp only [hsl, List.map_cons]
          rw [c1]
          cases hbL : (L.map (·.e)).any boom with
          | true => exact rfl
          | false =>
            simp only [Bool.false_eq_true, if_false]
            refine ⟨m3, rfl, fun x => ?_⟩
            rw [c2 hbL, b2, a2]
            constructor
            · intro hx
              split at hx
              · exact absurd rfl hx
              · rename_i x1
                split at hx
                · exact absurd rfl hx
                · rename_i x2
                  split at hx
                  · exact absurd rfl hx
                  · rename_i x3
                    by_contra hc
                    apply hx
                    have hxX : x ∉ addrs X := fun hm => hc (List.mem_cons_of_mem _ (List.mem_cons_of_mem _ hm))
                    have hc1 : x ≠ lh ∧ x ≠ rh := by
                      simp only [List.mem_cons, not_or] at hc; exact ⟨hc.1, hc.2.1⟩
                    rw [hs.off x hxX]
                    have := h.only x (by
                      simp only [List.mem_cons, not_or] at x3 ⊢
                      exact ⟨x3.1, hc1.1, hc1.2, by simp⟩) (by
                      simp only [List.map_append, List.map_cons, List.mem_append, List.mem_cons, not_or] at x1 x2 x3 ⊢
                      exact ⟨⟨⟨x3.2, x1⟩, x2⟩, hxX⟩)
                    simpa [Skip.shape] using this
            · intro hm
              rw [if_neg fun hc : x ∈ a.addr :: addrs L => n9 x hc x hm rfl,
                if_neg fun hc : x ∈ b.addr :: addrs R => n6 x hc x (List.mem_append_right _ hm) rfl,
                if_neg fun hc => n3 x hc x (List.mem_append_right _ (List.mem_append_right _ hm)) rfl]
              by_cases hxX : x ∈ addrs X
              · exact hs.on x hxX
              · rw [hs.off x hxX]
                have := nn (h.hd x (by
                  simp only [List.mem_cons] at hm ⊢
                  rcases hm with rfl | rfl | hm
                  · simp
                  · simp
                  · exact absurd hm hxX))
                intro hc
                rw [hc] at this
                simp at this

theorem setOpD_ok (boom : K × V → Bool) (op : MergeOp) (ans : List Ordering) (off : Nat) {l r : SkipMap K V}
    {Cl Cr : Nat → List Addr} {El Er : List (K × V)} (hl : WGood l Cl El) (hr : WGood r Cr Er) (hd : Disjoint l r) :
    (∃ X : List Addr, X.length ≤ 1 ∧
      (∀ x ∈ X, ∃ e, boom e = true ∧ (entryAt l.mem x = some e ∨ entryAt r.mem x = some e)) ∧
      EndsAs (l.head :: r.head :: X) ((op.runD boom ans El Er).callEnd boom) (l.setOpD boom op ans r off)) ∧
    ∀ c d, l.setOpD boom op ans r off = .returned c d → ∃ C E, WGood c C E := by
  obtain ⟨L, hL, rfl⟩ := hl.laid
  obtain ⟨R, hR, rfl⟩ := hr.laid
  obtain ⟨s, head, h1, h2, h3, h4⟩ := mergeInit_ok off hL hR hd
  have nn : ∀ {m : MHeap K V} {a p}, Skip.shape m a = some p → m a ≠ none := by
    intro m a p h hc; simp [Skip.shape, hc] at h
  have hsim := loopD_ok boom op
    (B := fun t => t.addr < head ∧ (entryAt l.mem t.addr = some t.e ∨ entryAt r.mem t.addr = some t.e))
    (l.len + r.len) ans [] h1 (by rw [hL.len, hR.len])
    (fun t ht => ⟨by
      by_contra hc
      exact nn (hL.tow t ht) (h3 _ (Nat.le_of_not_lt hc)).1, .inl (entryAt_of_shape (hL.tow t ht))⟩)
    (fun t ht => ⟨by
      by_contra hc
      exact nn (hR.tow t ht) (h3 _ (Nat.le_of_not_lt hc)).2, .inr (entryAt_of_shape (hR.tow t ht))⟩)
  have hrun := MergeOp.runD_entries boom op ans (L.map (·.e)) (R.map (·.e))
  generalize op.runD boom ans (L.map (·.e)) (R.map (·.e)) = o at hsim hrun
  have nret : ∀ (x : SetResD K V) (o : CallEnd (K × V)) (X : List Addr), EndsAs X o x → (∀ out d, o ≠ .returned out d) →
      ∀ c d, x ≠ .returned c d := by
    intro x o X h ho c d hc
    cases o with
    | returned out d => exact ho _ _ rfl
    | unwound d => obtain ⟨m, h, _⟩ := h; rw [hc] at h; cases h
    | aborted => rw [hc] at h; cases h
    | undefined => rw [hc] at h; cases h
  have unot : ∀ (dropped out left right : List (K × V)), ∀ out' d', unwinding boom dropped out left right ≠ .returned out' d' := by
    intro dropped out left right out' d'
    unfold unwinding
    split
    · simp
    · split
      · simp
      · split
        · simp
        · split
          · simp
          · split <;> simp
  cases o with
  | finished out d =>
    obtain ⟨s', Z, g1, rfl, g3, g4⟩ := hsim
    obtain ⟨m, m', e1, e2, e3⟩ := finish_ok (by simpa using g4) h2 (fun t ht => (g3 t ht).1) fun a ha => by
      constructor
      · rintro rfl; exact nn hL.hd (h3 _ ha).1
      · rintro rfl; exact nn hR.hd (h3 _ ha).2
    have e : l.setOpD boom op ans r off = .returned ⟨m', head, s'.len, head + 1⟩ d := by
      simp [SkipMap.setOpD, h4, g1, e1, e2]
    refine ⟨⟨[], by simp, by simp, _, e, iterL_ok e3, ?_, lawlessDrop_ok e3⟩, ?_⟩
    · rw [e3.len_eq, e3.length]
    · intro c d' hc
      rw [e] at hc
      cases hc
      exact ⟨_, _, e3⟩
  | compared out d le ri =>
    obtain ⟨s', Z, L', R', g1, rfl, rfl, rfl, g4⟩ := hsim
    have hlen := (hrun (by simp)).length_eq
    simp only [Halt.entries, List.length_append, List.length_map] at hlen
    have e := unwindD_ok boom (steps := l.len + r.len) d g4 ⟨rfl, rfl, fun _ _ => rfl, fun _ h => by simp at h⟩
      (by rw [hL.len, hR.len]; simp only [List.nil_append]; omega)
      (by rw [hL.len, hR.len]; omega) (by rw [hL.len, hR.len]; omega)
    have e0 : l.setOpD boom op ans r off = unwindD boom (l.len + r.len) head s' d := by
      simp [SkipMap.setOpD, h4, g1]
    rw [← e0] at e
    exact ⟨⟨[], by simp, by simp, e⟩, fun c d' hc => absurd hc (nret _ _ _ e (unot _ _ _ _) c d')⟩
  | destroyed out d le ri =>
    obtain ⟨s₀, s', Z, L', R', t, g1, rfl, rfl, rfl, g4, g5, g6, g7⟩ := hsim
    have hlen := (hrun (by simp)).length_eq
    simp only [Halt.entries, List.length_append, List.length_map] at hlen
    have e := unwindD_ok boom (steps := l.len + r.len) d g4 g5
      (by rw [hL.len, hR.len]; simp only [List.nil_append]; omega)
      (by rw [hL.len, hR.len]; omega) (by rw [hL.len, hR.len]; omega)
    have e0 : l.setOpD boom op ans r off = unwindD boom (l.len + r.len) head s' d := by
      simp [SkipMap.setOpD, h4, g1]
    rw [← e0] at e
    exact ⟨⟨[t.addr], by simp, by simpa using ⟨_, _, g7, g6.2⟩, e⟩,
      fun c d' hc => absurd hc (nret _ _ _ e (unot _ _ _ _) c d')⟩
  | crashed =>
    have hsim : loopD boom op (l.len + r.len) ans s [] = none := hsim
    have e : l.setOpD boom op ans r off = .undefined := by simp [SkipMap.setOpD, h4, hsim]
    exact ⟨⟨[], by simp, by simp, e⟩, by simp [e]⟩

/-! ### The theorems -/

/-- C81, exactly: for all maps, whatever the comparisons answer, and whichever destructors panic (`boom`), a set
operation ends as the specification says.  When it unwinds, the two head nodes stay allocated, and so does at most one
node `x` more, the one of the entry whose destructor panicked. -/
theorem C81_exact (boom : K × V → Bool) (op : MergeOp) (ans : List Ordering) (off : Nat) {l r : SkipMap K V}
    (hl : Built l) (hr : Built r) (hd : Disjoint l r) :
    ∃ El Er, l.iter = some El ∧ r.iter = some Er ∧
      ∃ X : List Addr, X.length ≤ 1 ∧
        (∀ x ∈ X, ∃ e, boom e = true ∧ (entryAt l.mem x = some e ∨ entryAt r.mem x = some e)) ∧
        EndsAs (l.head :: r.head :: X) ((op.runD boom ans El Er).callEnd boom) (l.setOpD boom op ans r off) := by
  obtain ⟨Cl, El, gl⟩ := built_good hl
  obtain ⟨Cr, Er, gr⟩ := built_good hr
  exact ⟨El, Er, iterL_ok gl, iterL_ok gr, (setOpD_ok boom op ans off gl gr hd).1⟩

/-- The maps that are returned can be used like any others (C75). -/
theorem C81_result_usable (boom : K × V → Bool) (op : MergeOp) (ans : List Ordering) (off : Nat) {l r c : SkipMap K V}
    (hl : Built l) (hr : Built r) (hd : Disjoint l r) {d : List (K × V)} (h : l.setOpD boom op ans r off = .returned c d)
    (ops : List (LCall K V × Draw)) (hops : ∀ x ∈ ops, x.1.Edits → x.1.Steady) :
    ∃ l s' h l', c.iter = some l ∧ runL c ops = some (s', h) ∧ h.map (·.1) = ops.map (·.1) ∧ LHistory l h l' ∧
      s'.iter = some l' ∧ ∃ m, s'.drop = some m ∧ ∀ b, m b = none := by
  obtain ⟨Cl, El, gl⟩ := built_good hl
  obtain ⟨Cr, Er, gr⟩ := built_good hr
  obtain ⟨C, E, hg⟩ := (setOpD_ok boom op ans off gl gr hd).2 c d h
  obtain ⟨s', h, C', l', h1, h2, h3, h4⟩ := runL_ok hg ops hops
  exact ⟨E, s', h, l', iterL_ok hg, h1, h2, h4, iterL_ok h3, lawlessDrop_ok h3⟩

theorem unwinding_cases (boom : K × V → Bool) (dropped out left right : List (K × V)) :
    unwinding boom dropped out left right = .aborted ∧ (∃ e ∈ out ++ left ++ right, boom e = true) ∨
    unwinding boom dropped out left right = .undefined ∧ (left = [] ∨ right = []) ∨
    ∃ a lt b rt, left = a :: lt ∧ right = b :: rt ∧
      unwinding boom dropped out left right = .unwound (dropped ++ (out ++ rt ++ lt)) := by
  unfold unwinding
  split
  · rename_i h
    obtain ⟨e, h1, h2⟩ := List.any_eq_true.1 h
    exact .inl ⟨rfl, e, by simp [h1], h2⟩
  · cases right with
    | nil => exact .inr (.inl ⟨rfl, .inr rfl⟩)
    | cons b rt =>
      simp only
      split
      · rename_i h
        obtain ⟨e, h1, h2⟩ := List.any_eq_true.1 h
        exact .inl ⟨rfl, e, by simp [h1], h2⟩
      · cases left with
        | nil => exact .inr (.inl ⟨rfl, .inl rfl⟩)
        | cons a lt =>
          simp only
          split
          · rename_i h
            obtain ⟨e, h1, h2⟩ := List.any_eq_true.1 h
            exact .inl ⟨rfl, e, by simp [h1], h2⟩
          · exact .inr (.inr ⟨a, lt, b, rt, rfl, rfl, rfl⟩)

/-- C81 for `union` from the side of the caller.  Either it returns, and every entry of the two maps is in the result or
has been dropped, once; or it unwinds, and every entry except two has been dropped, once; or a second destructor panics
while it unwinds, and the process is aborted; or its behaviour is undefined, and this only if the destructor of the last
entry of the right map panics.

Missing: that no call is undefined and that nothing leaks, which is false (`C81_violated`). -/
theorem C81_union_partial (boom : K × V → Bool) (ans : List Ordering) (off : Nat) {l r : SkipMap K V} (hl : Built l)
    (hr : Built r) (hd : Disjoint l r) :
    ∃ El Er, l.iter = some El ∧ r.iter = some Er ∧
      ((∃ c out dropped, l.setOpD boom .union ans r off = .returned c dropped ∧ c.iter = some out ∧
          c.len = out.length ∧ (out ++ dropped).Perm (El ++ Er) ∧ ∃ m, c.drop = some m ∧ ∀ b, m b = none) ∨
        (∃ m dropped, l.setOpD boom .union ans r off = .unwound m dropped ∧
          (∃ a b, (a :: b :: dropped).Perm (El ++ Er)) ∧ m l.head ≠ none ∧ m r.head ≠ none ∧
          ∃ X : List Addr, X.length ≤ 1 ∧
            (∀ x ∈ X, ∃ e, boom e = true ∧ (entryAt l.mem x = some e ∨ entryAt r.mem x = some e)) ∧
            ∀ x, m x ≠ none → x = l.head ∨ x = r.head ∨ x ∈ X) ∨
        (l.setOpD boom .union ans r off = .aborted ∧ ∃ e ∈ El ++ Er, boom e = true) ∨
        (l.setOpD boom .union ans r off = .undefined ∧ ∃ e, Er.getLast? = some e ∧ boom e = true)) := by
  obtain ⟨El, Er, h1, h2, X, h3, h4, h5⟩ := C81_exact boom .union ans off hl hr hd
  refine ⟨El, Er, h1, h2, ?_⟩
  have hp := MergeOp.runD_entries boom .union ans El Er
  obtain ⟨k1, k2, k3⟩ := union_halt boom ans El Er
  have hp := hp k1
  have unw : ∀ (out d le ri : List (K × V)), (out ++ d ++ (le ++ ri)).Perm (El ++ Er) →
      EndsAs (l.head :: r.head :: X) (unwinding boom d out le ri) (l.setOpD boom .union ans r off) →
      (le ≠ [] ∧ (ri = [] → ∃ e, Er.getLast? = some e ∧ boom e = true)) →
      (∃ m dropped, l.setOpD boom .union ans r off = .unwound m dropped ∧
          (∃ a b, (a :: b :: dropped).Perm (El ++ Er)) ∧ m l.head ≠ none ∧ m r.head ≠ none ∧
          ∃ X : List Addr, X.length ≤ 1 ∧
            (∀ x ∈ X, ∃ e, boom e = true ∧ (entryAt l.mem x = some e ∨ entryAt r.mem x = some e)) ∧
            ∀ x, m x ≠ none → x = l.head ∨ x = r.head ∨ x ∈ X) ∨
        (l.setOpD boom .union ans r off = .aborted ∧ ∃ e ∈ El ++ Er, boom e = true) ∨
        (l.setOpD boom .union ans r off = .undefined ∧ ∃ e, Er.getLast? = some e ∧ boom e = true) := by
    intro out d le ri hperm he hs
    rcases unwinding_cases boom d out le ri with ⟨e1, e, e2, e3⟩ | ⟨e1, e2⟩ | ⟨a, lt, b, rt, rfl, rfl, e1⟩
    · rw [e1] at he
      refine .inr (.inl ⟨he, e, hperm.mem_iff.1 ?_, e3⟩)
      simp only [List.mem_append] at e2 ⊢
      tauto
    · rw [e1] at he
      rcases e2 with e2 | e2
      · exact absurd e2 hs.1
      · exact .inr (.inr ⟨he, hs.2 e2⟩)
    · rw [e1] at he
      obtain ⟨m, he1, he2⟩ := he
      refine .inl ⟨m, _, he1, ⟨a, b, .trans ?_ hperm⟩, (he2 _).2 (by simp), (he2 _).2 (by simp), X, h3, h4,
        fun x hx => by simpa using (he2 x).1 hx⟩
      classical
      refine List.perm_iff_count.2 fun x => ?_
      simp only [List.count_append, List.count_cons]
      omega
  generalize MergeOp.union.runD boom ans El Er = o at h5 hp k1 k2 k3
  cases o with
  | crashed => exact absurd rfl k1
  | finished out d =>
    obtain ⟨c, g1, g2, g3, g4⟩ := h5
    exact .inl ⟨c, out, d, g1, g2, g3, hp, g4⟩
  | compared out d le ri =>
    exact .inr (unw out d le ri hp h5 ⟨(k2 _ _ _ _ rfl).1, fun hc => absurd hc (k2 _ _ _ _ rfl).2⟩)
  | destroyed out d le ri => exact .inr (unw out d le ri hp h5 (k3 _ _ _ _ rfl))

/-- A difference whose left map is used up drops the rest of the right map; if a destructor panics there, the behaviour is
undefined or the process is aborted, always. -/
theorem C81_difference_tail (boom : K × V → Bool) (ans : List Ordering) (off : Nat) {l r : SkipMap K V} (hl : Built l)
    (hr : Built r) (hd : Disjoint l r) (hn : l.len = 0) {Er : List (K × V)} (he : r.iter = some Er)
    (hb : ∃ e ∈ Er, boom e = true) :
    l.setOpD boom (.difference false) ans r off = .undefined ∨ l.setOpD boom (.difference false) ans r off = .aborted := by
  obtain ⟨Cl, El, gl⟩ := built_good hl
  obtain ⟨Cr, Er', gr⟩ := built_good hr
  have h := (setOpD_ok boom (.difference false) ans off gl gr hd).1
  have e0 : El = [] := List.length_eq_zero_iff.1 (by rw [← gl.length, ← gl.len_eq, hn])
  rw [iterL_ok gr] at he
  cases he
  subst e0
  obtain ⟨X, _, _, h⟩ := h
  have key : ∀ r : List (K × V), (∃ e ∈ r, boom e = true) → ∃ d ri, dropTail boom r = .destroyed [] d [] ri := by
    intro r hr
    induction r with
    | nil => simp at hr
    | cons e r ih =>
      simp only [dropTail, dropping]
      split
      · exact ⟨_, _, rfl⟩
      · rename_i hb
        obtain ⟨e', h1, h2⟩ := hr
        rcases List.mem_cons.1 h1 with rfl | h1
        · exact absurd h2 hb
        · obtain ⟨d, ri, h3⟩ := ih ⟨e', h1, h2⟩
          exact ⟨e :: d, ri, by rw [h3]; rfl⟩
  obtain ⟨d, ri, hk⟩ := key _ hb
  have hk' : (MergeOp.difference false).runD boom ans [] Er = .destroyed [] d [] ri := by
    cases ans <;> exact hk
  rw [hk'] at h
  rcases unwinding_cases boom d [] [] ri with ⟨e1, _⟩ | ⟨e1, _⟩ | ⟨a, lt, b, rt, e, _⟩
  · rw [Halt.callEnd, e1] at h; exact .inr h
  · rw [Halt.callEnd, e1] at h; exact .inl h
  · cases e

/-- If no destructor panics the calls end as in C78. -/
theorem C81_covers_calm (op : MergeOp) (ans : List Ordering) (l r : List (K × V)) :
    (op.runD (fun _ => false) ans l r).callEnd (fun _ => false) =
      match op.run ans l r with
      | .returned out dropped => .returned out dropped
      | .stopped out dropped left right => .unwound (dropped ++ (out ++ right.tail ++ left.tail))
      | .crashed => .undefined := by
  rw [MergeOp.runD_calm]
  have hf := MergeOp.run_fronts op ans l r
  cases h : op.run ans l r with
  | returned out d => rfl
  | crashed => rfl
  | stopped out d le ri =>
    obtain ⟨a, le', b, ri', rfl, rfl, _⟩ := hf out d le ri h
    simp [Halt.callEnd, unwinding]

/-- What a call leaves to see. -/
def SetResD.view : SetResD Nat Char → CallEnd (Nat × Char)
  | .returned c d => match c.iter with
    | some out => .returned out d
    | none => .undefined
  | .unwound _ d => .unwound d
  | .aborted => .aborted
  | .undefined => .undefined

/-- The hypotheses are met.  The destructor of `(3, 'x')` panics in a union: the collected `(1, 'a')` and the rest are
dropped, `(3, 'b')` and `(7, 'y')` are not.  The destructor of the last entry of the right map panics.  A second
destructor panics.  The destructor of an entry that is not dropped would panic.  A difference drops an entry of the left
map. -/
example : Built demoL ∧ Built demoR ∧ Disjoint demoL demoR ∧
    (demoL.setOpD (· == (3, 'x')) .union [.lt, .eq, .lt, .lt] demoR 0).view =
      .unwound [(3, 'x'), (1, 'a'), (5, 'c')] ∧
    (demoL.setOpD (· == (7, 'y')) .union [.lt, .eq, .eq] demoR 0).view = .undefined ∧
    (demoL.setOpD (fun e => e == (3, 'x') || e == (1, 'a')) .union [.lt, .eq] demoR 0).view = .aborted ∧
    (demoL.setOpD (· == (7, 'y')) .union [.lt, .eq, .lt, .lt] demoR 0).view =
      .returned [(1, 'a'), (3, 'b'), (5, 'c'), (7, 'y')] [(3, 'x')] ∧
    (demoL.setOpD (· == (3, 'b')) (.difference false) [.lt, .eq, .lt] demoR 0).view =
      .unwound [(3, 'b'), (1, 'a'), (7, 'y')] :=
  ⟨built_putAll 0 _, built_putAll 4 _, demo_disjoint, by decide +kernel, by decide +kernel, by decide +kernel,
    by decide +kernel, by decide +kernel⟩

/-- C81 is false: with right answers and one destructor that panics, a union has undefined behaviour.  Here `{1, 3, 5}` is
united with `{3}`, and the destructor of the entry 3 of the right map panics. -/
theorem C81_violated :
    ¬ ∀ (boom : Nat × Char → Bool) (ans : List Ordering) (off : Nat) (l r : SkipMap Nat Char), Built l → Built r →
      Disjoint l r → l.setOpD boom .union ans r off ≠ .undefined := by
  intro h
  have hd : Disjoint demoL (putAll 4 [(3, 'x', 3)]) := built_disjoint (built_putAll 0 _) (by decide +kernel)
  have e : (demoL.setOpD (· == (3, 'x')) .union [.lt, .eq] (putAll 4 [(3, 'x', 3)]) 0).view = .undefined := by
    decide +kernel
  obtain ⟨El, Er, _, _, X, _, _, h5⟩ :=
    C81_exact (· == (3, 'x')) .union [.lt, .eq] 0 (built_putAll 0 [(1, 'a', 0), (3, 'b', 2), (5, 'c', 1)])
      (built_putAll 4 [(3, 'x', 3)]) hd
  refine h (· == (3, 'x')) [.lt, .eq] 0 _ _ (built_putAll 0 [(1, 'a', 0), (3, 'b', 2), (5, 'c', 1)])
    (built_putAll 4 [(3, 'x', 3)]) hd ?_
  change EndsAs _ _ (demoL.setOpD (· == (3, 'x')) .union [.lt, .eq] (putAll 4 [(3, 'x', 3)]) 0) at h5
  change demoL.setOpD (· == (3, 'x')) .union [.lt, .eq] (putAll 4 [(3, 'x', 3)]) 0 = _
  generalize demoL.setOpD (· == (3, 'x')) .union [.lt, .eq] (putAll 4 [(3, 'x', 3)]) 0 = x at h5 e ⊢
  cases x with
  | undefined => rfl
  | aborted => cases e
  | unwound m d => cases e
  | returned c d =>
    generalize (MergeOp.union.runD (· == (3, 'x')) [.lt, .eq] El Er).callEnd (· == (3, 'x')) = o at h5
    cases o with
    | returned out d' =>
      obtain ⟨c', h6, h7, _⟩ := h5
      cases h6
      simp [SetResD.view, h7] at e
    | unwound d' => obtain ⟨m, h6, _⟩ := h5; cases h6
    | aborted => cases h5
    | undefined => cases h5

end Verif.Skip.Map
