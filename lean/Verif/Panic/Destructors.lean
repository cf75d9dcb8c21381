/- Property C76 for the tree containers: the destructor of an entry panics while `clear` destroys the tree, and the
client catches the panic.

The nodes are destroyed by the code the compiler generates (see `Drop.Nesting`): if a destructor panics, the remaining
fields and nodes are still destroyed while unwinding; if a second one panics meanwhile, the process is aborted.  The
assignment `self.tree = None` puts the new value in place before it unwinds.  Simplification: the destructors of the key
and of the value of an entry are one event. -/
import Verif.Panic.Props
import Verif.Drop.Nesting
import Verif.Radix.IterMut
import Verif.Spec.Destructors

namespace Verif.Panic

open Verif.Spec Verif.Bst

/-- How a call ends that destroys things: it returns, it unwinds after one destructor panicked, or the process is
aborted because a second one did. -/
inductive Fate where
  | returned
  | panicked
  | aborted
  deriving DecidableEq

/-- How the destruction of the entries `es` ends. -/
def fateOf {E : Type} (boom : E → Bool) (es : List E) : Fate :=
  match es.countP boom with
  | 0 => .returned
  | 1 => .panicked
  | _ => .aborted

section maps

variable {K V : Type}

/-- avl_tree/map.rs:215-218 `clear`: the destructors started, how the call ends, and what is left (`none` if the process
is aborted).  `len = 0` comes after the assignment that may panic. -/
def avlClearD (boom : K × V → Bool) (m : Avl.AvlMap K V) : List (K × V) × Fate × Option (Avl.AvlMap K V) :=
  let es := Drop.freed (Drop.dropTree m.tree)
  match fateOf boom es with
  | .returned => (es, .returned, some ⟨.nil, 0⟩)
  | .panicked => (es, .panicked, some ⟨.nil, m.len⟩)
  | .aborted => (es, .aborted, none)

/-- red_black_tree/map.rs:231-234 `clear`, likewise. -/
def rbClearD (boom : K × V → Bool) (m : RedBlack.RedBlackMap K V) :
    List (K × V) × Fate × Option (RedBlack.RedBlackMap K V) :=
  let es := Drop.freed (Drop.dropTree m.tree)
  match fateOf boom es with
  | .returned => (es, .returned, some ⟨.nil, 0⟩)
  | .panicked => (es, .panicked, some ⟨.nil, m.len⟩)
  | .aborted => (es, .aborted, none)

/-- splay_tree/map.rs:218-221 `clear`, likewise. -/
def splayClearD (boom : K × V → Bool) (m : Splay.SplayMap K V) : List (K × V) × Fate × Option (Splay.SplayMap K V) :=
  let es := Drop.freed (Drop.dropTree m.tree)
  match fateOf boom es with
  | .returned => (es, .returned, some ⟨.nil, 0⟩)
  | .panicked => (es, .panicked, some ⟨.nil, m.len⟩)
  | .aborted => (es, .aborted, none)

/-- treap/map.rs:220-222 `clear`; the treap has no separate length. -/
def treapClearD (boom : K × V → Bool) (m : Treap.TreapMap K V) : List (K × V) × Fate × Option (Treap.TreapMap K V) :=
  let es := Drop.freed (Drop.dropTree m.tree)
  match fateOf boom es with
  | .returned => (es, .returned, some ⟨.nil⟩)
  | .panicked => (es, .panicked, some ⟨.nil⟩)
  | .aborted => (es, .aborted, none)

theorem freed_perm {A : Type} (t : Tree A K V) : (Drop.freed (Drop.dropTree t)).Perm t.toList := by
  induction t with
  | nil => exact .refl _
  | node a l k v r ihl ihr =>
    simp only [Drop.dropTree, Drop.freed, Drop.freed_append, List.append_nil, Tree.toList]
    refine List.Perm.trans ?_ List.perm_middle.symm
    exact List.Perm.cons _ (ihl.append ihr)

theorem fate_perm {E : Type} (boom : E → Bool) {a b : List E} (h : a.Perm b) : fateOf boom a = fateOf boom b := by
  simp only [fateOf, h.countP_eq]

variable [LinearOrder K]

/-- A history that starts in a given state. -/
def Explains (I : PanicImpl K V) {S : Type} (R : MapOp K V → S → MapRes K V → S → Prop) (D : MapOp K V → S → S → Prop)
    (s : I.State) (σ : S) : Prop :=
  ∀ ops : List (MapOp K V × I.Draw × Nat), ∃ s' h σ', I.run s ops = some (s', h) ∧ h.map (·.1) = ops.map (·.1) ∧
    PanicHistory R D σ h σ'

theorem explains {I : PanicImpl K V} {S : Type} {σ₀ : S} {R : MapOp K V → S → MapRes K V → S → Prop}
    {D : MapOp K V → S → S → Prop} (P : SL.PanicSim I σ₀ R D) {s : I.State} {σ : S} (h : P.rel s σ) :
    Explains I R D s σ := by
  intro ops
  obtain ⟨s', hh, σ', h1, h2, h3, _⟩ := P.run ops s σ h
  exact ⟨s', hh, σ', h1, h2, h3⟩

/-- **C76, `AvlMap`, partial.** `clear` runs the destructor of every entry exactly once.  If one of them panics, the map
that is left is empty and every later history is one of an empty ordered map, but `len()` goes on counting the entries
that are gone; if more than one panics the process is aborted.  Missing: the right length after a panic
(`C76_avl_violated`). -/
theorem C76_avl_partial (m : Avl.AvlMap K V) (boom : K × V → Bool) :
    (avlClearD boom m).1.Perm m.tree.toList ∧
    (m.tree.toList.countP boom = 0 → (avlClearD boom m).2 = (.returned, some Avl.AvlMap.new)) ∧
    (m.tree.toList.countP boom = 1 → ∃ m', (avlClearD boom m).2 = (.panicked, some m') ∧
      Explains (Avl.panicImpl K V) Counted.Ret Counted.Uprooted m' ⟨AMap.empty, m.len⟩) ∧
    (2 ≤ m.tree.toList.countP boom → (avlClearD boom m).2 = (.aborted, none)) := by
  have hc := (freed_perm m.tree).countP_eq boom
  refine ⟨?_, ?_, ?_, ?_⟩
  · simp only [avlClearD]; split <;> exact freed_perm m.tree
  · intro h; simp [avlClearD, fateOf, hc, h, Avl.AvlMap.new]
  · intro h
    refine ⟨⟨.nil, m.len⟩, by simp [avlClearD, fateOf, hc, h], explains (Avl.panicSim K V) ?_⟩
    exact ⟨rfl, by simp [SL.Sorted], Nat.zero_le _⟩
  · intro h
    obtain ⟨n, hn⟩ : ∃ n, m.tree.toList.countP boom = n + 2 := ⟨_, (Nat.sub_add_cancel h).symm⟩
    simp [avlClearD, fateOf, hc, hn]

/-- **C76, `RedBlackMap`, partial**, as `C76_avl_partial`. -/
theorem C76_rb_partial (m : RedBlack.RedBlackMap K V) (boom : K × V → Bool) :
    (rbClearD boom m).1.Perm m.tree.toList ∧
    (m.tree.toList.countP boom = 0 → (rbClearD boom m).2 = (.returned, some RedBlack.RedBlackMap.new)) ∧
    (m.tree.toList.countP boom = 1 → ∃ m', (rbClearD boom m).2 = (.panicked, some m') ∧
      Explains (RedBlack.panicImpl K V) Counted.Ret Counted.Uprooted m' ⟨AMap.empty, m.len⟩) ∧
    (2 ≤ m.tree.toList.countP boom → (rbClearD boom m).2 = (.aborted, none)) := by
  have hc := (freed_perm m.tree).countP_eq boom
  refine ⟨?_, ?_, ?_, ?_⟩
  · simp only [rbClearD]; split <;> exact freed_perm m.tree
  · intro h; simp [rbClearD, fateOf, hc, h, RedBlack.RedBlackMap.new]
  · intro h
    refine ⟨⟨.nil, m.len⟩, by simp [rbClearD, fateOf, hc, h], explains (RedBlack.panicSim K V) ?_⟩
    exact ⟨rfl, by simp [SL.Sorted], Nat.zero_le _, 0, RedBlack.ll_nil.2 ⟨rfl, rfl⟩⟩
  · intro h
    obtain ⟨n, hn⟩ : ∃ n, m.tree.toList.countP boom = n + 2 := ⟨_, (Nat.sub_add_cancel h).symm⟩
    simp [rbClearD, fateOf, hc, hn]

/-- **C76, `SplayMap`, partial**, as `C76_avl_partial`. -/
theorem C76_splay_partial (m : Splay.SplayMap K V) (boom : K × V → Bool) :
    (splayClearD boom m).1.Perm m.tree.toList ∧
    (m.tree.toList.countP boom = 0 → (splayClearD boom m).2 = (.returned, some Splay.SplayMap.new)) ∧
    (m.tree.toList.countP boom = 1 → ∃ m', (splayClearD boom m).2 = (.panicked, some m') ∧
      Explains (Splay.panicImpl K V) Counted.Ret Counted.Trims m' ⟨AMap.empty, m.len⟩) ∧
    (2 ≤ m.tree.toList.countP boom → (splayClearD boom m).2 = (.aborted, none)) := by
  have hc := (freed_perm m.tree).countP_eq boom
  refine ⟨?_, ?_, ?_, ?_⟩
  · simp only [splayClearD]; split <;> exact freed_perm m.tree
  · intro h; simp [splayClearD, fateOf, hc, h, Splay.SplayMap.new]
  · intro h
    refine ⟨⟨.nil, m.len⟩, by simp [splayClearD, fateOf, hc, h], explains (Splay.panicSim K V) ?_⟩
    exact ⟨rfl, by simp [SL.Sorted], Nat.zero_le _⟩
  · intro h
    obtain ⟨n, hn⟩ : ∃ n, m.tree.toList.countP boom = n + 2 := ⟨_, (Nat.sub_add_cancel h).symm⟩
    simp [splayClearD, fateOf, hc, hn]

omit [LinearOrder K] in
/-- **C76, `TreapMap`.** `clear` runs the destructor of every entry exactly once and leaves a new map, whether one of
them panics or not; if more than one panics the process is aborted. -/
theorem C76_treap (m : Treap.TreapMap K V) (boom : K × V → Bool) :
    (treapClearD boom m).1.Perm m.tree.toList ∧
    (m.tree.toList.countP boom = 0 → (treapClearD boom m).2 = (.returned, some Treap.TreapMap.new)) ∧
    (m.tree.toList.countP boom = 1 → (treapClearD boom m).2 = (.panicked, some Treap.TreapMap.new)) ∧
    (2 ≤ m.tree.toList.countP boom → (treapClearD boom m).2 = (.aborted, none)) := by
  have hc := (freed_perm m.tree).countP_eq boom
  refine ⟨?_, ?_, ?_, ?_⟩
  · simp only [treapClearD]; split <;> exact freed_perm m.tree
  · intro h; simp [treapClearD, fateOf, hc, h, Treap.TreapMap.new]
  · intro h; simp [treapClearD, fateOf, hc, h, Treap.TreapMap.new]
  · intro h
    obtain ⟨n, hn⟩ : ∃ n, m.tree.toList.countP boom = n + 2 := ⟨_, (Nat.sub_add_cancel h).symm⟩
    simp [treapClearD, fateOf, hc, hn]

/-- **C76 is violated by `AvlMap`, `RedBlackMap` and `SplayMap`**, by every map with entries, if exactly one destructor
panics: afterwards the map contains nothing, but `len()` and `is_empty()` are what they were before. -/
theorem C76_violated (boom : K × V → Bool) :
    (∀ m : Avl.AvlMap K V, m.tree.toList.countP boom = 1 → ∃ m', (avlClearD boom m).2 = (.panicked, some m') ∧
      Avl.step m' .iter () = some (m', .list []) ∧ Avl.step m' .len () = some (m', .num m.len)) ∧
    (∀ m : RedBlack.RedBlackMap K V, m.tree.toList.countP boom = 1 → ∃ m', (rbClearD boom m).2 = (.panicked, some m') ∧
      RedBlack.step m' .iter () = some (m', .list []) ∧ RedBlack.step m' .len () = some (m', .num m.len)) ∧
    (∀ m : Splay.SplayMap K V, m.tree.toList.countP boom = 1 → ∃ m', (splayClearD boom m).2 = (.panicked, some m') ∧
      Splay.step m' .iter () = some (m', .list []) ∧ Splay.step m' .len () = some (m', .num m.len)) := by
  refine ⟨fun m h => ?_, fun m h => ?_, fun m h => ?_⟩ <;> have hc := (freed_perm m.tree).countP_eq boom
  · exact ⟨⟨.nil, m.len⟩, by simp [avlClearD, fateOf, hc, h], by simp [Avl.step, Iter.collect_start], rfl⟩
  · exact ⟨⟨.nil, m.len⟩, by simp [rbClearD, fateOf, hc, h], by simp [RedBlack.step, Iter.collect_start], rfl⟩
  · exact ⟨⟨.nil, m.len⟩, by simp [splayClearD, fateOf, hc, h], by simp [Splay.step, Iter.collect_start], rfl⟩

end maps

/-- An AVL map with three entries, one of whose destructors panics: the hypotheses above are met, and `len()` stays 3. -/
example : (((Avl.panicImpl Nat Nat).run Avl.AvlMap.new [(.insert 1 10, (), 9), (.insert 2 20, (), 9), (.insert 3 30, (), 9)]).map
    fun p => (p.1.len, p.1.tree.toList.countP (fun e => e.1 == 1), (avlClearD (fun e => e.1 == 1) p.1).1,
      (avlClearD (fun e => e.1 == 1) p.1).2.1, (avlClearD (fun e => e.1 == 1) p.1).2.2.map (·.len))) =
    some (3, 1, [(2, 20), (1, 10), (3, 30)], .panicked, some 3) := by decide +kernel

/-- radix/map.rs:204-207 `clear`: the new root replaces the old one, which is destroyed; `len = 0` comes last. -/
def radixClearD {V : Type} (boom : V → Bool) (m : Radix.RadixMap V) : List V × Fate × Option (Radix.RadixMap V) :=
  let es := Drop.freed (Drop.Radix.dropTree m.root)
  match fateOf boom es with
  | .returned => (es, .returned, some Radix.RadixMap.new)
  | .panicked => (es, .panicked, some ⟨.node [] none .nil .nil, m.len⟩)
  | .aborted => (es, .aborted, none)

/-- **C76, `RadixMap`, partial.** `clear` runs the destructor of every value exactly once.  If one of them panics, no key
is left in the map, but `len()` is what it was before; if more than one panics the process is aborted.  Missing: the
right length after a panic, and what later histories do. -/
theorem C76_radix_partial {V : Type} {m : Radix.RadixMap V} (h : Radix.Reached m) (boom : V → Bool) :
    ∃ l, m.iter = some l ∧ (radixClearD boom m).1.Perm (l.map (·.2)) ∧
    ((l.map (·.2)).countP boom = 0 → (radixClearD boom m).2 = (.returned, some Radix.RadixMap.new)) ∧
    ((l.map (·.2)).countP boom = 1 → ∃ m', (radixClearD boom m).2 = (.panicked, some m') ∧ m'.root = Radix.RadixMap.new.root ∧
      m'.iter = some [] ∧ Radix.step m' .len = some (m', .num m.len)) ∧
    (2 ≤ (l.map (·.2)).countP boom → (radixClearD boom m).2 = (.aborted, none)) := by
  have hp := Drop.Radix.freed_dropTree m.root []
  have hc := hp.countP_eq boom
  refine ⟨_, Radix.iter_eq h, ?_, ?_, ?_, ?_⟩
  · simp only [radixClearD]; split <;> exact hp
  · intro h; simp only [radixClearD, fateOf, hc, h]
  · intro h
    refine ⟨⟨.node [] none .nil .nil, m.len⟩, by simp only [radixClearD, fateOf, hc, h], rfl, ?_, rfl⟩
    rfl
  · intro h
    obtain ⟨n, hn⟩ : ∃ n, ((Radix.entries [] m.root).map (·.2)).countP boom = n + 2 := ⟨_, (Nat.sub_add_cancel h).symm⟩
    simp only [radixClearD, fateOf, hc, hn]

end Verif.Panic
