/- Property C17: the in-order iterators of the AVL, red-black, splay and treap maps. -/
import Verif.Bst.IterMut
import Verif.Avl.Lemmas
import Verif.RedBlack.Lemmas
import Verif.Splay.Lemmas
import Verif.Treap.Props

namespace Verif.Bst

open Verif.Spec Verif.SL

variable {A K V : Type} [LinearOrder K]

/-- `calls n`, the results of the first `n` calls of `next()`, are the `n` smallest bindings of `lookup`
in strictly ascending key order, padded with `None`. -/
def Enumerates (lookup : K → Option V) (calls : Nat → List (Option (K × V))) : Prop :=
  ∃ l : List (K × V), Lists lookup l ∧ ∀ n, calls n = (List.range n).map fun i => l[i]?

/-- What `iter_mut` must do: whatever update functions are written through the references handed out by
successive `next()` calls, the calls report the smallest bindings in ascending order (and `None` at the
end), and afterwards the map has the same keys in the same order, the value of the `i`-th key being
updated by the `i`-th function, and untouched if `next()` was not called that often. -/
def EnumeratesMut (t : Tree A K V) : Prop :=
  ∃ l : List (K × V), Lists (fun k => (t.get k).map (·.2)) l ∧ ∀ fs : List (V → V),
    (IterMut.runWrite fs t IterMut.start).1 = ((List.range fs.length).map fun i => l[i]?) ∧
    ∃ l', Lists (fun k => ((IterMut.runWrite fs t IterMut.start).2.1.get k).map (·.2)) l' ∧
      ∀ i : Nat, l'[i]? = l[i]?.map fun e => (e.1, (fs.getD i id) e.2)

theorem lists_get (t : Tree A K V) (hs : Sorted t.toList) :
    Lists (fun k => (t.get k).map (·.2)) t.toList := by
  have h : (fun k => (t.get k).map (·.2)) = abs t.toList := by
    funext k; rw [Tree.get_eq t k hs]; rfl
  rw [h]
  exact lists_abs hs

theorem enumerates (t : Tree A K V) (hs : Sorted t.toList) :
    Enumerates (fun k => (t.get k).map (·.2)) (fun n => (Iter.start t).take n) :=
  ⟨t.toList, lists_get t hs, fun n => by simp only [Iter.take_eq, Iter.pending_start]⟩

theorem enumeratesMut (t : Tree A K V) (hs : Sorted t.toList) : EnumeratesMut t := by
  refine ⟨t.toList, lists_get t hs, fun fs => ?_⟩
  obtain ⟨h1, h2, _⟩ := IterMut.runWrite_eq fs t IterMut.start 0 (by rw [IterMut.pending_start]; rfl)
  have h3 : ∀ i : Nat, (IterMut.runWrite fs t IterMut.start).2.1.toList[i]? =
      t.toList[i]?.map fun e => (e.1, (fs.getD i id) e.2) := by
    intro i; rw [h2, IterMut.getElem?_modifyFrom]; simp
  refine ⟨by rw [h1]; simp, _, lists_get _ ?_, h3⟩
  have h4 : (IterMut.runWrite fs t IterMut.start).2.1.toList.map (·.1) = t.toList.map (·.1) := by
    refine List.ext_getElem? fun i => ?_
    rw [List.getElem?_map, List.getElem?_map, h3]
    cases t.toList[i]? <;> rfl
  have h5 : (t.toList.map (·.1)).Pairwise (· < ·) := by rw [List.pairwise_map]; exact hs
  rw [← h4, List.pairwise_map] at h5
  exact h5

/-- **C17, AVL, `iter`/`into_iter`.** -/
theorem C17_avl_iter (s : Avl.AvlMap K V) (h : (Avl.impl K V).Reachable s) :
    Enumerates (fun k => (s.tree.get k).map (·.2)) (fun n => (Iter.start s.tree).take n) := by
  obtain ⟨l, h1, rfl, _⟩ := (Avl.sim K V).reachable h
  exact enumerates s.tree h1

/-- **C17, AVL, `iter_mut`.** -/
theorem C17_avl_iter_mut (s : Avl.AvlMap K V) (h : (Avl.impl K V).Reachable s) :
    EnumeratesMut s.tree := by
  obtain ⟨l, h1, rfl, _⟩ := (Avl.sim K V).reachable h
  exact enumeratesMut s.tree h1

/-- **C17, red-black, `iter`/`into_iter`.** -/
theorem C17_rb_iter (s : RedBlack.RedBlackMap K V) (h : (RedBlack.impl K V).Reachable s) :
    Enumerates (fun k => (s.tree.get k).map (·.2)) (fun n => (Iter.start s.tree).take n) := by
  obtain ⟨l, h1, h2⟩ := (RedBlack.sim K V).reachable h
  have h3 : s.tree.toList = l := h2.1
  exact enumerates s.tree (h3 ▸ h1)

/-- **C17, red-black, `iter_mut`.** -/
theorem C17_rb_iter_mut (s : RedBlack.RedBlackMap K V) (h : (RedBlack.impl K V).Reachable s) :
    EnumeratesMut s.tree := by
  obtain ⟨l, h1, h2⟩ := (RedBlack.sim K V).reachable h
  have h3 : s.tree.toList = l := h2.1
  exact enumeratesMut s.tree (h3 ▸ h1)

/-- **C17, splay, `iter`/`into_iter`.** -/
theorem C17_splay_iter (s : Splay.SplayMap K V) (h : (Splay.impl K V).Reachable s) :
    Enumerates (fun k => (s.tree.get k).map (·.2)) (fun n => (Iter.start s.tree).take n) := by
  obtain ⟨l, h1, rfl, _⟩ := (Splay.sim K V).reachable h
  exact enumerates s.tree h1

/-- **C17, splay, `iter_mut`.** -/
theorem C17_splay_iter_mut (s : Splay.SplayMap K V) (h : (Splay.impl K V).Reachable s) :
    EnumeratesMut s.tree := by
  obtain ⟨l, h1, rfl, _⟩ := (Splay.sim K V).reachable h
  exact enumeratesMut s.tree h1

/-- **C17, treap, `iter`/`into_iter`** (also for maps built by set operations and `split_off`). -/
theorem C17_treap_iter (s : Treap.TreapMap K V) (h : Treap.Reach s) :
    Enumerates (fun k => (s.tree.get k).map (·.2)) (fun n => (Iter.start s.tree).take n) :=
  enumerates s.tree (Treap.good_of_reach h).1

/-- **C17, treap, `iter_mut`.** -/
theorem C17_treap_iter_mut (s : Treap.TreapMap K V) (h : Treap.Reach s) : EnumeratesMut s.tree :=
  enumeratesMut s.tree (Treap.good_of_reach h).1

omit [LinearOrder K] in
/-- **C17, deferred writes.** The references handed out by `n` calls of `next()` on `iter_mut()` are
distinct, and a write through the `i`-th one, at any later time, changes the `i`-th value in order and
nothing else. -/
theorem C17_iter_mut_references (t : Tree A K V) (n i : Nat) (p : Path)
    (h : (IterMut.start.take t n)[i]? = some (some p)) :
    (∀ j : Nat, (IterMut.start.take t n)[j]? = some (some p) → j = i) ∧
      t.entryAt p = t.toList[i]? ∧
      ∀ (u : Tree A K V) (f : V → V), u.shape = t.shape →
        (u.writeAt f p).toList = u.toList.modify i (fun e => (e.1, f e.2)) := by
  have key : ∀ j : Nat, (IterMut.start.take t n)[j]? = some (some p) → t.paths[j]? = some p := by
    intro j hj
    rw [IterMut.take_eq, IterMut.pending_start, List.getElem?_map] at hj
    rcases Nat.lt_or_ge j n with hjn | hjn
    · rw [List.getElem?_range hjn] at hj
      simpa using hj
    · rw [List.getElem?_eq_none (by simpa using hjn)] at hj
      simp at hj
  have hi := key i h
  refine ⟨fun j hj => ?_, ?_, fun u f hu => ?_⟩
  · have hj := key j hj
    have h1 := List.getElem?_eq_some_iff.1 hi
    obtain ⟨h1, h2⟩ := h1
    obtain ⟨h3, h4⟩ := List.getElem?_eq_some_iff.1 hj
    exact (List.Nodup.getElem_inj_iff t.paths_nodup).1 (h4.trans h2.symm)
  · have := congrArg (fun l => l[i]?) t.entryAt_paths
    simp only [List.getElem?_map, hi, Option.map_some] at this
    cases hx : t.toList[i]? with
    | none => rw [hx] at this; simp at this
    | some e => rw [hx] at this; simpa using this
  · exact Tree.toList_writeAt f u (by
      rw [← Tree.paths_shape u, hu, Tree.paths_shape]; exact hi)

/-- A treap of four keys: two rounds of `iter_mut` write the two smallest values; five `next()` calls of
`iter` give four entries and `None`. -/
example :
    let t := Treap.sampleA.tree
    (IterMut.runWrite [(· + 1), (· * 2)] t IterMut.start).1 = [some (1, 10), some (2, 20)] ∧
      (IterMut.runWrite [(· + 1), (· * 2)] t IterMut.start).2.1.toList = [(1, 11), (2, 40), (3, 30)] ∧
      (Iter.start t).take 4 = [some (1, 10), some (2, 20), some (3, 30), none] ∧
      Treap.Reach Treap.sampleA := ⟨by decide, by decide, by decide, Treap.reach_sampleA⟩

end Verif.Bst
