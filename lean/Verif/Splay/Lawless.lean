/- `SplayMap` with arbitrary answers of the comparisons. -/
import Verif.Splay.Lemmas
import Verif.Bst.Lawless
import Mathlib.Order.Nat

namespace Verif.Splay

open Verif.Bst Verif.Spec

variable {K V : Type}

/-- The loop of `splay`, splay_tree/tree.rs:19-63, with the answers `c`; `i` counts the comparisons made before, and the
result has the count afterwards. -/
def splayLoopA (c : Nat → K → Ordering) : Nat → STree K V → FramesL K V → FramesR K V → STree K V × Nat
  | i, .nil, _, _ => (.nil, i)
  | i, .node _ l x v r, ls, rs =>
    match c i x with
    | .lt =>
      match l with
      | .nil => (finish .nil x v r ls rs, i + 1)
      | .node _ ll lk lv lr =>
        if c (i + 1) lk = .lt then
          match ll with
          | .nil => (finish .nil lk lv (nd lr x v r) ls rs, i + 2)
          | .node _ l' k' v' r' =>
            splayLoopA c (i + 2) (.node () l' k' v' r') ls ((lk, lv, nd lr x v r) :: rs)
        else splayLoopA c (i + 2) (.node () ll lk lv lr) ls ((x, v, r) :: rs)
    | .gt =>
      match r with
      | .nil => (finish l x v .nil ls rs, i + 1)
      | .node _ rl rk rv rr =>
        if c (i + 1) rk = .gt then
          match rr with
          | .nil => (finish (nd l x v rl) rk rv .nil ls rs, i + 2)
          | .node _ l' k' v' r' =>
            splayLoopA c (i + 2) (.node () l' k' v' r') ((nd l x v rl, rk, rv) :: ls) rs
        else splayLoopA c (i + 2) (.node () rl rk rv rr) ((l, x, v) :: ls) rs
    | .eq => (finish l x v r ls rs, i + 1)

/-- splay_tree/tree.rs:73-104 `insert` of `Node::new(k, v)` with the answers `c`. -/
def insertA (c : TAnswers K) (t : STree K V) (k : K) (v : V) : STree K V × Option (K × V) :=
  match splayLoopA c.cmp 0 t [] [] with
  | (.nil, _) => (nd .nil k v .nil, none)
  | (.node _ l x w r, n) =>
    match c.cmp n x with
    | .lt => (nd l k v (nd .nil x w r), none)
    | .gt => (nd (nd l x w .nil) k v r, none)
    | .eq => (nd l k v r, some (x, w))

/-- splay_tree/tree.rs:106-132 `remove` with the answers `c`: `left_child.right = right` drops whatever the second
`splay` has put there. -/
def removeA (c : TAnswers K) (t : STree K V) : STree K V × Option (K × V) :=
  match splayLoopA c.cmp 0 t [] [] with
  | (.nil, _) => (.nil, none)
  | (.node _ l x w r, n) =>
    if c.eq n x = false then (nd l x w r, none)
    else
      match l with
      | .nil => (r, some (x, w))
      | .node _ ll lk lv lr =>
        match splayLoopA c.cmp (n + 1) (nd ll lk lv lr) [] [] with
        | (.nil, _) => (.nil, some (x, w))
        | (.node _ l' k' v' _, _) => (nd l' k' v' r, some (x, w))

/-- splay_tree/tree.rs:147-159 `get_mut` with the answers `c`. -/
def getMutA (c : TAnswers K) (t : STree K V) (f : V → V) : Option (K × V) × STree K V :=
  match splayLoopA c.cmp 0 t [] [] with
  | (.nil, _) => (none, .nil)
  | (.node _ l x w r, n) => if c.eq n x = true then (some (x, w), nd l x (f w) r) else (none, nd l x w r)

/-- The calls of splay_tree/map.rs with the answers of their comparisons: `insert` 66-81, `remove` 96-110, `get_mut`
168-174, `clear` 218-221, the others as in `readA`. -/
def stepA (m : SplayMap K V) : TCall K V → Unit → Option (SplayMap K V × LRes K V)
  | .insert k v c, _ =>
    match insertA c m.tree k v with
    | (t, none) => some (⟨t, m.len + 1⟩, .pair none)
    | (t, some e) => do return (⟨t, ← decr (m.len + 1)⟩, .pair (some e))
  | .remove c, _ =>
    match removeA c m.tree with
    | (t, none) => some (⟨t, m.len⟩, .pair none)
    | (t, some e) => do return (⟨t, ← decr m.len⟩, .pair (some e))
  | .getMut c f, _ => some (⟨(getMutA c m.tree f).2, m.len⟩, .val ((getMutA c m.tree f).1.map (·.2)))
  | .clear, _ => some (⟨.nil, 0⟩, .unit)
  | op, _ => some (m, readA m.tree m.len op)

/-- `SplayMap` as a map type whose comparisons answer anything. -/
def lawless (K V : Type) : TImpl K V where
  State := SplayMap K V
  Draw := Unit
  empty := ⟨.nil, 0⟩
  step := stepA

/-- Splaying keeps the entries and their order, and it has asked about the entry that it brings to the root. -/
theorem splayLoopA_spec (c : Nat → K → Ordering) (n : Nat) : ∀ (t : STree K V) (i : Nat) (ls : FramesL K V)
    (rs : FramesR K V), t.size ≤ n → t ≠ .nil →
    ∃ l y w r j, splayLoopA c i t ls rs = (nd l y w r, j) ∧
      l.toList ++ (y, w) :: r.toList = listL ls ++ t.toList ++ listR rs := by
  induction n with
  | zero => intro t i ls rs h1 h2; cases t <;> simp [Tree.size] at h1 h2
  | succ n ih =>
    intro t i ls rs hsz hne
    cases t with
    | nil => exact absurd rfl hne
    | node a l x v r =>
      simp only [Tree.size] at hsz
      cases hc : c i x with
      | eq =>
        rw [splayLoopA.eq_def]; simp only [hc]
        exact ⟨_, _, _, _, _, rfl, by simp [fillL_toList, fillR_toList]⟩
      | lt =>
        cases l with
        | nil =>
          rw [splayLoopA.eq_def]; simp only [hc]
          exact ⟨_, _, _, _, _, rfl, by simp [fillL_toList, fillR_toList]⟩
        | node b ll lk lv lr =>
          simp only [Tree.size] at hsz
          by_cases hlk : c (i + 1) lk = .lt
          · cases ll with
            | nil =>
              rw [splayLoopA.eq_def]; simp only [hc, if_pos hlk]
              exact ⟨_, _, _, _, _, rfl, by simp [fillL_toList, fillR_toList]⟩
            | node b' l' k' v' r' =>
              rw [splayLoopA.eq_def]; simp only [hc, if_pos hlk]
              simp only [Tree.size] at hsz
              obtain ⟨l₁, y, w, r₁, j, h1, h2⟩ := ih (nd l' k' v' r') (i + 2) ls ((lk, lv, nd lr x v r) :: rs)
                (by simp only [Tree.size]; omega) (by simp)
              exact ⟨l₁, y, w, r₁, j, h1, by rw [h2]; simp [listR]⟩
          · rw [splayLoopA.eq_def]; simp only [hc, if_neg hlk]
            obtain ⟨l₁, y, w, r₁, j, h1, h2⟩ := ih (nd ll lk lv lr) (i + 2) ls ((x, v, r) :: rs)
              (by simp only [Tree.size]; omega) (by simp)
            exact ⟨l₁, y, w, r₁, j, h1, by rw [h2]; simp [listR]⟩
      | gt =>
        cases r with
        | nil =>
          rw [splayLoopA.eq_def]; simp only [hc]
          exact ⟨_, _, _, _, _, rfl, by simp [fillL_toList, fillR_toList]⟩
        | node b rl rk rv rr =>
          simp only [Tree.size] at hsz
          by_cases hrk : c (i + 1) rk = .gt
          · cases rr with
            | nil =>
              rw [splayLoopA.eq_def]; simp only [hc, if_pos hrk]
              exact ⟨_, _, _, _, _, rfl, by simp [fillL_toList, fillR_toList]⟩
            | node b' l' k' v' r' =>
              rw [splayLoopA.eq_def]; simp only [hc, if_pos hrk]
              simp only [Tree.size] at hsz
              obtain ⟨l₁, y, w, r₁, j, h1, h2⟩ := ih (nd l' k' v' r') (i + 2) ((nd l x v rl, rk, rv) :: ls) rs
                (by simp only [Tree.size]; omega) (by simp)
              exact ⟨l₁, y, w, r₁, j, h1, by rw [h2]; simp [listL]⟩
          · rw [splayLoopA.eq_def]; simp only [hc, if_neg hrk]
            obtain ⟨l₁, y, w, r₁, j, h1, h2⟩ := ih (nd rl rk rv rr) (i + 2) ((l, x, v) :: ls) rs
              (by simp only [Tree.size]; omega) (by simp)
            exact ⟨l₁, y, w, r₁, j, h1, by rw [h2]; simp [listL]⟩

theorem splayA_spec (c : Nat → K → Ordering) (t : STree K V) (i : Nat) (hne : t ≠ .nil) :
    ∃ l y w r j, splayLoopA c i t [] [] = (nd l y w r, j) ∧ l.toList ++ (y, w) :: r.toList = t.toList := by
  obtain ⟨l, y, w, r, j, h1, h2⟩ := splayLoopA_spec c t.size t i [] [] (Nat.le_refl _) hne
  exact ⟨l, y, w, r, j, h1, by simpa [listL, listR] using h2⟩

/-- If everything is smaller than the argument, nothing is to the right of the new root. -/
theorem splayLoopA_gt (c : Nat → K → Ordering) (n : Nat) : ∀ (t : STree K V) (i : Nat) (ls : FramesL K V),
    t.size ≤ n → t ≠ .nil → (∀ e ∈ t.toList, ∀ j, c j e.1 = .gt) →
    ∃ l y w j, splayLoopA c i t ls [] = (nd l y w .nil, j) := by
  induction n with
  | zero => intro t i ls h1 h2; cases t <;> simp [Tree.size] at h1 h2
  | succ n ih =>
    intro t i ls hsz hne hgt
    cases t with
    | nil => exact absurd rfl hne
    | node a l x v r =>
      simp only [Tree.size] at hsz
      have hc : c i x = .gt := hgt (x, v) (by simp) i
      cases r with
      | nil =>
        rw [splayLoopA.eq_def]; simp only [hc]
        exact ⟨_, _, _, _, rfl⟩
      | node b rl rk rv rr =>
        simp only [Tree.size] at hsz
        have hrk : c (i + 1) rk = .gt := hgt (rk, rv) (by simp) (i + 1)
        cases rr with
        | nil =>
          rw [splayLoopA.eq_def]; simp only [hc, if_pos hrk]
          exact ⟨_, _, _, _, rfl⟩
        | node b' l' k' v' r' =>
          rw [splayLoopA.eq_def]; simp only [hc, if_pos hrk]
          simp only [Tree.size] at hsz
          exact ih (nd l' k' v' r') (i + 2) _ (by simp only [Tree.size]; omega) (by simp)
            fun e he => hgt e (by simp only [Tree.toList_node, List.mem_append, List.mem_cons] at he ⊢; exact .inr (.inr (.inr (.inr he))))

theorem splayLoopA_nil (c : Nat → K → Ordering) (i : Nat) (ls : FramesL K V) (rs : FramesR K V) :
    splayLoopA c i .nil ls rs = (.nil, i) := by rw [splayLoopA.eq_def]

theorem insertA_spec (c : TAnswers K) (t : STree K V) (k : K) (v : V) :
    ∃ a b, t.toList = a ++ (insertA c t k v).2.toList ++ b ∧ (insertA c t k v).1.toList = a ++ (k, v) :: b ∧
      ∀ e, (insertA c t k v).2 = some e → c.SaidEqual e.1 := by
  by_cases hne : t = .nil
  · subst hne
    refine ⟨[], [], ?_⟩
    simp [insertA, splayLoopA_nil]
  · obtain ⟨l, y, w, r, j, h1, h2⟩ := splayA_spec c.cmp t 0 hne
    simp only [insertA, h1]
    cases hc : c.cmp j y with
    | lt => exact ⟨l.toList, (y, w) :: r.toList, by simp [← h2], by simp, by simp⟩
    | gt => exact ⟨l.toList ++ [(y, w)], r.toList, by simp [← h2], by simp, by simp⟩
    | eq => exact ⟨l.toList, r.toList, by simp [← h2], by simp, by simpa using ⟨j, .inl hc⟩⟩

theorem removeA_spec (c : TAnswers K) (t : STree K V) :
    ∃ a lost b, t.toList = a ++ lost ++ (removeA c t).2.toList ++ b ∧ (removeA c t).1.toList = a ++ b ∧
      ((removeA c t).2 = none → lost = []) ∧ (∀ e, (removeA c t).2 = some e → c.SaidEqual e.1) ∧
      ((t.toList.Pairwise fun x y => c.SaidEqual y.1 → ∀ i, c.cmp i x.1 = .gt) → lost = []) := by
  by_cases hne : t = .nil
  · subst hne
    refine ⟨[], [], [], ?_⟩
    simp [removeA, splayLoopA_nil]
  · obtain ⟨l, y, w, r, j, h1, h2⟩ := splayA_spec c.cmp t 0 hne
    simp only [removeA, h1]
    by_cases he : c.eq j y = false
    · simp only [he, if_true]
      exact ⟨l.toList, [], (y, w) :: r.toList, by simp [← h2], by simp, by simp, by simp, by simp⟩
    · rw [if_neg he]
      have hsaid : c.SaidEqual y := ⟨j, .inr (by simpa using he)⟩
      cases l with
      | nil =>
        exact ⟨[], [], r.toList, by simp [← h2], by simp, by simp, by simpa using hsaid, by simp⟩
      | node u ll lk lv lr =>
        obtain ⟨l', k', v', r', j', h3, h4⟩ := splayA_spec c.cmp (nd ll lk lv lr) (j + 1) (by simp)
        simp only [h3]
        refine ⟨l'.toList ++ [(k', v')], r'.toList, r.toList, ?_, by simp, by simp, by simpa using hsaid, ?_⟩
        · rw [← h2, ← h4]; simp
        · intro hp
          rw [← h2] at hp
          obtain ⟨l'', y'', w'', j'', h5⟩ := splayLoopA_gt c.cmp _ (nd ll lk lv lr) (j + 1) [] (Nat.le_refl _)
            (by simp) (fun e hm i => (List.pairwise_append.1 hp).2.2 e hm (y, w) (by simp) hsaid i)
          rw [h3] at h5
          simp only [Prod.mk.injEq, Tree.node.injEq] at h5
          rw [h5.1.2.2.2.2]; rfl

theorem getMutA_spec (c : TAnswers K) (t : STree K V) (f : V → V) :
    ((getMutA c t f).1 = none ∧ (getMutA c t f).2.toList = t.toList) ∨
      ∃ a k v b, (getMutA c t f).1 = some (k, v) ∧ t.toList = a ++ (k, v) :: b ∧
        (getMutA c t f).2.toList = a ++ (k, f v) :: b ∧ c.SaidEqual k := by
  by_cases hne : t = .nil
  · subst hne; left; simp [getMutA, splayLoopA_nil]
  · obtain ⟨l, y, w, r, j, h1, h2⟩ := splayA_spec c.cmp t 0 hne
    simp only [getMutA, h1]
    split
    · next he => right; exact ⟨l.toList, y, w, r.toList, rfl, h2.symm, by simp, j, .inr he⟩
    · left; exact ⟨rfl, by simp [← h2]⟩

/-- The answers of a removal agree with the order of iteration as far as `remove` relies on it: the argument is
always larger than what comes before an entry that it is ever said to equal.  Other calls need nothing. -/
def Orderly : TCall K V → List (K × V) → Prop
  | .remove c, l => l.Pairwise fun x y => c.SaidEqual y.1 → ∀ i, c.cmp i x.1 = .gt
  | _, _ => True

theorem stepA_destroys (m : SplayMap K V) (op : TCall K V) (d : Unit) (n : Nat)
    (hl : m.len = m.tree.toList.length + n) :
    ∃ m' r n', stepA m op d = some (m', r) ∧ op.Destroys (m.tree.toList, n) r (m'.tree.toList, n') ∧
      m'.len = m'.tree.toList.length + n' ∧
      (n = 0 → Orderly op m.tree.toList → op.Keeps m.tree.toList r m'.tree.toList ∧ n' = 0) := by
  have hread : Reads op → (n = 0 → True) → (∀ r, op.Keeps m.tree.toList r m.tree.toList →
      op ≠ .len → op.Destroys (m.tree.toList, n) r (m.tree.toList, n)) → op ≠ .len →
      ∃ m' r n', some (m, readA m.tree m.len op) = some (m', r) ∧
      op.Destroys (m.tree.toList, n) r (m'.tree.toList, n') ∧ m'.len = m'.tree.toList.length + n' ∧
      (n = 0 → Orderly op m.tree.toList → op.Keeps m.tree.toList r m'.tree.toList ∧ n' = 0) := by
    intro h _ hd hne
    have hk : op.Keeps m.tree.toList (readA m.tree m.len op) m.tree.toList := by
      have := readA_keeps m.tree h
      cases op <;> first | exact this | exact absurd rfl hne
    exact ⟨_, _, n, rfl, hd _ hk hne, hl, fun h0 _ => ⟨hk, h0⟩⟩
  cases op with
  | insert k v c =>
    obtain ⟨a, b, h1, h2, h3⟩ := insertA_spec c m.tree k v
    cases hi : insertA c m.tree k v with
    | mk t o =>
    rw [hi] at h1 h2 h3
    have hk : (TCall.insert k v c).Keeps m.tree.toList (.pair o) t.toList := ⟨a, o, b, rfl, h1, h2, h3⟩
    simp only at h1 h2
    rw [h1] at hl
    cases o with
    | none =>
      refine ⟨⟨t, m.len + 1⟩, .pair none, n, by simp [stepA, hi], ⟨hk, rfl⟩, ?_, fun h0 _ => ⟨hk, h0⟩⟩
      simp only [h2, hl]; simp; omega
    | some e =>
      refine ⟨⟨t, m.len⟩, .pair (some e), n, by simp [stepA, hi, decr], ⟨hk, rfl⟩, ?_, fun h0 _ => ⟨hk, h0⟩⟩
      simp only [h2, hl]; simp
  | remove c =>
    obtain ⟨a, lost, b, h1, h2, h3, h4, h5⟩ := removeA_spec c m.tree
    cases hi : removeA c m.tree with
    | mk t o =>
    rw [hi] at h1 h2 h3 h4
    simp only at h1 h2 h3 h4
    have hd : (TCall.remove c).Destroys (m.tree.toList, n) (.pair o) (t.toList, n + lost.length) :=
      ⟨a, lost, o, b, rfl, h1, h2, rfl, h3, h4⟩
    have hk : n = 0 → Orderly (.remove c) m.tree.toList →
        (TCall.remove c).Keeps m.tree.toList (.pair o) t.toList ∧ n + lost.length = 0 := fun h0 ho => by
      have := h5 ho
      subst this
      exact ⟨⟨a, o, b, rfl, by simpa using h1, h2, h4⟩, by simpa using h0⟩
    rw [h1] at hl
    cases o with
    | none =>
      refine ⟨⟨t, m.len⟩, .pair none, n + lost.length, by simp [stepA, hi], hd, ?_, hk⟩
      simp only [h2, hl]; simp; omega
    | some e =>
      have : m.len = ((a ++ b).length + (n + lost.length)) + 1 := by rw [hl]; simp; omega
      refine ⟨⟨t, (a ++ b).length + (n + lost.length)⟩, .pair (some e), n + lost.length,
        by simp [stepA, hi, this, decr], hd, by simp only [h2], hk⟩
  | getMut c f =>
    have hk : (TCall.getMut c f).Keeps m.tree.toList (.val ((getMutA c m.tree f).1.map (·.2)))
        (getMutA c m.tree f).2.toList ∧ (getMutA c m.tree f).2.toList.length = m.tree.toList.length := by
      rcases getMutA_spec c m.tree f with ⟨h1, h2⟩ | ⟨a, k, v, b, h1, h2, h3, h4⟩
      · exact ⟨.inl ⟨by simp [h1], h2⟩, by rw [h2]⟩
      · exact ⟨.inr ⟨a, k, v, b, by simp [h1], h2, h3, h4⟩, by rw [h2, h3]; simp⟩
    exact ⟨_, _, n, rfl, ⟨hk.1, rfl⟩, by simp only [hk.2, hl], fun h0 _ => ⟨hk.1, h0⟩⟩
  | clear => exact ⟨_, _, 0, rfl, ⟨rfl, rfl⟩, rfl, fun _ _ => ⟨⟨rfl, rfl⟩, rfl⟩⟩
  | len =>
    refine ⟨_, _, n, rfl, ⟨rfl, by simp [readA, hl]⟩, hl, fun h0 _ => ⟨⟨rfl, ?_⟩, h0⟩⟩
    simp [readA, hl, h0]
  | get | floor | ceil | min | max | iter =>
    exact hread trivial (fun _ => trivial) (fun r h _ => ⟨h, rfl⟩) (by simp)

/-- C79 for `SplayMap`, what happens in general: whatever the comparisons answer, no call panics, but a removal may destroy
entries next to the one it hands out, and `len()` goes on counting them. -/
theorem C79_splay_exact (ops : List (TCall K V × Unit)) :
    ∃ m h n, (lawless K V).run (lawless K V).empty ops = some (m, h) ∧ h.map Prod.fst = ops.map Prod.fst ∧
      TRuns TCall.Destroys ([], 0) h ((Iter.start m.tree).collect, n) ∧
      m.len = (Iter.start m.tree).collect.length + n := by
  obtain ⟨m, h, ⟨l, n⟩, h1, h2, h3, h4, h5⟩ := TImpl.run_all (lawless K V) TCall.Destroys
    (fun m s => m.tree.toList = s.1 ∧ m.len = s.1.length + s.2)
    (fun m s op d ⟨hg, hl⟩ => by
      obtain ⟨m', r, n', e1, e2, e3, _⟩ := stepA_destroys m op d s.2 (hg ▸ hl)
      exact ⟨m', r, (_, n'), e1, by rw [hg] at e2; exact e2, rfl, e3⟩)
    ops (lawless K V).empty ([], 0) ⟨rfl, rfl⟩
  refine ⟨m, h, n, h1, h2, ?_, ?_⟩
  · rw [Iter.collect_start, h4]; exact h3
  · rw [Iter.collect_start, h4]; exact h5

/-- C79 for `SplayMap`, one call on a map that has not lost anything: nothing gets lost unless the call is a removal whose
answers contradict the order of iteration.  `_partial`: not for all answers, see `C79_splay_violated`. -/
theorem C79_splay_partial (m : SplayMap K V) (op : TCall K V) (hl : m.len = (Iter.start m.tree).collect.length)
    (ho : Orderly op (Iter.start m.tree).collect) :
    ∃ m' r, stepA m op () = some (m', r) ∧ op.Keeps (Iter.start m.tree).collect r (Iter.start m'.tree).collect ∧
      m'.len = (Iter.start m'.tree).collect.length := by
  simp only [Iter.collect_start] at hl ho ⊢
  obtain ⟨m', r, n', h1, _, h3, h4⟩ := stepA_destroys m op () 0 hl
  obtain ⟨h5, rfl⟩ := h4 rfl ho
  exact ⟨m', r, h1, h5, h3⟩

/-- Answers that depend on the stored key only and agree with the order of iteration are good enough. -/
theorem orderly_of_fits {c : TAnswers K} {l : List (K × V)} (hs : c.Steady) (hf : c.FitsOrder l) :
    Orderly (.remove c) l := by
  refine List.Pairwise.imp ?_ hf
  rintro x y h ⟨i, hi⟩ j
  have : c.cmp 0 y.1 = .eq := by
    rcases hi with hi | hi
    · rw [← (hs i y.1).1]; exact hi
    · exact (hs i y.1).2.2.1 hi
  rw [(hs j x.1).1]
  exact h (by simp [this])

section Lawful
variable [LinearOrder K]

theorem splayLoopA_lawful (k : K) (n : Nat) : ∀ (t : STree K V) (i : Nat) (ls : FramesL K V) (rs : FramesR K V),
    t.size ≤ n → (splayLoopA (TAnswers.lawful k).cmp i t ls rs).1 = splayLoop k t ls rs := by
  induction n with
  | zero =>
    intro t i ls rs h
    cases t with
    | nil => rw [splayLoopA.eq_def, splayLoop.eq_def]
    | node => simp [Tree.size] at h
  | succ n ih =>
    intro t i ls rs h
    cases t with
    | nil => rw [splayLoopA.eq_def, splayLoop.eq_def]
    | node u l x v r =>
      simp only [Tree.size] at h
      rw [splayLoopA.eq_def, splayLoop.eq_def]
      rcases lt_trichotomy k x with hk | hk | hk
      · have hc : (TAnswers.lawful k).cmp i x = .lt := by simp [TAnswers.lawful, hk]
        simp only [hc, if_pos hk]
        cases l with
        | nil => rfl
        | node u ll lk lv lr =>
          simp only [Tree.size] at h
          by_cases hlk : k < lk
          · have hc : (TAnswers.lawful k).cmp (i + 1) lk = .lt := by simp [TAnswers.lawful, hlk]
            simp only [if_pos hc, if_pos hlk]
            cases ll with
            | nil => rfl
            | node => exact ih _ _ _ _ (by simp only [Tree.size] at h ⊢; omega)
          · have hc : ¬ (TAnswers.lawful k).cmp (i + 1) lk = .lt := by
              simp only [TAnswers.lawful, hlk, if_false]; split <;> simp
            simp only [if_neg hc, if_neg hlk]
            exact ih _ _ _ _ (by simp only [Tree.size] at h ⊢; omega)
      · subst hk
        have hc : (TAnswers.lawful k).cmp i k = .eq := by simp [TAnswers.lawful]
        simp [hc]
      · have hc : (TAnswers.lawful k).cmp i x = .gt := by simp [TAnswers.lawful, hk, not_lt_of_gt hk]
        simp only [hc, if_pos hk, if_neg (not_lt_of_gt hk)]
        cases r with
        | nil => rfl
        | node u rl rk rv rr =>
          simp only [Tree.size] at h
          by_cases hrk : rk < k
          · have hc : (TAnswers.lawful k).cmp (i + 1) rk = .gt := by
              simp [TAnswers.lawful, hrk, not_lt_of_gt hrk]
            simp only [if_pos hc, if_pos hrk]
            cases rr with
            | nil => rfl
            | node => exact ih _ _ _ _ (by simp only [Tree.size] at h ⊢; omega)
          · have hc : ¬ (TAnswers.lawful k).cmp (i + 1) rk = .gt := by
              simp only [TAnswers.lawful, hrk, if_false]; split <;> simp
            simp only [if_neg hc, if_neg hrk]
            exact ih _ _ _ _ (by simp only [Tree.size] at h ⊢; omega)

theorem splayA_lawful (k : K) (t : STree K V) (i : Nat) :
    (splayLoopA (TAnswers.lawful k).cmp i t [] []).1 = splay k t :=
  splayLoopA_lawful k t.size t i [] [] (Nat.le_refl _)

theorem insertA_lawful (k : K) (v : V) (t : STree K V) : insertA (TAnswers.lawful k) t k v = insert t k v := by
  unfold insertA insert
  rw [← splayA_lawful k t 0]
  rcases splayLoopA (TAnswers.lawful k).cmp 0 t [] [] with ⟨_ | ⟨u, l, x, w, r⟩, n⟩
  · rfl
  · simp only [TAnswers.lawful]
    split_ifs <;> rfl

theorem removeA_lawful (k : K) (t : STree K V) : removeA (TAnswers.lawful k) t = remove t k := by
  unfold removeA remove
  rw [← splayA_lawful k t 0]
  rcases splayLoopA (TAnswers.lawful k).cmp 0 t [] [] with ⟨_ | ⟨u, l, x, w, r⟩, n⟩
  · rfl
  · simp only
    by_cases hk : k = x
    · subst hk
      have : ¬ (TAnswers.lawful k).eq n k = false := by simp [TAnswers.lawful]
      rw [if_neg this, if_neg (by simp)]
      cases l with
      | nil => rfl
      | node u ll lk lv lr =>
        simp only
        rw [← splayA_lawful k _ (n + 1)]
        rcases splayLoopA (TAnswers.lawful k).cmp (n + 1) (nd ll lk lv lr) [] [] with ⟨_ | ⟨u, l, y, w, r⟩, n⟩ <;> rfl
    · have : (TAnswers.lawful k).eq n x = false := by simp [TAnswers.lawful, hk]
      simp [if_pos this, hk]

theorem getMutA_lawful (k : K) (f : V → V) (t : STree K V) : getMutA (TAnswers.lawful k) t f = getMut t k f := by
  unfold getMutA getMut
  rw [← splayA_lawful k t 0]
  rcases splayLoopA (TAnswers.lawful k).cmp 0 t [] [] with ⟨_ | ⟨u, l, x, w, r⟩, n⟩
  · rfl
  · simp [TAnswers.lawful, eq_comm]

/-- With the answers of an ordered key type the calls are those of the model used everywhere else. -/
theorem C79_splay_covers_lawful (m : SplayMap K V) (op : MapOp K V) (c : TCall K V) (h : TCall.ofOp op = some c) :
    (stepA m c ()).map (fun p => (p.1, p.2.toRes)) = step m op () := by
  cases op <;> simp only [TCall.ofOp, Option.some.injEq, reduceCtorEq] at h <;> subst h <;>
    simp only [stepA, step, readA, SplayMap.insert, SplayMap.remove, insertA_lawful, removeA_lawful, Tree.getA_lawful,
      Tree.floorA_lawful, Tree.ceilA_lawful, getMutA_lawful, Option.map_some, LRes.toRes]
  · rcases insert m.tree _ _ with ⟨t, _ | e⟩ <;> rfl
  · rcases remove m.tree _ with ⟨t, _ | e⟩
    · rfl
    · cases decr m.len <;> rfl

end Lawful

/-- Answers that depend on the stored key only, and in which the three comparisons agree. -/
def steadyAnswers (f : Nat → Ordering) : TAnswers Nat :=
  ⟨fun _ k => f k, fun _ k => f k == .lt, fun _ k => f k == .eq⟩

theorem steadyAnswers_steady (f : Nat → Ordering) : (steadyAnswers f).Steady := by
  intro i k; simp [steadyAnswers]

/-- Three insertions in order, then a removal whose argument equals 3 and is smaller than 1 and 2. -/
def badRemoval : List (TCall Nat Nat × Unit) :=
  [.insert 1 10 (.lawful 1), .insert 2 20 (.lawful 2), .insert 3 30 (.lawful 3), .iter,
    .remove (steadyAnswers fun k => if k = 3 then .eq else .lt), .iter, .len].map (·, ())

/-- C79 fails for `SplayMap`: the removal of one entry destroys another one as well, although all the answers depend on
the stored key only.  `len()` still counts the entry that is gone. -/
theorem C79_splay_violated :
    ((lawless Nat Nat).run (lawless Nat Nat).empty badRemoval).map (fun p => p.2.map (·.2)) =
      some [.pair none, .pair none, .pair none, .list [(1, 10), (2, 20), (3, 30)], .pair (some (3, 30)),
        .list [(1, 10)], .num 2] ∧
    ∀ m h, (lawless Nat Nat).run (lawless Nat Nat).empty badRemoval = some (m, h) →
      ¬ ∃ l, TRuns TCall.Keeps [] h l := by
  have hrun : ((lawless Nat Nat).run (lawless Nat Nat).empty badRemoval).map (fun p => p.2.map (·.2)) =
      some [.pair none, .pair none, .pair none, .list [(1, 10), (2, 20), (3, 30)], .pair (some (3, 30)),
        .list [(1, 10)], .num 2] := by decide +kernel
  refine ⟨hrun, fun m h hm ⟨l, hl⟩ => ?_⟩
  obtain ⟨m', h', n, e1, e2, _, _⟩ := C79_splay_exact badRemoval
  rw [e1] at hm
  obtain ⟨rfl, rfl⟩ : m' = m ∧ h' = h := by simpa using hm
  rw [e1] at hrun
  have e3 : h'.map (·.2) = _ := Option.some.inj hrun
  -- the last two results, of `iter` and `len`, cannot both be kept
  match h', e2, e3, hl with
  | [p1, p2, p3, p4, p5, p6, p7], e2, e3, hl =>
    simp only [badRemoval, List.map_cons, List.map_nil, List.cons.injEq, and_true] at e2 e3
    obtain ⟨_, _, _, _, _, a6, a7⟩ := e2
    obtain ⟨_, _, _, _, _, b6, b7⟩ := e3
    obtain ⟨o6, r6⟩ := p6
    obtain ⟨o7, r7⟩ := p7
    simp only at a6 a7 b6 b7
    subst a6 a7 b6 b7
    cases hl with | cons _ hl => cases hl with | cons _ hl => cases hl with | cons _ hl => cases hl with
      | cons _ hl => cases hl with | cons _ hl => cases hl with | cons c6 hl => cases hl with
      | cons c7 hl =>
        obtain ⟨d1, d2⟩ := c6
        obtain ⟨_, d4⟩ := c7
        simp only [LRes.list.injEq] at d2
        rw [d1, ← d2] at d4
        simp at d4

/-- A removal whose answers fit the order, in a map of three entries whose keys are not ordered by `<` at all. -/
example : Orderly (.remove (steadyAnswers fun k => if k = 2 then .eq else if k = 9 then .gt else .lt))
    [(9, 1), (2, 5), (7, 0)] := by
  apply orderly_of_fits (steadyAnswers_steady _)
  simp [TAnswers.FitsOrder, steadyAnswers]

end Verif.Splay
