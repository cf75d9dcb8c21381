/- C74: a comparison of keys panics during a call on a map, and the client catches the panic and goes on. -/
import Verif.Avl.Panic
import Verif.RedBlack.Panic
import Verif.Splay.Panic
import Verif.Treap.Panic
import Verif.Skip.MapPanicSim

namespace Verif.Panic

open Verif.Spec

variable {K V : Type} [LinearOrder K]

/-- The states that calls, some of them with panicking comparisons, lead to. -/
def Reached (I : PanicImpl K V) (s : I.State) : Prop := ∃ ops h, I.run I.empty ops = some (s, h)

theorem Reached.rel {I : PanicImpl K V} {S : Type} {σ₀ : S} {R : MapOp K V → S → MapRes K V → S → Prop}
    {D : MapOp K V → S → S → Prop} (P : SL.PanicSim I σ₀ R D) {s : I.State} (h : Reached I s) : ∃ σ, P.rel s σ := by
  obtain ⟨ops, hh, h⟩ := h
  obtain ⟨s', h', σ, h1, _, _, h4⟩ := P.run ops I.empty σ₀ P.empty
  rw [h] at h1
  cases h1
  exact ⟨σ, h4⟩

/-! ### What every history looks like -/

/-- `AvlMap`: in every history with any number of panicking comparisons, a call that returns is the call of an ordered
map, except that `len()` counts what panicking inserts did not insert and panicking removes did lose; a panicking
`insert` leaves the entries alone, a panicking `remove` leaves none, other panicking calls change nothing. -/
theorem C74_avl : (Avl.panicImpl K V).Obeys Counted.empty Counted.Ret Counted.Uprooted := (Avl.panicSim K V).obeys

/-- The same for `RedBlackMap`. -/
theorem C74_rb : (RedBlack.panicImpl K V).Obeys Counted.empty Counted.Ret Counted.Uprooted :=
  (RedBlack.panicSim K V).obeys

/-- `SplayMap`: a panicking `insert`, `remove` or `get_mut` keeps a window of the entries around the key (or nothing,
for a `remove` of a key in the map); `get`, `contains_key`, `floor`, `ceil` change nothing. -/
theorem C74_splay : (Splay.panicImpl K V).Obeys Counted.empty Counted.Ret Counted.Trims := (Splay.panicSim K V).obeys

/-- `TreapMap`: a panicking `insert` may lose a run of entries around the place of the new key, after which `len()`
may report too much; other panicking calls change nothing. -/
theorem C74_treap : (Treap.panicImpl K V).Obeys AMap.empty OverLen HoleAt := (Treap.panicSim K V).obeys

/-- `SkipMap`, partial: if no `insert` panics halfway, at a level below the height of its new node, then a panicking
call leaves the entries alone; a panicking `insert` is counted.  What is missing: inserts that panic halfway, for
which the claim is wrong (`C74_skip_violated`). -/
theorem C74_skip_partial (a : Skip.Addr) :
    (Skip.Map.panicImpl K V a).ObeysIf Skip.Map.NotHalfway Counted.empty Counted.Ret Counted.Kept :=
  (Skip.Map.panicSim K V a).obeys

/-- An insert whose new node has height 0 never panics halfway. -/
theorem C74_skip_low (s : Skip.Map.SkipMap K V) (k : K) (v : V) (off b : Nat) :
    Skip.Map.NotHalfway s (.insert k v) (0, off) b := fun _ _ _ => Nat.zero_le _

/-! ### What a single call does, exactly -/

/-- `AvlMap`: the call panics iff one of its comparisons does; then the state is as `Avl.wreck` says, otherwise the
call is the ordinary one. -/
theorem C74_avl_exact (m : Avl.AvlMap K V) (op : MapOp K V) (b : Nat) :
    Avl.stepP m op () b = if b < Avl.comparisons m op then some (Avl.wreck m op, none)
      else (Avl.step m op ()).map fun p => (p.1, some p.2) := Avl.stepP_eq m op b

/-- The same for `RedBlackMap`, in every state that can be reached. -/
theorem C74_rb_exact {m : RedBlack.RedBlackMap K V} (h : Reached (RedBlack.panicImpl K V) m) (op : MapOp K V) (b : Nat) :
    RedBlack.stepP m op () b = if b < RedBlack.comparisons m op then some (RedBlack.wreck m op, none)
      else (RedBlack.step m op ()).map fun p => (p.1, some p.2) := by
  obtain ⟨σ, -, hs, hn, hi⟩ := h.rel (RedBlack.panicSim K V)
  obtain ⟨s', r, h1, _⟩ := RedBlack.step_over m.tree m.len op hs hi hn
  refine RedBlack.stepP_eq m op b ?_
  rw [show m = ⟨m.tree, m.len⟩ from rfl, h1]
  simp

/-- `SplayMap`: the call panics iff one of its comparisons does, and `Splay.Wreck` says what it leaves: entries are
lost iff it is the third or a later comparison of the splaying. -/
theorem C74_splay_exact {m : Splay.SplayMap K V} (h : Reached (Splay.panicImpl K V) m) (op : MapOp K V) (b : Nat) :
    (Splay.comparisons m op ≤ b → Splay.stepP m op () b = (Splay.step m op ()).map fun p => (p.1, some p.2)) ∧
    (b < Splay.comparisons m op → ∃ m', Splay.stepP m op () b = some (m', none) ∧ Splay.Wreck m b op m') := by
  obtain ⟨σ, -, hs, -⟩ := h.rel (Splay.panicSim K V)
  exact Splay.stepP_cases m op b hs

/-- `TreapMap`: a panicking `insert` loses the subtree at the place of the new node (`Treap.hole`). -/
theorem C74_treap_exact (m : Treap.TreapMap K V) (op : MapOp K V) (p b : Nat) :
    Treap.stepP m op p b = if b < Treap.comparisons m op then some (Treap.wreck m p b op, none)
      else (Treap.step m op p).map fun q => (q.1, some q.2) := Treap.stepP_eq m op p b

/-- `TreapMap::split_off` loses everything if one of its comparisons panics. -/
theorem C74_treap_split_off (m : Treap.TreapMap K V) (key : K) (inclusive : Bool) (b : Nat) :
    m.splitOffP key inclusive b = if b < searchCost m.tree key then (⟨.nil⟩, none)
      else ((m.splitOff key inclusive).1, some (m.splitOff key inclusive).2) := by
  unfold Treap.TreapMap.splitOffP
  rw [Treap.splitP_eq]
  by_cases hb : b < searchCost m.tree key
  · rw [if_pos hb, if_pos hb]
  · rw [if_neg hb, if_neg hb]
    cases inclusive <;> rfl

/-- `SkipMap`: if the first `33 * (len + 2)` comparisons return, the call is the ordinary one. -/
theorem C74_skip_returns {s s' : Skip.Map.SkipMap K V} {op : MapOp K V} {d : Skip.Map.Draw} {r : MapRes K V} {b : Nat}
    (hb : 33 * (s.len + 2) ≤ b) (h : Skip.Map.step s op d = some (s', r)) :
    Skip.Map.stepP s op d b = some (s', some r) := Skip.Map.stepP_enough hb h

/-! ### When a panic is harmless -/

/-- `AvlMap` and `RedBlackMap`: a panicking call has happened entirely or not at all iff it is not the `remove` of a
key from a map with other keys. -/
theorem C74_uprooted_atomic {op : MapOp K V} {σ σ' : Counted K V} (h : Counted.Uprooted op σ σ') :
    AllOrNothing op σ.map σ'.map ↔ ∀ k, op = .remove k → ∀ x, σ.map.Has x → x = k := by
  cases op with
  | remove k =>
    cases h
    constructor
    · rintro (h | ⟨r, hr, h⟩) k' hk x hx
      · simp only [AMap.Has] at hx
        rw [← show AMap.empty x = σ.map x from congrFun h x] at hx
        simp [AMap.empty] at hx
      · cases hk
        by_contra hne
        have := congrFun h x
        simp only [AMap.set, hne, if_false] at this
        simp only [AMap.Has, ← this, AMap.empty] at hx
        simp at hx
    · intro h
      have h := h k rfl
      refine .inr ⟨_, rfl, funext fun x => ?_⟩
      by_cases hx : x = k
      · simp [AMap.set, AMap.empty, hx]
      · simp only [AMap.set, hx, if_false, AMap.empty]
        cases hm : σ.map x with
        | none => rfl
        | some v => exact absurd (h x (by simp [AMap.Has, hm])) hx
  | insert k v =>
    cases h
    exact ⟨fun _ k' hk => (nomatch hk), fun _ => .inl rfl⟩
  | get k => cases h; exact ⟨fun _ k' hk => (nomatch hk), fun _ => .inl rfl⟩
  | containsKey k => cases h; exact ⟨fun _ k' hk => (nomatch hk), fun _ => .inl rfl⟩
  | getMut k f => cases h; exact ⟨fun _ k' hk => (nomatch hk), fun _ => .inl rfl⟩
  | floor k => cases h; exact ⟨fun _ k' hk => (nomatch hk), fun _ => .inl rfl⟩
  | ceil k => cases h; exact ⟨fun _ k' hk => (nomatch hk), fun _ => .inl rfl⟩
  | min => exact h.elim
  | max => exact h.elim
  | len => exact h.elim
  | isEmpty => exact h.elim
  | iter => exact h.elim
  | clear => exact h.elim

/-! ### The property fails for all five maps -/

/-- A call that is not `remove(x)` or `clear()` keeps the key `x`. -/
theorem spec_keeps {x : K} {op : MapOp K V} {m m' : AMap K V} {r} (h : op.Spec m r m') (h1 : op ≠ .remove x)
    (h2 : op ≠ .clear) (hx : m.Has x) : m'.Has x := by
  cases op with
  | insert k v =>
    obtain ⟨-, rfl⟩ := h
    by_cases e : x = k
    · simp [AMap.Has, AMap.set, e]
    · simpa [AMap.Has, AMap.set, e] using hx
  | remove k =>
    obtain ⟨-, rfl⟩ := h
    by_cases e : x = k
    · exact absurd (by rw [e]) h1
    · simpa [AMap.Has, AMap.set, e] using hx
  | getMut k f =>
    obtain ⟨-, rfl⟩ := h
    by_cases e : x = k
    · subst e; simpa [AMap.Has, AMap.set] using hx
    · simpa [AMap.Has, AMap.set, e] using hx
  | clear => exact absurd rfl h2
  | get k => obtain ⟨-, rfl⟩ := h; exact hx
  | containsKey k => obtain ⟨-, rfl⟩ := h; exact hx
  | floor k => obtain ⟨-, rfl⟩ := h; exact hx
  | ceil k => obtain ⟨-, rfl⟩ := h; exact hx
  | min => obtain ⟨-, rfl⟩ := h; exact hx
  | max => obtain ⟨-, rfl⟩ := h; exact hx
  | len => obtain ⟨-, rfl⟩ := h; exact hx
  | isEmpty => obtain ⟨-, rfl⟩ := h; exact hx
  | iter => obtain ⟨-, rfl⟩ := h; exact hx

theorem history_keeps {x : K} {h : List (MapOp K V × Option (MapRes K V))} {m m' : AMap K V}
    (hh : PanicHistory MapOp.Spec AllOrNothing m h m') (h1 : ∀ p ∈ h, p.1 ≠ .remove x ∧ p.1 ≠ .clear) (hx : m.Has x) :
    (MapOp.get x, some (MapRes.val none)) ∉ h := by
  induction hh with
  | nil => simp
  | @ret σ σ₁ σ₂ op r h hr hh ih =>
    have hp := h1 (op, some r) (by simp)
    have := ih (fun p hp => h1 p (by simp [hp])) (spec_keeps hr hp.1 hp.2 hx)
    simp only [List.mem_cons, not_or]
    refine ⟨fun he => ?_, this⟩
    simp only [Prod.mk.injEq, Option.some.injEq] at he
    obtain ⟨rfl, rfl⟩ := he
    obtain ⟨hr, -⟩ := hr
    simp only [MapRes.val.injEq] at hr
    simp [AMap.Has, ← hr] at hx
  | @panic σ σ₁ σ₂ op h hd hh ih =>
    have hp := h1 (op, none) (by simp)
    have hx' : σ₁.Has x := by
      rcases hd with rfl | ⟨r, hd⟩
      · exact hx
      · exact spec_keeps hd hp.1 hp.2 hx
    have := ih (fun p hp => h1 p (by simp [hp])) hx'
    simp only [List.mem_cons, not_or]
    exact ⟨by simp, this⟩

/-- A map that has been given a key, nobody having removed it, and that no longer finds it. -/
theorem not_atomic {I : PanicImpl K V} {x : K} {v : V} {r : MapRes K V}
    {ops : List (MapOp K V × I.Draw × Nat)} {h : List (MapOp K V × Option (MapRes K V))}
    (hrun : (I.run I.empty ops).map (·.2) = some ((.insert x v, some r) :: h))
    (h1 : ∀ p ∈ h, p.1 ≠ .remove x ∧ p.1 ≠ .clear) (h2 : (MapOp.get x, some (MapRes.val none)) ∈ h) :
    ¬ I.Obeys AMap.empty MapOp.Spec AllOrNothing := by
  intro ho
  obtain ⟨s, h', m, h3, _, h5⟩ := ho ops
  rw [h3] at hrun
  simp only [Option.map_some, Option.some.injEq] at hrun
  subst hrun
  cases h5 with
  | ret hr hh =>
    refine history_keeps hh h1 ?_ h2
    obtain ⟨-, rfl⟩ := hr
    simp [AMap.Has, AMap.set]

/-- `AvlMap`: after `insert(1)`, `insert(2)` and a panicking `remove(3)`, the key 1 is gone (and `len()` is 2). -/
theorem C74_avl_violated : ¬ (Avl.panicImpl Nat Nat).Obeys AMap.empty MapOp.Spec AllOrNothing := by
  refine not_atomic (x := 1) (v := 10) (r := .pair none)
    (ops := [(.insert 1 10, (), 9), (.insert 2 20, (), 9), (.remove 3, (), 0), (.get 1, (), 9), (.len, (), 9)])
    (h := [(.insert 2 20, some (.pair none)), (.remove 3, none), (.get 1, some (.val none)), (.len, some (.num 2))])
    rfl ?_ (by simp)
  simp

/-- `RedBlackMap`: the same. -/
theorem C74_rb_violated : ¬ (RedBlack.panicImpl Nat Nat).Obeys AMap.empty MapOp.Spec AllOrNothing := by
  refine not_atomic (x := 1) (v := 10) (r := .pair none)
    (ops := [(.insert 1 10, (), 9), (.insert 2 20, (), 9), (.remove 3, (), 0), (.get 1, (), 9), (.len, (), 9)])
    (h := [(.insert 2 20, some (.pair none)), (.remove 3, none), (.get 1, some (.val none)), (.len, some (.num 2))])
    rfl ?_ (by simp)
  simp

/-- `SplayMap`: `get_mut(0)` panics in its third comparison, and the keys 2 and 3 are gone (`len()` is 3). -/
theorem C74_splay_violated : ¬ (Splay.panicImpl Nat Nat).Obeys AMap.empty MapOp.Spec AllOrNothing := by
  refine not_atomic (x := 3) (v := 30) (r := .pair none)
    (ops := [(.insert 3 30, (), 9), (.insert 1 10, (), 9), (.insert 2 20, (), 9), (.insert 3 30, (), 9),
      (.getMut 0 id, (), 2), (.get 3, (), 9), (.len, (), 9)])
    (h := [(.insert 1 10, some (.pair none)), (.insert 2 20, some (.pair none)), (.insert 3 30, some (.pair (some (3, 30)))),
      (.getMut 0 id, none), (.get 3, some (.val none)), (.len, some (.num 3))])
    rfl ?_ (by simp)
  simp

/-- `TreapMap`: `insert(2)` panics, and the key 3 is gone (`len()` is 2). -/
theorem C74_treap_violated : ¬ (Treap.panicImpl Nat Nat).Obeys AMap.empty MapOp.Spec AllOrNothing := by
  refine not_atomic (I := Treap.panicImpl Nat Nat) (x := 3) (v := 30) (r := .pair none)
    (ops := [(.insert 3 30, (3 : Nat), 9), (.insert 1 10, (5 : Nat), 9), (.insert 2 20, (4 : Nat), 1),
      (.get 3, (0 : Nat), 9), (.len, (0 : Nat), 9)])
    (h := [(.insert 1 10, some (.pair none)), (.insert 2 20, none), (.get 3, some (.val none)),
      (.len, some (.num 2))])
    rfl ?_ (by simp)
  simp

/-- `SkipMap`: `insert(2)` panics halfway; then `get(3)` finds nothing though `iter()` lists 3, and `contains_key(2)`
holds though `iter()` does not list 2. -/
theorem C74_skip_violated : ¬ (Skip.Map.panicImpl Nat Nat 7).Obeys AMap.empty MapOp.Spec AllOrNothing := by
  refine not_atomic (I := Skip.Map.panicImpl Nat Nat 7) (x := 3) (v := 30) (r := .pair none)
    (ops := [(.insert 3 30, ((0, 0) : Skip.Map.Draw), 99), (.insert 1 10, ((0, 0) : Skip.Map.Draw), 99),
      (.insert 2 20, ((1, 0) : Skip.Map.Draw), 0), (.get 3, ((0, 0) : Skip.Map.Draw), 99),
      (.iter, ((0, 0) : Skip.Map.Draw), 99), (.containsKey 2, ((0, 0) : Skip.Map.Draw), 99)])
    (h := [(.insert 1 10, some (.pair none)), (.insert 2 20, none), (.get 3, some (.val none)),
      (.iter, some (.list [(1, 10), (3, 30)])), (.containsKey 2, some (.bool true))])
    rfl ?_ (by simp)
  simp

/-! ### The hypotheses are met -/

/-- Histories whose inserts all draw the height 0 satisfy the hypothesis of `C74_skip_partial`. -/
theorem C74_skip_low_keeps (a : Skip.Addr) (ops : List (MapOp K V × Skip.Map.Draw × Nat))
    (h : ∀ p ∈ ops, p.2.1.1 = 0) (s : Skip.Map.SkipMap K V) :
    (Skip.Map.panicImpl K V a).Keeps Skip.Map.NotHalfway s ops := by
  induction ops generalizing s with
  | nil => trivial
  | cons p ops ih =>
    obtain ⟨op, ⟨n, off⟩, b⟩ := p
    refine ⟨?_, fun s' _ _ => ih (fun p hp => h p (by simp [hp])) s'⟩
    obtain rfl : n = 0 := h (op, (n, off), b) (by simp)
    cases op with
    | insert k v => exact C74_skip_low s k v off b
    | _ => trivial

/-- A panicking insert that is not halfway (a node of height 1, the panic being at level 1), after which the map goes
on working; the new key has not been inserted but is counted. -/
example : ((Skip.Map.panicImpl Nat Nat 7).run (Skip.Map.SkipMap.new 7)
    [(.insert 3 30, ((1, 0) : Skip.Map.Draw), 99), (.insert 1 10, ((0, 0) : Skip.Map.Draw), 99),
      (.insert 2 20, ((1, 0) : Skip.Map.Draw), 0), (.get 3, ((0, 0) : Skip.Map.Draw), 99),
      (.remove 3, ((0, 0) : Skip.Map.Draw), 1), (.remove 1, ((0, 0) : Skip.Map.Draw), 99),
      (.iter, ((0, 0) : Skip.Map.Draw), 99), (.len, ((0, 0) : Skip.Map.Draw), 99)]).map (fun p => p.2.map (·.2)) =
    some [some (.pair none), some (.pair none), none, some (.val (some 30)), none, some (.pair (some (1, 10))),
      some (.list [(3, 30)]), some (.num 2)] := rfl

/-- The level at which it panicked is the height of its node. -/
example : ∃ s s' : Skip.Map.SkipMap Nat Nat,
    (Skip.Map.SkipMap.new 7).insert 3 30 1 0 = some (s, none) ∧ s.insertP 2 20 1 0 0 = some (s', .error 1) :=
  ⟨_, _, rfl, rfl⟩

/-- A red-black map that went through a panicking remove can be reached, and goes on working. -/
example : ((RedBlack.panicImpl Nat Nat).run RedBlack.RedBlackMap.new
    [(.insert 1 10, (), 9), (.insert 2 20, (), 9), (.remove 1, (), 1), (.insert 5 50, (), 9), (.insert 4 40, (), 0),
      (.iter, (), 0), (.len, (), 0)]).map (fun p => p.2.map (·.2)) =
    some [some (.pair none), some (.pair none), none, some (.pair none), none, some (.list [(5, 50)]), some (.num 4)] := by
  decide +kernel

/-- A splay map in which `get_mut(0)` makes four comparisons. -/
example : ∃ m : Splay.SplayMap Nat Nat, Reached (Splay.panicImpl Nat Nat) m ∧
    Splay.comparisons m (.getMut 0 id) = 4 ∧ 2 < Splay.comparisons m (.getMut 0 id) :=
  ⟨_, ⟨[(.insert 1 10, (), 9), (.insert 2 20, (), 9), (.insert 3 30, (), 9)], _, rfl⟩, rfl, by decide⟩

/-- A panicking `split_off` loses both entries. -/
example : (Treap.TreapMap.mk (.node ⟨5, 2⟩ .nil 1 10 (.node ⟨3, 1⟩ .nil 3 30 .nil)) : Treap.TreapMap Nat Nat).splitOffP
    2 true 1 = (⟨.nil⟩, none) := rfl

end Verif.Panic
