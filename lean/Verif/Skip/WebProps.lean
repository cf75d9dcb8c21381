/- Property C90: panicking comparisons do not corrupt a `SkipMap`. -/
import Verif.Skip.WebSim
import Mathlib.Data.Multiset.Filter
import Mathlib.Tactic.Abel
import Mathlib.Algebra.Order.Group.Multiset

namespace Verif.Skip.Map.Torn

open Verif.Spec

variable {K V : Type} [LinearOrder K]

/-! ### Consequences of the specification -/

/-- Entries are neither made up nor doubled nor dropped. -/
theorem scattered_conserved {σ σ' : Scattered K V} {h : PanicLog K V}
    (hh : PanicHistory Scattered.Ret Scattered.Left σ h σ') (hr : ∀ c ∈ h, c.1.rewrites = false) :
    σ'.seen + σ'.lost + h.returned = σ.seen + σ.lost + h.inserted := by
  have swap : ∀ {k : K} {out inn : Multiset (K × V)} {σ σ' : Scattered K V}, Scattered.Swap k out inn σ σ' →
      σ'.seen + σ'.lost + out = σ.seen + σ.lost + inn := by
    rintro k out inn σ σ' (⟨rest, h1, h2, h3⟩ | ⟨⟨rest, h1, h2, h3⟩, -⟩)
    · rw [h1, h2, h3]; abel
    · rw [h1, h2, h3]; abel
  induction hh with
  | nil σ => simp [PanicLog.returned, PanicLog.inserted]
  | @ret σ σ₁ σ₂ op r h h1 _ ih =>
    have ih := ih fun c hc => hr c (List.mem_cons_of_mem _ hc)
    have hop : op.rewrites = false := hr (op, some r) (by simp)
    cases op with
    | insert k v =>
      obtain ⟨o, rfl, -, h2⟩ := h1
      have h3 := swap h2
      cases o with
      | none =>
        simp only [PanicLog.returned, PanicLog.inserted] at ih ⊢
        simp only [Scattered.one, Option.toList, Multiset.coe_nil, add_zero] at h3
        rw [ih, h3, ← Multiset.singleton_add]; abel
      | some e =>
        simp only [PanicLog.returned, PanicLog.inserted] at ih ⊢
        simp only [Scattered.one, Option.toList, Multiset.coe_singleton] at h3
        rw [← Multiset.singleton_add, ← Multiset.singleton_add]
        calc σ₂.seen + σ₂.lost + ({e} + PanicLog.returned h) = σ₂.seen + σ₂.lost + PanicLog.returned h + {e} := by abel
          _ = (σ₁.seen + σ₁.lost + {e}) + PanicLog.inserted h := by rw [ih]; abel
          _ = σ.seen + σ.lost + ({(k, v)} + PanicLog.inserted h) := by rw [h3]; abel
    | remove k =>
      obtain ⟨o, rfl, -, h2⟩ := h1
      have h3 := swap h2
      cases o with
      | none =>
        simp only [PanicLog.returned, PanicLog.inserted] at ih ⊢
        simp only [Scattered.one, Option.toList, Multiset.coe_nil, add_zero] at h3
        rw [ih, h3]
      | some e =>
        simp only [PanicLog.returned, PanicLog.inserted] at ih ⊢
        simp only [Scattered.one, Option.toList, Multiset.coe_singleton, add_zero] at h3
        rw [← Multiset.singleton_add]
        calc σ₂.seen + σ₂.lost + ({e} + PanicLog.returned h) = σ₂.seen + σ₂.lost + PanicLog.returned h + {e} := by abel
          _ = (σ₁.seen + σ₁.lost + {e}) + PanicLog.inserted h := by rw [ih]; abel
          _ = σ.seen + σ.lost + PanicLog.inserted h := by rw [h3]
    | get k => obtain ⟨o, rfl, -, rfl⟩ := h1; simpa [PanicLog.returned, PanicLog.inserted] using ih
    | containsKey k => obtain ⟨o, rfl, -, rfl⟩ := h1; simpa [PanicLog.returned, PanicLog.inserted] using ih
    | getMut k f => simp [MapOp.rewrites] at hop
    | floor k => obtain ⟨o, rfl, -, -, rfl⟩ := h1; simpa [PanicLog.returned, PanicLog.inserted] using ih
    | ceil k => obtain ⟨o, rfl, -, -, rfl⟩ := h1; simpa [PanicLog.returned, PanicLog.inserted] using ih
    | min => obtain ⟨o, rfl, -, -, rfl⟩ := h1; simpa [PanicLog.returned, PanicLog.inserted] using ih
    | max => obtain ⟨o, rfl, -, -, rfl⟩ := h1; simpa [PanicLog.returned, PanicLog.inserted] using ih
    | len => obtain ⟨rfl, rfl⟩ := h1; simpa [PanicLog.returned, PanicLog.inserted] using ih
    | isEmpty => obtain ⟨rfl, rfl⟩ := h1; simpa [PanicLog.returned, PanicLog.inserted] using ih
    | iter => obtain ⟨l, rfl, -, -, rfl⟩ := h1; simpa [PanicLog.returned, PanicLog.inserted] using ih
    | clear => simp [MapOp.rewrites] at hop
  | @panic σ σ₁ σ₂ op h h1 _ ih =>
    have ih := ih fun c hc => hr c (List.mem_cons_of_mem _ hc)
    cases op with
    | insert k v =>
      obtain rfl := h1
      simp only [PanicLog.returned, PanicLog.inserted] at ih ⊢
      rw [ih, ← Multiset.singleton_add, ← Multiset.singleton_add]; abel
    | remove k => obtain rfl := h1; simpa [PanicLog.returned, PanicLog.inserted] using ih
    | get k => obtain rfl := h1; simpa [PanicLog.returned, PanicLog.inserted] using ih
    | containsKey k => obtain rfl := h1; simpa [PanicLog.returned, PanicLog.inserted] using ih
    | getMut k f => obtain rfl := h1; simpa [PanicLog.returned, PanicLog.inserted] using ih
    | floor k => obtain rfl := h1; simpa [PanicLog.returned, PanicLog.inserted] using ih
    | ceil k => obtain rfl := h1; simpa [PanicLog.returned, PanicLog.inserted] using ih
    | _ => exact h1.elim

/-- The entries of key `k`. -/
def atKey (k : K) (s : Multiset (K × V)) : Multiset (K × V) := s.filter fun e => e.1 = k

theorem atKey_zero {k : K} {s : Multiset (K × V)} (h : ∀ e ∈ s, e.1 ≠ k) : atKey k s = 0 := by
  unfold atKey
  rw [Multiset.filter_eq_nil]
  exact h

theorem atKey_add (k : K) (s t : Multiset (K × V)) : atKey k (s + t) = atKey k s + atKey k t := Multiset.filter_add _ _ _

theorem atKey_all {k : K} {s : Multiset (K × V)} (h : ∀ e ∈ s, e.1 = k) : atKey k s = s := Multiset.filter_eq_self.2 h

/-- `k` is smaller than all keys out of sight, and this is its value. -/
def Exact (k : K) (σ : Scattered K V) (o : Option V) : Prop :=
  σ.Sound k ∧ atKey k σ.seen = Scattered.one (o.map fun v => (k, v))

omit [LinearOrder K] in
theorem one_mem {o : Option (K × V)} {e : K × V} : e ∈ Scattered.one o ↔ o = some e := by
  cases o <;> simp [Scattered.one, eq_comm]

/-- A replacement of entries with another key. -/
theorem exact_other {k k' : K} (hne : k' ≠ k) {σ σ' : Scattered K V} {o : Option V} (h : Exact k σ o)
    {out inn : Multiset (K × V)} (ho : ∀ e ∈ out, e.1 = k') (hi : ∀ e ∈ inn, e.1 = k')
    (hs : Scattered.Swap k' out inn σ σ') : Exact k σ' o := by
  obtain ⟨h1, h2⟩ := h
  rcases hs with ⟨rest, s1, s2, s3⟩ | ⟨⟨rest, s1, s2, s3⟩, s4⟩
  · refine ⟨fun e he => h1 e (by rw [← s3]; exact he), ?_⟩
    rw [s1, atKey_add, atKey_zero fun e he => by rw [ho e he]; exact hne] at h2
    rw [s2, atKey_add, atKey_zero fun e he => by rw [hi e he]; exact hne]
    exact h2
  · refine ⟨fun e he => ?_, by rw [s3]; exact h2⟩
    rw [s2, Multiset.mem_add] at he
    rcases he with he | he
    · rw [hi e he]
      unfold Scattered.Sound at s4
      push Not at s4
      obtain ⟨x, x1, x2⟩ := s4
      exact lt_of_lt_of_le (h1 x x1) x2
    · exact h1 e (by rw [s1, Multiset.mem_add]; exact .inr he)

/-- An answer about `k` is right. -/
theorem exact_answer {k : K} {σ : Scattered K V} {o : Option V} (h : Exact k σ o) {a : Option (K × V)}
    (ha : σ.Answer k a) : a = o.map fun v => (k, v) := by
  obtain ⟨h1, h2⟩ := h
  obtain ⟨a1, a2⟩ := ha
  cases a with
  | none =>
    have h3 := atKey_zero (a2 rfl h1)
    rw [h2] at h3
    cases o with
    | none => rfl
    | some v => simp [Scattered.one] at h3
  | some e =>
    obtain ⟨e1, e2⟩ := a1 e rfl
    have e3 : e ∈ σ.seen := by
      rcases e2 with e2 | ⟨_, e2⟩
      · exact e2
      · exact absurd h1 e2
    have e4 : e ∈ atKey k σ.seen := Multiset.mem_filter.2 ⟨e3, e1⟩
    rw [h2, one_mem] at e4
    exact e4.symm

/-- A replacement of the entry with key `k`. -/
theorem exact_same {k : K} {σ σ' : Scattered K V} {o o' : Option V} (h : Exact k σ o)
    (hs : Scattered.Swap k (Scattered.one (o.map fun v => (k, v))) (Scattered.one (o'.map fun v => (k, v))) σ σ') :
    Exact k σ' o' := by
  obtain ⟨h1, h2⟩ := h
  have hk : ∀ (o : Option V), ∀ e ∈ Scattered.one (o.map fun v => (k, v)), e.1 = k := by
    intro o e he
    rw [one_mem] at he
    obtain ⟨v, -, rfl⟩ := Option.map_eq_some_iff.1 he
    rfl
  rcases hs with ⟨rest, s1, s2, s3⟩ | ⟨_, s4⟩
  · refine ⟨fun e he => h1 e (by rw [← s3]; exact he), ?_⟩
    rw [s1, atKey_add, atKey_all (hk o)] at h2
    have h3 : atKey k rest = 0 := by simpa using h2
    rw [s2, atKey_add, atKey_all (hk o'), h3, add_zero]
  · exact absurd h1 s4

theorem exact_history {k : K} {σ σ' : Scattered K V} {h : PanicLog K V}
    (hh : PanicHistory Scattered.Ret Scattered.Left σ h σ') {o : Option V} (he : Exact k σ o)
    (hp : ∀ k' v, (MapOp.insert k' v, none) ∈ h → k < k') : Exact k σ' (h.value k o) := by
  induction hh generalizing o with
  | nil σ => exact he
  | @ret σ σ₁ σ₂ op r h h1 _ ih =>
    have ih := fun {o} (he : Exact k σ₁ o) => ih he fun k' v hm => hp k' v (List.mem_cons_of_mem _ hm)
    cases op with
    | insert k' v =>
      obtain ⟨a, rfl, h2, h3⟩ := h1
      refine ih ?_
      by_cases hk : k' = k
      · subst hk
        rw [if_pos rfl]
        rw [exact_answer he h2] at h3
        exact exact_same (o' := some v) he (by simpa [Scattered.one] using h3)
      · rw [if_neg hk]
        refine exact_other hk he ?_ (by simp) h3
        intro e hm
        rw [one_mem] at hm
        exact (h2.1 e hm).1
    | remove k' =>
      obtain ⟨a, rfl, h2, h3⟩ := h1
      refine ih ?_
      by_cases hk : k' = k
      · subst hk
        rw [if_pos rfl]
        rw [exact_answer he h2] at h3
        exact exact_same (o' := none) he (by simpa [Scattered.one] using h3)
      · rw [if_neg hk]
        refine exact_other hk he ?_ (by simp) h3
        intro e hm
        rw [one_mem] at hm
        exact (h2.1 e hm).1
    | getMut k' f =>
      obtain ⟨a, rfl, h2, h3⟩ := h1
      refine ih ?_
      by_cases hk : k' = k
      · subst hk
        rw [if_pos rfl]
        rw [exact_answer he h2] at h3
        refine exact_same (o' := o.map f) he ?_
        have : ((o.map fun v => (k', v)).map fun e => (e.1, f e.2)) = (o.map f).map fun v => (k', v) := by
          cases o <;> rfl
        rw [this] at h3
        exact h3
      · rw [if_neg hk]
        refine exact_other hk he ?_ ?_ h3
        · intro e hm
          rw [one_mem] at hm
          exact (h2.1 e hm).1
        · intro e hm
          rw [one_mem] at hm
          obtain ⟨x, x1, rfl⟩ := Option.map_eq_some_iff.1 hm
          exact (h2.1 x x1).1
    | get k => obtain ⟨o, rfl, -, rfl⟩ := h1; exact ih he
    | containsKey k => obtain ⟨o, rfl, -, rfl⟩ := h1; exact ih he
    | floor k => obtain ⟨o, rfl, -, -, rfl⟩ := h1; exact ih he
    | ceil k => obtain ⟨o, rfl, -, -, rfl⟩ := h1; exact ih he
    | min => obtain ⟨o, rfl, -, -, rfl⟩ := h1; exact ih he
    | max => obtain ⟨o, rfl, -, -, rfl⟩ := h1; exact ih he
    | len => obtain ⟨rfl, rfl⟩ := h1; exact ih he
    | isEmpty => obtain ⟨rfl, rfl⟩ := h1; exact ih he
    | iter => obtain ⟨l, rfl, -, -, rfl⟩ := h1; exact ih he
    | clear =>
      obtain ⟨rfl, rfl⟩ := h1
      exact ih (o := none) ⟨by simp [Scattered.Sound, Scattered.empty], by simp [atKey, Scattered.empty, Scattered.one]⟩
  | @panic σ σ₁ σ₂ op h h1 _ ih =>
    have ih := fun {o} (he : Exact k σ₁ o) => ih he fun k' v hm => hp k' v (List.mem_cons_of_mem _ hm)
    cases op with
    | insert k' v =>
      obtain rfl := h1
      refine ih ⟨fun e hm => ?_, he.2⟩
      rcases Multiset.mem_cons.1 hm with rfl | hm
      · exact hp k' v (by simp)
      · exact he.1 e hm
    | remove k => obtain rfl := h1; exact ih he
    | get k => obtain rfl := h1; exact ih he
    | containsKey k => obtain rfl := h1; exact ih he
    | getMut k f => obtain rfl := h1; exact ih he
    | floor k => obtain rfl := h1; exact ih he
    | ceil k => obtain rfl := h1; exact ih he
    | _ => exact h1.elim

/-! ### The property -/

/-- C90, the calls: whatever comparisons panic, in whatever calls, nothing goes wrong in any later call: no undefined
behaviour, no endless loop, no underflow of the length.  Iteration is in ascending order and, with the entries that it
does not show, holds each entry once. -/
theorem C90_calls (K V : Type) [LinearOrder K] (a : Addr) :
    (panicImpl K V a).Obeys Scattered.empty Scattered.Ret Scattered.Left := (webSim K V a).obeys

/-- C90, the end: the map can be dropped after every such history, and nothing is freed twice. -/
theorem C90_drop (a : Addr) (ops : List (MapOp K V × Draw × Nat)) :
    ∃ s h m, (panicImpl K V a).run (SkipMap.new a) ops = some (s, h) ∧ s.drop = some m := by
  obtain ⟨s, h, σ, h1, -, -, h2⟩ := (webSim K V a).run ops _ _ (webSim K V a).empty
  obtain ⟨m, h3⟩ := drop_web h2
  exact ⟨s, h, m, h1, h3⟩

/-- C90, the entries: iteration shows, in ascending order, entries that were inserted and not handed back, none of them
twice; and the length is the number of entries that were inserted and not handed back. -/
theorem C90_entries (a : Addr) (ops : List (MapOp K V × Draw × Nat)) (hops : ∀ c ∈ ops, c.1.rewrites = false)
    {s : SkipMap K V} {h : PanicLog K V} (hrun : (panicImpl K V a).run (SkipMap.new a) ops = some (s, h)) :
    ∃ l : List (K × V), s.iter = some l ∧ l.Pairwise (fun x y => x.1 < y.1) ∧
      (l : Multiset (K × V)) + h.returned ≤ h.inserted ∧ s.len + Multiset.card h.returned = Multiset.card h.inserted := by
  obtain ⟨s', h', σ, h1, h2, h3, h4⟩ := (webSim K V a).run ops _ _ (webSim K V a).empty
  rw [show (panicImpl K V a).run (panicImpl K V a).empty ops = some (s, h) from hrun] at h1
  obtain ⟨rfl, rfl⟩ : s = s' ∧ h = h' := Prod.mk.inj (Option.some.inj h1)
  obtain ⟨l, l1, l2, l3⟩ := iter_web h4
  have h5 := scattered_conserved h3 (by
    intro c hc
    have h2' : h.map (·.1) = ops.map (·.1) := h2
    have : c.1 ∈ ops.map (·.1) := by rw [← h2']; exact List.mem_map_of_mem hc
    obtain ⟨c', hc', h6⟩ := List.mem_map.1 this
    rw [← h6]
    exact hops c' hc')
  simp only [Scattered.empty, zero_add] at h5
  refine ⟨l, l1, l2, ?_, ?_⟩
  · rw [l3, ← h5, add_right_comm]
    exact Multiset.le_add_right _ _
  · rw [count_web h4, ← h5]
    simp [Scattered.count]

/-- C90, small keys: a key that is smaller than all keys whose insertion panicked is not affected by the panics: it has
the value that the calls that returned gave it. -/
theorem C90_small_keys (a : Addr) (ops : List (MapOp K V × Draw × Nat)) {s : SkipMap K V} {h : PanicLog K V}
    (hrun : (panicImpl K V a).run (SkipMap.new a) ops = some (s, h)) (k : K)
    (hk : ∀ k' v, (MapOp.insert k' v, none) ∈ h → k < k') (d : Draw) (b : Nat) :
    ∃ o, stepP s (.get k) d b = some (s, o) ∧ (o = none ∨ o = some (.val (h.value k none))) := by
  obtain ⟨s', h', σ, h1, h2, h3, h4⟩ := (webSim K V a).run ops _ _ (webSim K V a).empty
  rw [show (panicImpl K V a).run (panicImpl K V a).empty ops = some (s, h) from hrun] at h1
  obtain ⟨rfl, rfl⟩ : s = s' ∧ h = h' := Prod.mk.inj (Option.some.inj h1)
  have he : Exact k σ (h.value k none) := exact_history h3
    ⟨by simp [Scattered.Sound, Scattered.empty], by simp [atKey, Scattered.empty, Scattered.one]⟩ hk
  rcases getP_web h4 k b with g1 | ⟨o, g1, g2⟩
  · exact ⟨none, by simp [stepP, g1], .inl rfl⟩
  · refine ⟨some (.val (h.value k none)), ?_, .inr rfl⟩
    rw [exact_answer he g2] at g1
    simp only [stepP, g1, Option.map_some, Option.some.injEq, Prod.mk.injEq, true_and, MapRes.val.injEq]
    cases h.value k none <;> rfl

/-! ### Examples -/

/-- Three keys are inserted; the insertion of 5, with a high tower, panics after it was linked at its upper levels. -/
def halfway : List (MapOp Nat String × Draw × Nat) :=
  [(.insert 2 "a", (0, 0), 99), (.insert 4 "b", (0, 0), 99), (.insert 8 "c", (0, 0), 99), (.insert 5 "d", (2, 0), 1)]

/-- Then iteration does not show 5, but the length counts it and `get` finds it; 8 is shown but not found; 6, inserted
later, goes where only `get` finds it; `remove` does not return 5, and then neither 5 nor 6 is found. -/
example : (((panicImpl Nat String 0).run (SkipMap.new 0) (halfway ++
    [(.iter, (0, 0), 99), (.len, (0, 0), 99), (.get 5, (0, 0), 99), (.get 4, (0, 0), 99), (.get 8, (0, 0), 99),
     (.insert 6 "e", (0, 0), 99), (.iter, (0, 0), 99), (.get 6, (0, 0), 99), (.remove 5, (0, 0), 99), (.get 6, (0, 0), 99),
     (.len, (0, 0), 99), (.iter, (0, 0), 99)])).map fun r => r.2.map (·.2)) =
    some [some (.pair none), some (.pair none), some (.pair none), none, some (.list [(2, "a"), (4, "b"), (8, "c")]),
      some (.num 4), some (.val (some "d")), some (.val (some "b")), some (.val none), some (.pair none),
      some (.list [(2, "a"), (4, "b"), (8, "c")]), some (.val (some "e")), some (.pair none), some (.val none),
      some (.num 5), some (.list [(2, "a"), (4, "b"), (8, "c")])] := by decide +kernel

/-- The key 4 is smaller than 5 and is found by every later `get`. -/
example (s : SkipMap Nat String) (h : PanicLog Nat String)
    (hrun : (panicImpl Nat String 0).run (SkipMap.new 0) halfway = some (s, h)) : ∃ o, stepP s (.get 4) (0, 0) 99 = some (s, o) ∧
      (o = none ∨ o = some (.val (some "b"))) := by
  have hh : h = [(.insert 2 "a", some (.pair none)), (.insert 4 "b", some (.pair none)), (.insert 8 "c", some (.pair none)),
      (.insert 5 "d", none)] := by
    obtain ⟨s', h', h1, h2, h3⟩ : ∃ s' h', (panicImpl Nat String 0).run (SkipMap.new 0) halfway = some (s', h') ∧
        h'.map (·.2) = [some (.pair none), some (.pair none), some (.pair none), none] ∧ h'.map (·.1) = halfway.map (·.1) := by
      obtain ⟨s', h', σ, h1, h2, -⟩ := C90_calls Nat String 0 halfway
      refine ⟨s', h', h1, ?_, h2⟩
      have h3 : ((panicImpl Nat String 0).run (SkipMap.new 0) halfway).map (fun r => r.2.map (·.2)) =
        some [some (.pair none), some (.pair none), some (.pair none), none] := by decide +kernel
      rw [show (panicImpl Nat String 0).run (SkipMap.new 0) halfway = some (s', h') from h1] at h3
      simpa using h3
    rw [hrun] at h1
    obtain ⟨rfl, rfl⟩ : s = s' ∧ h = h' := Prod.mk.inj (Option.some.inj h1)
    match h, h2, h3 with
    | [(_, _), (_, _), (_, _), (_, _)], h2, h3 =>
      simp [halfway] at h2 h3
      simp [h2, h3]
  have := C90_small_keys 0 halfway hrun 4 (by subst hh; simp) (0, 0) 99
  subst hh
  exact this

end Verif.Skip.Map.Torn
