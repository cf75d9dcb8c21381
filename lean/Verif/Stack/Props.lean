/- Properties C21 to C24 of `sync::Stack`. -/
import Verif.Stack.Drop
import Mathlib.Algebra.Order.BigOperators.Group.Finset

namespace Verif.Stack

open Verif.Spec

variable {n : Nat} {V : Type}

/-- `l` are the values of the stack, top first: the list one reads by following the nodes from the head
(however many nodes one is prepared to follow, if they are enough). -/
def Contents (s : State n V) (l : List V) : Prop := ∀ k, l.length < k → walk s.mem k s.head = l

/-- No operation is in progress. -/
def Quiescent (s : State n V) : Prop := ∀ t, s.th t = .idle

theorem walk_chain {mem : Addr → Option (Node V)} {h : Option Addr} {l : List Addr} {σ : List V}
    (hc : Chain mem h l) (hv : l.map (valAt mem) = σ.map some) (k : Nat) (hk : σ.length < k) :
    walk mem k h = σ := by
  induction l generalizing h σ k with
  | nil =>
    have : σ = [] := by cases σ with
      | nil => rfl
      | cons => cases hv
    subst this
    cases hc
    cases k <;> rfl
  | cons a l ih =>
    obtain ⟨rfl, nd, hm, hc'⟩ := hc
    cases σ with
    | nil => cases hv
    | cons v σ =>
      simp only [List.map_cons, List.cons.injEq] at hv
      cases k with
      | zero => cases hk
      | succ k =>
        have h1 : nd.value = v := by have := hv.1; simpa [valAt, hm] using this
        simp only [walk, hm, h1, ih hc' hv.2 k (by simpa using hk)]

theorem Sim.contents {s : State n V} {σ st l role} (h : Sim s σ st l role) : Contents s σ :=
  fun k hk => walk_chain h.inv.chain h.vals k hk

theorem Contents.unique {s : State n V} {l l' : List V} (h : Contents s l) (h' : Contents s l') : l = l' := by
  rw [← h (l.length + l'.length + 1) (by omega), h' (l.length + l'.length + 1) (by omega)]

/-- C21.  Every history of every schedule, with any number of threads, is linearizable to a LIFO stack. -/
theorem C21_linearizable (as : List (Action n V)) {s : State n V}
    {evs : List (Event (Fin n) (StackOp V) (StackRes V))} (h : exec (init n V) as = some (s, evs)) :
    Linearizable (lifo V) evs := by
  obtain ⟨σ, st, l, role, _, h2⟩ := sim_exec sim_init h
  exact ⟨σ, st, h2⟩

/-- C21.  The stack the linearization ends in is the one in memory. -/
theorem C21_contents (as : List (Action n V)) {s : State n V}
    {evs : List (Event (Fin n) (StackOp V) (StackRes V))} (h : exec (init n V) as = some (s, evs)) :
    ∃ σ st, Atomic (lifo V) [] (fun _ => .idle) evs σ st ∧ Contents s σ := by
  obtain ⟨σ, st, l, role, h1, h2⟩ := sim_exec sim_init h
  exact ⟨σ, st, h2, h1.contents⟩

theorem quiescent_stat {s : State n V} {σ st l role} (h : Sim s σ st l role) (hq : Quiescent s) :
    ∀ t, st t = .idle := by
  intro t
  have := h.stat t
  rw [hq t] at this
  exact this

/-- C21.  No value is lost or handed out twice: when no operation is in progress, the values pushed so far are,
with multiplicity, the values handed out and the values in the stack. -/
theorem C21_no_loss_no_duplicate (as : List (Action n V)) {s : State n V}
    {evs : List (Event (Fin n) (StackOp V) (StackRes V))} (h : exec (init n V) as = some (s, evs))
    (hq : Quiescent s) : ∃ l, Contents s l ∧ (pushed evs).Perm (popped evs ++ l) := by
  obtain ⟨σ, st, l, role, h1, h2⟩ := sim_exec sim_init h
  refine ⟨σ, h1.contents, ?_⟩
  have h3 := atomic_conserve h2
  have h4 : ∑ t, pend (st t) = 0 :=
    Finset.sum_eq_zero fun t _ => by rw [quiescent_stat h1 hq t]; rfl
  have h5 : ∑ _t : Fin n, pend (.idle : Status (StackOp V) (StackRes V)) = 0 :=
    Finset.sum_eq_zero fun t _ => rfl
  rw [h4, h5] at h3
  simp only [Multiset.coe_nil, add_zero, Multiset.coe_add] at h3
  exact Multiset.coe_eq_coe.1 h3

/-- A schedule of two threads used below: thread 0 pushes 1, then both push, the first compare-and-swap of
thread 0 fails because of thread 1; then thread 1 pops and the collector runs. -/
def demo : List (Action 2 Nat) :=
  [.push 0 1 10, .tick 0, .tick 0, .tick 0, .tick 0, .tick 0,
   .push 0 2 11, .push 1 3 12, .tick 0, .tick 1, .tick 1, .tick 1, .tick 0, .tick 0, .tick 1, .tick 1,
   .pop 1, .tick 1, .tick 0, .tick 0, .tick 0, .tick 1, .tick 1, .tick 1, .tick 1, .tick 1, .tick 1, .tick 1,
   .tick 1, .tick 1, .tick 0, .tick 0, .reclaim 11]

/-- Non-vacuity of C21: the schedule runs to a state with no operation in progress; its history is not
sequential, and the two values left in the stack are 3 and 1. -/
example : (exec (init 2 Nat) demo).map (fun q => (q.2, walk q.1.mem 5 q.1.head, q.1.len, q.1.dropped,
      (q.1.th 0).pinned, (q.1.th 1).pinned)) =
    some ([.call 0 (.push 1), .ret 0 .unit, .call 0 (.push 2), .call 1 (.push 3), .ret 1 .unit, .call 1 .pop,
      .ret 1 (.popped (some 2)), .ret 0 .unit], [3, 1], 2, [2], false, false) := by rfl

/-- C22.  When no operation is in progress the counter is exactly the number of values. -/
theorem C22_len_quiescent {s : State n V} (hr : Reachable s) (hq : Quiescent s) :
    ∃ l, Contents s l ∧ s.len = l.length ∧ s.lenCall = l.length % 2 ^ 64 ∧
      (l.length < 2 ^ 64 → s.lenCall = l.length ∧ (s.isEmpty = true ↔ l = [])) := by
  obtain ⟨as, evs, h⟩ := hr
  obtain ⟨σ, st, l, role, h1, _⟩ := sim_exec sim_init h
  have h2 := h1.count
  have h3 : ∑ t, (s.th t).debt = 0 := Finset.sum_eq_zero fun t _ => by rw [hq t]; rfl
  have h4 : l.length = σ.length := by have := congrArg List.length h1.vals; simpa using this
  rw [h3, add_zero, h4] at h2
  have h5 : s.lenCall = σ.length % 2 ^ 64 := by
    unfold State.lenCall; rw [h2]; omega
  refine ⟨σ, h1.contents, h2, h5, fun hlt => ?_⟩
  have h6 : s.lenCall = σ.length := by rw [h5, Nat.mod_eq_of_lt hlt]
  refine ⟨h6, ?_⟩
  unfold State.isEmpty
  rw [h6]
  cases σ <;> simp

/-- The number of operations in progress. -/
def inProgress (s : State n V) : Nat := ∑ t, if (s.th t).pinned then 1 else 0

/-- C22.  At every instant the counter differs from the number of values by at most the number of operations in
progress. -/
theorem C22_len_bound {s : State n V} (hr : Reachable s) :
    ∃ l, Contents s l ∧ s.len ≤ l.length + inProgress s ∧ l.length ≤ s.len + inProgress s := by
  obtain ⟨as, evs, h⟩ := hr
  obtain ⟨σ, st, l, role, h1, _⟩ := sim_exec sim_init h
  refine ⟨σ, h1.contents, ?_⟩
  have h2 := h1.count
  have h4 : l.length = σ.length := by have := congrArg List.length h1.vals; simpa using this
  have h5 : (inProgress s : Int) = ∑ t, if (s.th t).pinned then (1 : Int) else 0 := by
    unfold inProgress; push_cast; rfl
  have h6 : ∑ t, (s.th t).debt ≤ (inProgress s : Int) := by
    rw [h5]
    refine Finset.sum_le_sum fun t _ => ?_
    cases s.th t <;> simp [Local.debt, Local.pinned]
  have h7 : -(inProgress s : Int) ≤ ∑ t, (s.th t).debt := by
    rw [h5, ← Finset.sum_neg_distrib]
    refine Finset.sum_le_sum fun t _ => ?_
    cases s.th t <;> simp [Local.debt, Local.pinned]
  rw [h4] at h2
  omega

/-- The bound is attained by the counter of `demo` before thread 1 adds 1 for its push: two values, one
operation in progress that is not counted. -/
example : (exec (init 2 Nat) (demo.take 14)).map (fun q => (walk q.1.mem 5 q.1.head, q.1.len)) =
    some ([3, 1], 1) := by decide

/-- C22, "never wraps below zero", is false: thread 1 pops the value of thread 0 between the compare-and-swap
and the `fetch_add` of thread 0; the stack is then empty, and `len` returns 2^64 - 1. -/
theorem C22_len_wraps_below_zero :
    ∃ s : State 2 Nat, Reachable s ∧ Contents s [] ∧ s.len = -1 ∧ s.lenCall = 2 ^ 64 - 1 ∧
      s.isEmpty = false := by
  let as : List (Action 2 Nat) :=
    [.push 0 7 1, .tick 0, .tick 0, .tick 0, .pop 1, .tick 1, .tick 1, .tick 1, .tick 1]
  have h : ∃ s evs, exec (init 2 Nat) as = some (s, evs) ∧ s.head = none ∧ s.len = -1 :=
    ⟨_, _, rfl, rfl, rfl⟩
  obtain ⟨s, evs, h1, h2, h3⟩ := h
  have h4 : s.lenCall = 2 ^ 64 - 1 := by unfold State.lenCall; rw [h3]; rfl
  refine ⟨s, ⟨as, evs, h1⟩, ?_, h3, h4, ?_⟩
  · intro k _
    rw [h2]
    cases k <;> rfl
  · unfold State.isEmpty; rw [h4]; rfl

/-- The part of C22 about wrapping that holds: the counter is not negative as long as at most as many
operations are in progress as there are values in the stack.  Missing: the other states, where it is false. -/
theorem C22_no_wrap_partial {s : State n V} (hr : Reachable s) {l : List V} (hl : Contents s l)
    (hp : inProgress s ≤ l.length) : 0 ≤ s.len := by
  obtain ⟨l', h1, h2⟩ := C22_len_bound hr
  cases hl.unique h1
  omega

/-- C23.  Which destructors run: a caller drops each value it was handed (once), the collector drops the
values of the nodes it frees, dropping the stack drops `s.dropStack`. -/
def destructorRuns (s : State n V) (evs : List (Event (Fin n) (StackOp V) (StackRes V))) : List V :=
  popped evs ++ s.dropped ++ s.dropStack

/-- C23 is false, in general: in every execution, once no operation is in progress and the collector has run all
its closures, the collector has dropped exactly the values that were also handed out to callers: each popped
value is dropped twice, and the values left in the stack are not dropped when the stack is. -/
theorem C23_popped_values_dropped_twice (as : List (Action n V)) {s : State n V}
    {evs : List (Event (Fin n) (StackOp V) (StackRes V))} (h : exec (init n V) as = some (s, evs))
    (hq : Quiescent s) (hr : s.retired = []) :
    (destructorRuns s evs).Perm (popped evs ++ popped evs) ∧
      ∃ l, Contents s l ∧ (pushed evs).Perm (popped evs ++ l) := by
  refine ⟨?_, C21_no_loss_no_duplicate as h hq⟩
  have h1 := drops_exec sim_init h drops_init
  unfold Drops at h1
  have h2 : ∑ t, aft s.mem (s.th t) = 0 := Finset.sum_eq_zero fun t _ => by rw [hq t]; rfl
  rw [h2, hr] at h1
  simp only [zero_add, add_zero, retVals, List.map_nil, List.sum_nil] at h1
  have h3 : (popped evs).Perm s.dropped := Multiset.coe_eq_coe.1 h1
  simp only [destructorRuns, State.dropStack, List.append_nil]
  exact (List.Perm.refl _).append h3.symm

/-- C23, witness: one push, one pop, reclamation: the value 5 is handed out and also dropped by the collector. -/
theorem C23_double_drop :
    ∃ (as : List (Action 1 Nat)) (s : State 1 Nat) (evs : List (Event (Fin 1) (StackOp Nat) (StackRes Nat))),
      exec (init 1 Nat) as = some (s, evs) ∧ pushed evs = [5] ∧ destructorRuns s evs = [5, 5] :=
  ⟨[.push 0 5 1, .tick 0, .tick 0, .tick 0, .tick 0, .tick 0, .pop 0, .tick 0, .tick 0, .tick 0, .tick 0, .tick 0,
    .tick 0, .tick 0, .reclaim 1], _, _, rfl, by decide, by decide⟩

/-- C23, witness: a value still in the stack is never dropped. -/
theorem C23_leak :
    ∃ (as : List (Action 1 Nat)) (s : State 1 Nat) (evs : List (Event (Fin 1) (StackOp Nat) (StackRes Nat))),
      exec (init 1 Nat) as = some (s, evs) ∧ pushed evs = [5] ∧ destructorRuns s evs = [] :=
  ⟨[.push 0 5 1, .tick 0, .tick 0, .tick 0, .tick 0, .tick 0], _, _, rfl, by decide, by decide⟩

/-- The part of C23 that holds: in every execution, whenever no operation is in progress, the collector has
dropped no value that was not popped and none more often than it was popped.  Missing: that the caller's drop is
the only one, and that the values left in the stack are dropped. -/
theorem C23_collector_drops_popped_partial (as : List (Action n V)) {s : State n V}
    {evs : List (Event (Fin n) (StackOp V) (StackRes V))} (h : exec (init n V) as = some (s, evs))
    (hq : Quiescent s) : List.Subperm s.dropped (popped evs) := by
  have h1 := drops_exec sim_init h drops_init
  unfold Drops at h1
  have h2 : ∑ t, aft s.mem (s.th t) = 0 := Finset.sum_eq_zero fun t _ => by rw [hq t]; rfl
  rw [h2] at h1
  simp only [zero_add, add_zero] at h1
  rw [← Multiset.coe_le, h1]
  exact Multiset.le_add_right _ _

/-- C24.  No thread ever dereferences a reclaimed node and no node is reclaimed twice: the model records such an
access in `fault`. -/
theorem C24_no_use_after_free {s : State n V} (hr : Reachable s) : s.fault = false := by
  obtain ⟨as, evs, h⟩ := hr
  obtain ⟨σ, st, l, role, h1, _⟩ := sim_exec sim_init h
  exact h1.inv.noFault

/-- C24.  Every node a thread is about to dereference is allocated. -/
theorem C24_dereferenced_nodes_allocated {s : State n V} (hr : Reachable s) (t : Fin n) (a : Addr)
    (hu : (∃ h, s.th t = .pushStore a h) ∨ s.th t = .popNext a ∨ s.th t = .popRead a) :
    ∃ nd, s.mem a = some nd := by
  obtain ⟨as, evs, h⟩ := hr
  obtain ⟨σ, st, l, role, h1, _⟩ := sim_exec sim_init h
  rcases hu with ⟨hd, hu⟩ | hu | hu
  · exact owned_alloc h1.inv (t := t) (by rw [hu]; rfl)
  · exact prot_alloc h1.inv (h1.inv.prot t a (by rw [hu]; rfl))
  · exact prot_alloc h1.inv (h1.inv.prot t a (by rw [hu]; rfl))

/-- C24.  No ABA: between the load of the head `a` by `push` or `try_pop` and its compare-and-swap, the node `a`
cannot be reclaimed (so its address cannot be reused). -/
theorem C24_no_reclaim_while_held {s : State n V} (hr : Reachable s) (t : Fin n) (a : Addr)
    (hu : (∃ m, s.th t = .pushStore m (some a)) ∨ (∃ m, s.th t = .pushCas m (some a)) ∨ s.th t = .popNext a ∨
      (∃ nx, s.th t = .popCas a nx)) : step s (.reclaim a) = none := by
  obtain ⟨as, evs, h⟩ := hr
  obtain ⟨σ, st, l, role, h1, _⟩ := sim_exec sim_init h
  simp only [step]
  split
  · rfl
  · rename_i r hr
    refine absurd rfl (reclaim_unused h1.inv hr t a (Or.inr (Or.inr ?_)))
    rcases hu with ⟨m, hu⟩ | ⟨m, hu⟩ | hu | ⟨m, hu⟩ <;> rw [hu] <;> rfl

/-- C24.  When the compare-and-swap of a `try_pop` succeeds, the `next` it installs is the current `next` of the
node it removes. -/
theorem C24_cas_installs_current_next {s : State n V} (hr : Reachable s) (t : Fin n) (a : Addr)
    (nx : Option Addr) (hu : s.th t = .popCas a nx) : ∃ nd, s.mem a = some nd ∧ nd.next = nx := by
  obtain ⟨as, evs, h⟩ := hr
  obtain ⟨σ, st, l, role, h1, _⟩ := sim_exec sim_init h
  have h2 := h1.inv.nextRead t a nx hu
  cases hm : s.mem a with
  | none => rw [hm] at h2; cases h2
  | some nd => rw [hm] at h2; exact ⟨nd, rfl, by simpa using h2⟩

/-- Non-vacuity of C24: thread 1 holds node 1, which thread 0 pops and retires; it cannot be reclaimed until
thread 1 unpins, and can be then. -/
example :
    let as : List (Action 2 Nat) := [.push 0 5 1, .tick 0, .tick 0, .tick 0, .tick 0, .tick 0, .pop 1, .tick 1,
      .pop 0, .tick 0, .tick 0, .tick 0, .tick 0, .tick 0, .tick 0, .tick 0]
    (exec (init 2 Nat) as).map (fun q => ((step q.1 (.reclaim 1)).isSome, q.1.retired.length)) =
        some (false, 1) ∧
      (exec (init 2 Nat) (as ++ [.tick 1, .tick 1, .tick 1, .tick 1])).map
        (fun q => ((step q.1 (.reclaim 1)).isSome, q.2)) =
        some (true, [.call 0 (.push 5), .ret 0 .unit, .call 1 .pop, .call 0 .pop, .ret 0 (.popped (some 5)),
          .ret 1 (.popped none)]) := by decide

end Verif.Stack
