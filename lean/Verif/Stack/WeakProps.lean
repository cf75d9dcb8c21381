import Verif.Stack.WeakStep

/-! C50: `sync::Stack` on weak memory.  The specification is in `Verif.Spec.HappensBefore`. -/

namespace Verif.Stack.Weak

open Verif.Spec

variable {n : Nat} {V : Type}

/-! ### The order that explains the history -/

/-- The operations that belong to writes `0 … k`. -/
def order (ops : List (Rec V)) (k : Nat) : List (OpRes (StackOp V) (StackRes V)) :=
  (List.range (k + 1)).flatMap (block ops)

theorem mem_block {ops : List (Rec V)} {i : Nat} {x : OpRes (StackOp V) (StackRes V)} :
    x ∈ block ops i ↔ ∃ y ∈ ops, y.idx = i ∧ y.toOpRes = x := by
  unfold block
  simp [List.mem_map, List.mem_filter, and_assoc]

theorem mem_order {ops : List (Rec V)} {k : Nat} {x : OpRes (StackOp V) (StackRes V)} (hx : x ∈ order ops k) :
    ∃ y ∈ ops, y.toOpRes = x := by
  obtain ⟨i, _, h⟩ := List.mem_flatMap.1 hx
  obtain ⟨y, h1, _, h2⟩ := mem_block.1 h
  exact ⟨y, h1, h2⟩

theorem Lin.executes {s : State n V} {k σ H ops adds cur} (h : Lin s k σ H ops adds cur) :
    ∀ i, i ≤ k → Executes (lifo V) [] (order ops i) (vals (σ i)) := by
  intro i
  induction i with
  | zero =>
    intro hi
    have := h.stk 0 hi
    unfold order
    simpa [prev] using this
  | succ i ih =>
    intro hi
    have h1 := ih (by omega)
    have h2 := h.stk (i + 1) hi
    unfold order at h1 ⊢
    rw [List.range_succ, List.flatMap_append]
    refine Executes.append h1 ?_
    rw [List.flatMap_singleton]
    exact h2

theorem Lin.pairwise {s : State n V} {k σ H ops adds cur} (h : Lin s k σ H ops adds cur) :
    (order ops k).Pairwise fun x y => x.pos ≠ y.pos ∧ ∀ r res, Returns H y.pos r res → ¬ HB H r x.pos := by
  unfold order
  rw [List.pairwise_flatMap]
  constructor
  · intro i _
    unfold block
    rw [List.pairwise_map]
    refine List.Pairwise.filter _ ?_
    have hn : ops.Pairwise fun x y => x.pos ≠ y.pos := by
      have := h.nodup
      rw [List.Nodup, List.pairwise_map] at this
      exact this
    refine (List.Pairwise.and_mem.1 (hn.and h.effs)).imp ?_
    · rintro x y ⟨hx, hy, h1, h2⟩
      refine ⟨h1, ?_⟩
      intro r res hr hb
      have := hb.lt
      have := (h.poseff x hx).1
      have := h.retEff y hy r res hr
      omega
  · refine List.pairwise_lt_range.imp ?_
    intro i j hij x hx y hy
    obtain ⟨x', hx', hxi, rfl⟩ := mem_block.1 hx
    obtain ⟨y', hy', hyi, rfl⟩ := mem_block.1 hy
    refine ⟨?_, ?_⟩
    · intro hp
      have : x' = y' := List.inj_on_of_nodup_map h.nodup hx' hy' hp
      subst this
      omega
    · intro r res hr hb
      have := h.ord y' hy' x' hx' r res hr hb
      omega

theorem Lin.explains {s : State n V} {k σ H ops adds cur} (h : Lin s k σ H ops adds cur) :
    Explains (lifo V) H (order ops k) (vals (σ k)) := by
  refine ⟨?_, ?_, ?_, h.executes k (Nat.le_refl k), h.pairwise.imp fun h => h.2⟩
  · intro x hx
    obtain ⟨y, hy, rfl⟩ := mem_order hx
    exact h.called y hy
  · rw [List.Nodup, List.pairwise_map]
    exact h.pairwise.imp fun h => h.1
  · intro r t res hr
    obtain ⟨x, hx, h1, h2⟩ := h.returned r t res hr
    refine ⟨x.toOpRes, ?_, h1, h2⟩
    refine List.mem_flatMap.2 ⟨x.idx, ?_, mem_block.2 ⟨x, hx, rfl, rfl⟩⟩
    have := h.idxk x hx
    rw [List.mem_range]
    omega

theorem good_of_exec {o : Orders} (hrel : o.pushCas = .release) (hacq : o.popLoad = .acquire) {as : List (Action n V)}
    {s : State n V} {H : Hist n V} (h : exec o (init n V) as = some (s, H)) : Good s H := by
  have := good_exec hrel hacq as good_init h
  rwa [List.nil_append] at this

/-! ### C50 -/

/-- C50.  On weak memory, with the orderings in the code, no thread ever uses a node that has been freed or whose
creation does not happen before the use, and no node is freed twice. -/
theorem C50_no_fault {s : State n V} (hr : Reachable code s) : s.fault = false := by
  obtain ⟨as, evs, h⟩ := hr
  obtain ⟨k, σ, role, ops, adds, cur, hs⟩ := good_of_exec rfl rfl h
  exact hs.inv.noFault

/-- C50.  On weak memory, every history has an order of its operations that explains all results as those of a LIFO
stack and never contradicts the happens-before order of the client. -/
theorem C50_hb_linearizable (as : List (Action n V)) (s : State n V) (H : Hist n V)
    (h : exec code (init n V) as = some (s, H)) : HBLinearizable (lifo V) H := by
  obtain ⟨k, σ, role, ops, adds, cur, hs⟩ := good_of_exec rfl rfl h
  exact ⟨_, _, hs.lin.explains⟩

/-- C50.  Both need only that the compare-and-swap of `push` releases and the load of `try_pop` acquires. -/
theorem C50_orderings_suffice (o : Orders) (hrel : o.pushCas = .release) (hacq : o.popLoad = .acquire)
    (as : List (Action n V)) (s : State n V) (H : Hist n V) (h : exec o (init n V) as = some (s, H)) :
    s.fault = false ∧ HBLinearizable (lifo V) H := by
  obtain ⟨k, σ, role, ops, adds, cur, hs⟩ := good_of_exec hrel hacq h
  exact ⟨hs.inv.noFault, _, _, hs.lin.explains⟩

/-- C50.  Publication: when `try_pop` of thread `t` is about to return the value `v`, that value comes from a call of
`push(v)` in the history, by a thread `u`, and everything the client did in `u` up to that call (`k` is the number of
the call among the events of `u`) happens before what `t` does next: its clock for `u` is at least `k`. -/
theorem C50_publication (as : List (Action n V)) (s : State n V) (H : Hist n V)
    (h : exec code (init n V) as = some (s, H)) (t u : Fin n) (v : V) (k : Nat)
    (ht : s.th t = .popRet (some (v, u, k))) :
    k ≤ (s.view t).clock u ∧
    ∃ p : Nat, H[p]? = some (.call u (.push v)) ∧ (H.take (p + 1)).countP (fun e => decide (e.thread = u)) = k := by
  obtain ⟨_, σ, role, ops, adds, cur, hs⟩ := good_of_exec rfl rfl h
  obtain ⟨h1, h2⟩ := hs.src.ret t v u k ht
  exact ⟨h2, h1⟩

/-- C50.  The clocks count the events of the history: each thread's own is exact, and no thread is ahead of
another. -/
theorem C50_clocks (as : List (Action n V)) (s : State n V) (H : Hist n V)
    (h : exec code (init n V) as = some (s, H)) (t u : Fin n) :
    (s.view t).clock t = H.countP (fun e => decide (e.thread = t)) ∧
    (s.view t).clock u ≤ H.countP (fun e => decide (e.thread = u)) := by
  obtain ⟨_, σ, role, ops, adds, cur, hs⟩ := good_of_exec rfl rfl h
  exact ⟨Nat.le_antisymm ((hs.src.views t).1 t) (hs.src.own t), (hs.src.views t).1 u⟩

/-- C50.  `len`: when no call is in progress and all returns happen before what thread `t` does, `len` in `t` returns
the number of elements (as a `usize`) of the stack that explains the history, whichever write the load sees, and it
can see one. -/
theorem C50_len (as : List (Action n V)) (s : State n V) (H : Hist n V) (h : exec code (init n V) as = some (s, H))
    (hidle : ∀ t, s.th t = .idle) (t : Fin n)
    (hk : ∀ (r : Nat) u res, H[r]? = some (.ret u res) →
      ∃ (q : Nat) (f : HEvent (Fin n) (StackOp V) (StackRes V)), H[q]? = some f ∧ f.thread = t ∧ (r = q ∨ HB H r q)) :
    ∃ L σ, Explains (lifo V) H L σ ∧ (∀ i r, s.lenCall t i = some r → r = σ.length % 2 ^ 64) ∧
      ∃ i, (s.lenCall t i).isSome = true := by
  obtain ⟨k, σ, role, ops, adds, cur, hs⟩ := good_of_exec rfl rfl h
  refine ⟨_, _, hs.lin.explains, ?_, ?_⟩
  · have hv : adds.length ≤ (s.view t).len := by
      cases hj : adds.length with
      | zero => exact Nat.zero_le _
      | succ j =>
        obtain ⟨p, hp⟩ : ∃ p, adds[j]? = some p := ⟨adds[j], List.getElem?_eq_getElem (by omega)⟩
        obtain ⟨x, hx, hxp⟩ := hs.lin.addOps p (List.mem_of_getElem? hp)
        rcases hs.lin.fin x hx with ⟨r, res, hr⟩ | ⟨u, hu, _⟩
        · rw [hxp] at hr
          have hkr : Known H t r := by
            obtain ⟨_, u, op, _, h3, _⟩ := hr
            exact hk r u res h3
          exact (hs.lin.knownT t p r res hr hkr).2 j hp
        · exact absurd (hidle u) hu
    intro i r hr
    unfold State.lenCall at hr
    cases hm : s.len[i]? with
    | none => rw [hm] at hr; cases hr
    | some m =>
      rw [hm] at hr
      dsimp only at hr
      split at hr
      · rename_i hi
        injection hr with hr
        have hlt := getElem?_lt hm
        have hll := hs.lin.lenLen
        have hil : i = s.len.length - 1 := by omega
        have hlast : s.len.getLast? = some m := by
          rw [List.getLast?_eq_getElem?, ← hil]; exact hm
        have hc := hs.lin.count m hlast
        have hz : ∑ t, (s.th t).debt = 0 := Finset.sum_eq_zero fun u _ => by rw [hidle u]; rfl
        rw [hz, Int.add_zero] at hc
        rw [hc] at hr
        rw [← hr, vals, List.length_map]
        omega
      · cases hr
  · have hlt := (hs.src.views t).2
    refine ⟨s.len.length - 1, ?_⟩
    unfold State.lenCall
    rw [List.getElem?_eq_getElem (by omega)]
    dsimp only
    rw [if_pos (by omega)]
    rfl

/-! ### Concrete runs -/

/-- Thread 0 pushes 7 and 8. -/
def twoPushes : List (Action 2 Nat) :=
  [.push 0 7 10 (fun _ => true), .tick 0 0, .tick 0 0, .tick 0 0, .tick 0 0, .tick 0 0,
   .push 0 8 11 (fun _ => true), .tick 0 1, .tick 0 0, .tick 0 1, .tick 0 0, .tick 0 0]

/-- Non-vacuity of C50: thread 1 reads an old write, pops nothing; is told about the pushes by thread 0, pops 8, and
can be shown no other write of `len` than the last; the node is reclaimed. -/
example : (exec code (init 2 Nat) (twoPushes ++ [.pop 1 (fun _ => false), .tick 1 0, .tick 1 0, .send 0, .recv 1 0,
      .pop 1 (fun _ => false), .tick 1 2, .tick 1 0, .tick 1 2, .tick 1 0, .tick 1 0, .tick 1 0, .tick 1 0,
      .reclaim 11])).map (fun q => (q.2, q.1.lenCall 1 3, q.1.lenCall 1 2, q.1.fault)) =
    some ([.call 0 (.push 7), .ret 0 .unit, .call 0 (.push 8), .ret 0 .unit, .call 1 .pop, .ret 1 (.popped none),
      .send 0, .recv 1 0, .call 1 .pop, .ret 1 (.popped (some 8))], some 1, none, false) := by decide +kernel

/-- Non-vacuity of `C50_publication`: after the pop, thread 1 knows the first three events of thread 0, without any
message. -/
example : (exec code (init 2 Nat) (twoPushes ++ [.pop 1 (fun _ => false), .tick 1 2, .tick 1 0, .tick 1 2, .tick 1 0,
      .tick 1 0, .tick 1 0])).map (fun q => ((match q.1.th 1 with | .popRet r => r | _ => none), (q.1.view 1).clock 0)) =
    some (some (8, 0, 3), 3) := by decide +kernel

theorem not_linearizable : ¬ Linearizable (lifo Nat)
    [.call (0 : Fin 2) (.push 7), .ret 0 .unit, .call 1 .pop, .ret 1 (.popped none)] := by
  have two : ∀ t : Fin 2, t = 0 ∨ t = 1 := by decide
  rintro ⟨σ, st, h⟩
  cases h with
  | effect t op h1 _ => cases h1
  | call _ _ _ h =>
  cases h with
  | ret _ _ h1 _ => cases h1
  | effect t op h1 h =>
  rcases two t with rfl | rfl <;> simp at h1
  subst h1
  cases h with
  | effect t op h1 _ => rcases two t with rfl | rfl <;> simp at h1
  | ret _ _ _ h =>
  cases h with
  | effect t op h1 _ => rcases two t with rfl | rfl <;> simp at h1
  | call _ _ _ h =>
  cases h with
  | ret _ _ h1 _ => cases h1
  | effect t op h1 h =>
  rcases two t with rfl | rfl <;> simp at h1
  subst h1
  cases h with
  | effect t op h1 _ => rcases two t with rfl | rfl <;> simp at h1
  | ret _ _ h1 _ => simp [lifo] at h1

/-- C50.  The stack is not linearizable in real time on weak memory: without synchronisation by the client, a
`try_pop` called after a `push` has returned may still find nothing. -/
theorem C50_realtime_violated :
    (∃ as s, exec code (init 2 Nat) as =
      some (s, [.call 0 (.push 7), .ret 0 .unit, .call 1 .pop, .ret 1 (.popped none)])) ∧
    ¬ Linearizable (lifo Nat)
      [.call (0 : Fin 2) (.push 7), .ret 0 .unit, .call 1 .pop, .ret 1 (.popped none)] := by
  refine ⟨?_, not_linearizable⟩
  have h : (exec code (init 2 Nat) [.push 0 7 10 (fun _ => true), .tick 0 0, .tick 0 0, .tick 0 0, .tick 0 0, .tick 0 0,
      .pop 1 (fun _ => false), .tick 1 0, .tick 1 0]).map (·.2) =
      some [.call 0 (.push 7), .ret 0 .unit, .call 1 .pop, .ret 1 (.popped none)] := by decide +kernel
  cases he : exec code (init 2 Nat) [.push 0 7 10 (fun _ => true), .tick 0 0, .tick 0 0, .tick 0 0, .tick 0 0, .tick 0 0,
      .pop 1 (fun _ => false), .tick 1 0, .tick 1 0] with
  | none => rw [he] at h; cases h
  | some q =>
    rw [he] at h
    injection h with h
    exact ⟨_, q.1, by rw [he, ← h]⟩

/-- C50.  Without the acquire of `try_pop` a thread may use a node whose creation it has not seen. -/
theorem C50_acquire_needed :
    ∃ as : List (Action 2 Nat), (exec { code with popLoad := .relaxed } (init 2 Nat) as).map (·.1.fault) = some true :=
  ⟨twoPushes ++ [.pop 1 (fun _ => false), .tick 1 2, .tick 1 0], by decide +kernel⟩

/-- C50.  Without the release of `push` likewise. -/
theorem C50_release_needed :
    ∃ as : List (Action 2 Nat), (exec { code with pushCas := .relaxed } (init 2 Nat) as).map (·.1.fault) = some true :=
  ⟨twoPushes ++ [.pop 1 (fun _ => false), .tick 1 2, .tick 1 0], by decide +kernel⟩

end Verif.Stack.Weak
