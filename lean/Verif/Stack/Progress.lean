import Verif.Stack.Props
import Mathlib.Algebra.Order.BigOperators.Group.Finset
import Mathlib.Tactic.Linarith
import Mathlib.Tactic.Ring
import Mathlib.Tactic.ByContra

/-! C55: lock-freedom of `sync::Stack`. -/

namespace Verif.Stack

open Verif.Spec

variable {n : Nat} {V : Type}

/-- The number of memory accesses (and returns) in a schedule. -/
def ticks (as : List (Action n V)) : Nat := as.countP fun a => match a with | .tick _ => true | _ => false

/-- The number of calls in a history. -/
def calls {T Op Res : Type} (evs : List (Event T Op Res)) : Nat :=
  evs.countP fun e => match e with | .call _ _ => true | _ => false

/-- The number of operations that return in a history. -/
def returns {T Op Res : Type} (evs : List (Event T Op Res)) : Nat :=
  evs.countP fun e => match e with | .ret _ _ => true | _ => false

/-- How many more accesses the thread makes if nobody changes the head. -/
def Local.cost (head : Option Addr) : Local V → Nat
  | .idle => 0
  | .pushLoad _ => 5
  | .pushStore _ h => if head = h then 4 else 7
  | .pushCas _ h => if head = h then 3 else 6
  | .pushAdd => 2
  | .pushRet => 1
  | .popLoad => 7
  | .popNext h => if head = some h then 6 else 9
  | .popCas h _ => if head = some h then 5 else 8
  | .popSub _ => 4
  | .popDefer _ => 3
  | .popRead _ => 2
  | .popRet _ => 1

/-- Has not changed the head yet. -/
def Local.before : Local V → Bool
  | .pushLoad _ | .pushStore _ _ | .pushCas _ _ | .popLoad | .popNext _ | .popCas _ _ => true
  | _ => false

/-- The weight of a thread: before it changes the head it carries what the others lose by that. -/
def Local.weight (n : Nat) (head : Option Addr) (L : Local V) : Nat :=
  L.cost head + if L.before then 3 * n else 0

/-- The sum of the weights. -/
def State.weight (s : State n V) : Nat := ∑ t, (s.th t).weight n s.head

/-- Is inside a call. -/
def State.busy (s : State n V) : Nat := ∑ t, if (s.th t).pinned then 1 else 0

theorem cost_le (head head' : Option Addr) (L : Local V) : L.cost head ≤ L.cost head' + 3 := by
  cases L <;> simp only [Local.cost] <;> (try split) <;> (try split) <;> omega

theorem weight_le (head head' : Option Addr) (L : Local V) : L.weight n head ≤ L.weight n head' + 3 := by
  have := cost_le head head' L
  unfold Local.weight
  omega

theorem weight_max (head : Option Addr) (L : Local V) : L.weight n head ≤ 9 + 3 * n := by
  unfold Local.weight
  cases L <;> simp only [Local.cost, Local.before] <;> (try split) <;> simp <;> omega

theorem sum_split (t : Fin n) (f : Fin n → Nat) : ∑ x, f x = f t + ∑ x ∈ Finset.univ.erase t, f x :=
  (Finset.add_sum_erase _ _ (Finset.mem_univ t)).symm

theorem sum_same {t : Fin n} {f g : Fin n → Nat} (h : ∀ x, x ≠ t → f x = g x) : ∑ x, f x + g t = ∑ x, g x + f t := by
  rw [sum_split t f, sum_split t g]
  have : ∑ x ∈ Finset.univ.erase t, f x = ∑ x ∈ Finset.univ.erase t, g x :=
    Finset.sum_congr rfl fun x hx => h x (Finset.ne_of_mem_erase hx)
  omega

theorem sum_more {t : Fin n} {f g : Fin n → Nat} (h : ∀ x, x ≠ t → f x ≤ g x + 3) :
    ∑ x, f x + g t + 3 ≤ ∑ x, g x + f t + 3 * n := by
  rw [sum_split t f, sum_split t g]
  have h1 : ∑ x ∈ Finset.univ.erase t, f x ≤ ∑ x ∈ Finset.univ.erase t, (g x + 3) :=
    Finset.sum_le_sum fun x hx => h x (Finset.ne_of_mem_erase hx)
  rw [Finset.sum_add_distrib, Finset.sum_const, Finset.card_erase_of_mem (Finset.mem_univ t), Finset.card_univ,
    Fintype.card_fin, smul_eq_mul] at h1
  have : 0 < n := Nat.lt_of_le_of_lt (Nat.zero_le _) t.isLt
  omega

/-- A step of one thread that leaves the head alone. -/
theorem weight_goto {s s' : State n V} {t : Fin n} (h1 : ∀ x, x ≠ t → s'.th x = s.th x) (h2 : s'.head = s.head) :
    s'.weight + (s.th t).weight n s.head = s.weight + (s'.th t).weight n s.head := by
  unfold State.weight
  rw [h2]
  exact sum_same (f := fun x => (s'.th x).weight n s.head) (g := fun x => (s.th x).weight n s.head)
    fun x hx => by rw [h1 x hx]

theorem weight_head {s s' : State n V} {t : Fin n} (h1 : ∀ x, x ≠ t → s'.th x = s.th x) :
    s'.weight + (s.th t).weight n s.head + 3 ≤ s.weight + (s'.th t).weight n s'.head + 3 * n := by
  unfold State.weight
  exact sum_more (f := fun x => (s'.th x).weight n s'.head) (g := fun x => (s.th x).weight n s.head)
    fun x hx => by rw [h1 x hx]; exact weight_le _ _ _

theorem goto_th_ne {s : State n V} {t x : Fin n} {L : Local V} (hx : x ≠ t) : (s.goto t L).th x = s.th x := if_neg hx

theorem goto_th_eq {s : State n V} {t : Fin n} {L : Local V} : (s.goto t L).th t = L := if_pos rfl

/-- Every access lowers the weight. -/
theorem tick_weight {s s' : State n V} {evs} (hr : Reachable s) {t : Fin n} (h : tick s t = some (s', evs)) :
    s'.weight + 1 ≤ s.weight := by
  unfold tick at h
  cases ht : s.th t with
  | idle => rw [ht] at h; cases h
  | pushLoad a =>
    rw [ht] at h
    injection h with h; injection h with h1 _
    subst h1
    have := weight_goto (s := s) (s' := s.goto t (.pushStore a s.head)) (t := t) (fun x hx => goto_th_ne hx) rfl
    rw [goto_th_eq, ht] at this
    simp [Local.weight, Local.cost, Local.before] at this
    omega
  | pushStore a x =>
    obtain ⟨nd, hnd⟩ := C24_dereferenced_nodes_allocated hr t a (Or.inl ⟨x, ht⟩)
    rw [ht] at h
    dsimp only at h
    rw [hnd] at h
    injection h with h; injection h with h1 _
    subst h1
    have := weight_goto (s := s) (s' := (s.write a (some ⟨nd.value, x⟩)).goto t (.pushCas a x)) (t := t)
      (fun x hx => goto_th_ne hx) rfl
    rw [goto_th_eq, ht] at this
    simp only [Local.weight, Local.cost, Local.before] at this
    split at this <;> omega
  | pushCas a x =>
    rw [ht] at h
    dsimp only at h
    split at h
    · rename_i hh
      injection h with h; injection h with h1 _
      subst h1
      have := weight_head (s := s) (s' := { s with head := some a }.goto t .pushAdd) (t := t)
        (fun x hx => goto_th_ne hx)
      rw [goto_th_eq, ht] at this
      simp [Local.weight, Local.cost, Local.before, hh] at this
      omega
    · rename_i hh
      injection h with h; injection h with h1 _
      subst h1
      have := weight_goto (s := s) (s' := s.goto t (.pushLoad a)) (t := t) (fun x hx => goto_th_ne hx) rfl
      rw [goto_th_eq, ht] at this
      simp [Local.weight, Local.cost, Local.before, hh] at this
      omega
  | pushAdd =>
    rw [ht] at h
    injection h with h; injection h with h1 _
    subst h1
    have := weight_goto (s := s) (s' := { s with len := s.len + 1 }.goto t .pushRet) (t := t)
      (fun x hx => goto_th_ne hx) rfl
    rw [goto_th_eq, ht] at this
    simp [Local.weight, Local.cost, Local.before] at this
    omega
  | pushRet =>
    rw [ht] at h
    injection h with h; injection h with h1 _
    subst h1
    have := weight_goto (s := s) (s' := s.unpin t) (t := t) (fun x hx => if_neg hx) rfl
    rw [show (s.unpin t).th t = .idle from if_pos rfl, ht] at this
    simp [Local.weight, Local.cost, Local.before] at this
    omega
  | popLoad =>
    rw [ht] at h
    dsimp only at h
    cases hh : s.head with
    | none =>
      rw [hh] at h
      injection h with h; injection h with h1 _
      subst h1
      have := weight_goto (s := s) (s' := s.goto t (.popRet none)) (t := t) (fun x hx => goto_th_ne hx) rfl
      rw [goto_th_eq, ht] at this
      simp [Local.weight, Local.cost, Local.before] at this
      omega
    | some a =>
      rw [hh] at h
      injection h with h; injection h with h1 _
      subst h1
      have := weight_goto (s := s) (s' := s.goto t (.popNext a)) (t := t) (fun x hx => goto_th_ne hx) rfl
      rw [goto_th_eq, ht] at this
      simp [Local.weight, Local.cost, Local.before, hh] at this
      omega
  | popNext a =>
    obtain ⟨nd, hnd⟩ := C24_dereferenced_nodes_allocated hr t a (Or.inr (Or.inl ht))
    rw [ht] at h
    dsimp only at h
    rw [hnd] at h
    injection h with h; injection h with h1 _
    subst h1
    have := weight_goto (s := s) (s' := s.goto t (.popCas a nd.next)) (t := t) (fun x hx => goto_th_ne hx) rfl
    rw [goto_th_eq, ht] at this
    simp only [Local.weight, Local.cost, Local.before] at this
    split at this <;> omega
  | popCas a x =>
    rw [ht] at h
    dsimp only at h
    split at h
    · rename_i hh
      injection h with h; injection h with h1 _
      subst h1
      have := weight_head (s := s) (s' := { s with head := x }.goto t (.popSub a)) (t := t)
        (fun x hx => goto_th_ne hx)
      rw [goto_th_eq, ht] at this
      simp [Local.weight, Local.cost, Local.before, hh] at this
      omega
    · rename_i hh
      injection h with h; injection h with h1 _
      subst h1
      have := weight_goto (s := s) (s' := s.goto t .popLoad) (t := t) (fun x hx => goto_th_ne hx) rfl
      rw [goto_th_eq, ht] at this
      simp [Local.weight, Local.cost, Local.before, hh] at this
      omega
  | popSub a =>
    rw [ht] at h
    injection h with h; injection h with h1 _
    subst h1
    have := weight_goto (s := s) (s' := { s with len := s.len - 1 }.goto t (.popDefer a)) (t := t)
      (fun x hx => goto_th_ne hx) rfl
    rw [goto_th_eq, ht] at this
    simp [Local.weight, Local.cost, Local.before] at this
    omega
  | popDefer a =>
    rw [ht] at h
    injection h with h; injection h with h1 _
    subst h1
    have := weight_goto (s := s)
      (s' := { s with retired := ⟨a, fun x => (s.th x).pinned⟩ :: s.retired }.goto t (.popRead a)) (t := t)
      (fun x hx => goto_th_ne hx) rfl
    rw [goto_th_eq, ht] at this
    simp [Local.weight, Local.cost, Local.before] at this
    omega
  | popRead a =>
    obtain ⟨nd, hnd⟩ := C24_dereferenced_nodes_allocated hr t a (Or.inr (Or.inr ht))
    rw [ht] at h
    dsimp only at h
    rw [hnd] at h
    injection h with h; injection h with h1 _
    subst h1
    have := weight_goto (s := s) (s' := s.goto t (.popRet (some nd.value))) (t := t) (fun x hx => goto_th_ne hx) rfl
    rw [goto_th_eq, ht] at this
    simp [Local.weight, Local.cost, Local.before] at this
    omega
  | popRet r =>
    rw [ht] at h
    injection h with h; injection h with h1 _
    subst h1
    have := weight_goto (s := s) (s' := s.unpin t) (t := t) (fun x hx => if_neg hx) rfl
    rw [show (s.unpin t).th t = .idle from if_pos rfl, ht] at this
    simp [Local.weight, Local.cost, Local.before] at this
    omega

theorem busy_goto {s s' : State n V} {t : Fin n} (h1 : ∀ x, x ≠ t → s'.th x = s.th x) :
    s'.busy + (if (s.th t).pinned then 1 else 0) = s.busy + if (s'.th t).pinned then 1 else 0 := by
  unfold State.busy
  exact sum_same (f := fun x => if (s'.th x).pinned then 1 else 0) (g := fun x => if (s.th x).pinned then 1 else 0)
    fun x hx => by rw [h1 x hx]

theorem busy_le (s : State n V) : s.busy ≤ n := by
  unfold State.busy
  refine Nat.le_trans (Finset.sum_le_sum (g := fun _ => 1) fun t _ => ?_) (by simp)
  split <;> omega

/-- What a tick does to the calls in progress. -/
theorem tick_busy {s s' : State n V} {evs} {t : Fin n} (h : tick s t = some (s', evs)) :
    s'.busy + returns evs = s.busy + calls evs := by
  have key : ∀ {s' : State n V}, (∀ x, x ≠ t → s'.th x = s.th x) → (s.th t).pinned = true → (s'.th t).pinned = true →
      s'.busy + 0 = s.busy + 0 := by
    intro s' h1 h2 h3
    have := busy_goto h1
    rw [if_pos h2, if_pos h3] at this
    omega
  have hret : (s.th t).pinned = true → (s.unpin t).busy + 1 = s.busy + 0 := by
    intro h2
    have := busy_goto (s := s) (s' := s.unpin t) (t := t) (fun x hx => if_neg hx)
    rw [if_pos h2, show (s.unpin t).th t = .idle from if_pos rfl] at this
    simp [Local.pinned] at this
    omega
  unfold tick at h
  cases ht : s.th t <;> rw [ht] at h key hret <;> dsimp only at h <;> (try cases h) <;> (try split at h) <;>
    (try (injection h with h; injection h with h1 h2; subst h1; subst h2)) <;>
    first
      | exact key (fun x hx => goto_th_ne hx) rfl (by rw [goto_th_eq]; rfl)
      | exact hret rfl
      | exact key (fun _ _ => rfl) rfl (by show (s.th t).pinned = true; rw [ht]; rfl)

theorem step_progress {s s' : State n V} {evs} (hr : Reachable s) {a : Action n V} (h : step s a = some (s', evs)) :
    s'.weight + ticks [a] ≤ s.weight + calls evs * (3 * n + 7) ∧ s'.busy + returns evs = s.busy + calls evs := by
  cases a with
  | push t v a =>
    dsimp only [step] at h
    cases ht : s.th t <;> rw [ht] at h <;> try cases h
    cases ha : s.mem a with
    | some c => rw [ha] at h; cases h
    | none =>
      rw [ha] at h
      injection h with h; injection h with h1 h2
      subst h1; subst h2
      have hn : ∀ x, x ≠ t → ((s.write a (some ⟨v, none⟩)).goto t (.pushLoad a)).th x = s.th x :=
        fun x hx => goto_th_ne hx
      have h1 := weight_goto hn rfl
      have h2 := busy_goto hn
      rw [goto_th_eq, ht] at h1 h2
      simp [Local.weight, Local.cost, Local.before, Local.pinned] at h1 h2
      simp [ticks, calls, returns]
      omega
  | pop t =>
    dsimp only [step] at h
    cases ht : s.th t <;> rw [ht] at h <;> try cases h
    have hn : ∀ x, x ≠ t → (s.goto t .popLoad).th x = s.th x := fun x hx => goto_th_ne hx
    have h1 := weight_goto hn rfl
    have h2 := busy_goto hn
    rw [goto_th_eq, ht] at h1 h2
    simp [Local.weight, Local.cost, Local.before, Local.pinned] at h1 h2
    simp [ticks, calls, returns]
    omega
  | tick t =>
    have h1 := tick_weight hr h
    refine ⟨?_, tick_busy h⟩
    have : ticks [Action.tick (V := V) t] = 1 := rfl
    rw [this]
    omega
  | reclaim a =>
    dsimp only [step] at h
    split at h
    · cases h
    · injection h with h; injection h with h1 h2
      subst h1; subst h2
      have h1 : (s.free a).th = s.th := by unfold State.free; split <;> rfl
      have h2 : (s.free a).head = s.head := by unfold State.free; split <;> rfl
      simp only [State.weight, State.busy, h1, h2]
      simp [ticks, calls, returns]

theorem exec_snoc_reachable {s s' : State n V} {evs} (hr : Reachable s) {a : Action n V}
    (h : step s a = some (s', evs)) : Reachable s' := by
  obtain ⟨as, evs0, h0⟩ := hr
  refine ⟨as ++ [a], evs0 ++ evs, ?_⟩
  have key : ∀ (as : List (Action n V)) (s0 : State n V) evs0, exec s0 as = some (s, evs0) →
      exec s0 (as ++ [a]) = some (s', evs0 ++ evs) := by
    intro as
    induction as with
    | nil =>
      intro s0 evs0 h0
      injection h0 with h0; injection h0 with h1 h2
      subst h1; subst h2
      simp [exec, h]
    | cons b as ih =>
      intro s0 evs0 h0
      unfold exec at h0
      rw [List.cons_append]
      unfold exec
      cases hb : step s0 b with
      | none => rw [hb] at h0; cases h0
      | some q =>
        obtain ⟨s1, e1⟩ := q
        rw [hb] at h0
        dsimp only at h0 ⊢
        cases hx : exec s1 as with
        | none => rw [hx] at h0; cases h0
        | some q =>
          obtain ⟨s2, e2⟩ := q
          rw [hx] at h0
          injection h0 with h0; injection h0 with h1 h2
          subst h1; subst h2
          rw [ih _ _ hx]
          simp
  exact key as _ _ h0

theorem exec_progress (as : List (Action n V)) : ∀ {s s' : State n V} {evs}, Reachable s → exec s as = some (s', evs) →
    s'.weight + ticks as ≤ s.weight + calls evs * (3 * n + 7) ∧ s'.busy + returns evs = s.busy + calls evs := by
  induction as with
  | nil =>
    intro s s' evs _ h
    injection h with h; injection h with h1 h2
    subst h1; subst h2
    simp [ticks, calls, returns]
  | cons a as ih =>
    intro s s' evs hr h
    unfold exec at h
    cases hst : step s a with
    | none => rw [hst] at h; cases h
    | some q =>
      obtain ⟨s1, e1⟩ := q
      rw [hst] at h
      dsimp only at h
      cases hex : exec s1 as with
      | none => rw [hex] at h; cases h
      | some q =>
        obtain ⟨s2, e2⟩ := q
        rw [hex] at h
        injection h with h; injection h with h1 h2
        subst h1; subst h2
        obtain ⟨h3, h4⟩ := step_progress hr hst
        obtain ⟨h5, h6⟩ := ih (exec_snoc_reachable hr hst) hex
        have h7 : ticks (a :: as) = ticks [a] + ticks as := by
          rw [← List.singleton_append, ticks, List.countP_append]; rfl
        have h8 : calls (e1 ++ e2) = calls e1 + calls e2 := List.countP_append
        have h9 : returns (e1 ++ e2) = returns e1 + returns e2 := List.countP_append
        rw [h7, h8, h9]
        constructor
        · rw [Nat.add_mul]; omega
        · omega

/-- C55.  Lock-freedom: from any reachable state, in any schedule, the threads can make only a bounded number of
accesses for each operation that returns.  No fairness is assumed: threads may be delayed for ever inside a call. -/
theorem C55_lock_free {s s' : State n V} (hr : Reachable s) (as : List (Action n V))
    {evs : List (Event (Fin n) (StackOp V) (StackRes V))} (h : exec s as = some (s', evs)) :
    ticks as ≤ (3 * n + 7) * returns evs + n * (6 * n + 16) := by
  obtain ⟨h1, h2⟩ := exec_progress as hr h
  have h3 : s.weight ≤ n * (9 + 3 * n) := by
    unfold State.weight
    refine Nat.le_trans (Finset.sum_le_sum (g := fun _ => 9 + 3 * n) fun t _ => weight_max _ _) ?_
    simp
  have h4 := busy_le s'
  have h5 : calls evs ≤ returns evs + n := by omega
  have h6 : calls evs * (3 * n + 7) ≤ (returns evs + n) * (3 * n + 7) := Nat.mul_le_mul_right _ h5
  nlinarith

/-- C55.  So among any `n (6 n + 16) + 1` accesses at least one operation returns. -/
theorem C55_some_operation_returns {s s' : State n V} (hr : Reachable s) (as : List (Action n V))
    {evs : List (Event (Fin n) (StackOp V) (StackRes V))} (h : exec s as = some (s', evs))
    (hm : n * (6 * n + 16) < ticks as) : ∃ t r, Event.ret t r ∈ evs := by
  have h1 := C55_lock_free hr as h
  have h2 : 0 < returns evs := by
    by_contra h0
    have : returns evs = 0 := by omega
    rw [this] at h1
    omega
  unfold returns at h2
  obtain ⟨e, he, hp⟩ := List.countP_pos_iff.1 h2
  cases e with
  | call t op => cases hp
  | ret t r => exact ⟨t, r, he⟩

theorem tick_cost {s : State n V} (hr : Reachable s) {t : Fin n} (ht : s.th t ≠ .idle) :
    ∃ s' evs, tick s t = some (s', evs) ∧ (s'.th t).cost s'.head + 1 ≤ (s.th t).cost s.head := by
  unfold tick
  cases hL : s.th t with
  | idle => exact absurd hL ht
  | pushLoad a => exact ⟨_, _, rfl, by rw [goto_th_eq]; simp [Local.cost, State.goto]⟩
  | pushStore a x =>
    obtain ⟨nd, hnd⟩ := C24_dereferenced_nodes_allocated hr t a (Or.inl ⟨x, hL⟩)
    dsimp only
    rw [hnd]
    refine ⟨_, _, rfl, ?_⟩
    rw [goto_th_eq]
    by_cases hh : s.head = x <;> simp [Local.cost, State.goto, State.write, hh]
  | pushCas a x =>
    dsimp only
    split
    · rename_i hh
      exact ⟨_, _, rfl, by rw [goto_th_eq]; simp [Local.cost, hh]⟩
    · rename_i hh
      exact ⟨_, _, rfl, by rw [goto_th_eq]; simp [Local.cost, hh]⟩
  | pushAdd => exact ⟨_, _, rfl, by rw [goto_th_eq]; simp [Local.cost]⟩
  | pushRet => exact ⟨_, _, rfl, by rw [show (s.unpin t).th t = .idle from if_pos rfl]; simp [Local.cost]⟩
  | popLoad =>
    dsimp only
    cases hh : s.head with
    | none => exact ⟨_, _, rfl, by rw [goto_th_eq]; simp [Local.cost]⟩
    | some a => exact ⟨_, _, rfl, by rw [goto_th_eq]; simp [Local.cost, hh, State.goto]⟩
  | popNext a =>
    obtain ⟨nd, hnd⟩ := C24_dereferenced_nodes_allocated hr t a (Or.inr (Or.inl hL))
    dsimp only
    rw [hnd]
    refine ⟨_, _, rfl, ?_⟩
    rw [goto_th_eq]
    by_cases hh : s.head = some a <;> simp [Local.cost, State.goto, hh]
  | popCas a x =>
    dsimp only
    split
    · rename_i hh
      exact ⟨_, _, rfl, by rw [goto_th_eq]; simp [Local.cost, hh]⟩
    · rename_i hh
      exact ⟨_, _, rfl, by rw [goto_th_eq]; simp [Local.cost, hh]⟩
  | popSub a => exact ⟨_, _, rfl, by rw [goto_th_eq]; simp [Local.cost]⟩
  | popDefer a => exact ⟨_, _, rfl, by rw [goto_th_eq]; simp [Local.cost]⟩
  | popRead a =>
    obtain ⟨nd, hnd⟩ := C24_dereferenced_nodes_allocated hr t a (Or.inr (Or.inr hL))
    dsimp only
    rw [hnd]
    exact ⟨_, _, rfl, by rw [goto_th_eq]; simp [Local.cost]⟩
  | popRet r => exact ⟨_, _, rfl, by rw [show (s.unpin t).th t = .idle from if_pos rfl]; simp [Local.cost]⟩

theorem solo : ∀ (c : Nat) {s : State n V} (_ : Reachable s) (t : Fin n), (s.th t).cost s.head ≤ c →
    ∃ k s' evs, k ≤ c ∧ exec s (List.replicate k (.tick t)) = some (s', evs) ∧ s'.th t = .idle := by
  intro c
  induction c with
  | zero =>
    intro s hr t hc
    refine ⟨0, s, [], Nat.le_refl _, rfl, ?_⟩
    by_contra ht
    obtain ⟨s', evs, _, h⟩ := tick_cost hr ht
    omega
  | succ c ih =>
    intro s hr t hc
    by_cases ht : s.th t = .idle
    · exact ⟨0, s, [], Nat.zero_le _, rfl, ht⟩
    · obtain ⟨s1, e1, h1, h2⟩ := tick_cost hr ht
      obtain ⟨k, s', evs, h3, h4, h5⟩ := ih (exec_snoc_reachable hr (a := .tick t) h1) t (by omega)
      refine ⟨k + 1, s', e1 ++ evs, by omega, ?_, h5⟩
      rw [List.replicate_succ]
      unfold exec
      rw [show step s (.tick t) = some (s1, e1) from h1]
      dsimp only
      rw [h4]

/-- C55.  A thread that runs without interference returns from its call after at most 9 accesses, whatever the other
threads were doing when they stopped. -/
theorem C55_solo {s : State n V} (hr : Reachable s) (t : Fin n) :
    ∃ k s' evs, k ≤ 9 ∧ exec s (List.replicate k (.tick t)) = some (s', evs) ∧ s'.th t = .idle := by
  refine solo 9 hr t ?_
  cases s.th t <;> simp only [Local.cost] <;> (try split) <;> omega

/-- Non-vacuity of C55: two threads that get in each other's way.  Both load the empty head; thread 1 wins, thread 0
has to try again.  Ten accesses, one return; thread 0 needs five more. -/
example :
    (exec (init 2 Nat) [.push 0 5 1, .push 1 6 2, .tick 0, .tick 1, .tick 0, .tick 1, .tick 1, .tick 0, .tick 1, .tick 1,
      .tick 0, .tick 0]).map (fun q => (ticks (n := 2) (V := Nat) [.push 0 5 1, .push 1 6 2, .tick 0, .tick 1, .tick 0,
        .tick 1, .tick 1, .tick 0, .tick 1, .tick 1, .tick 0, .tick 0], returns q.2, calls q.2)) =
      some (10, 1, 2) := by decide

end Verif.Stack
