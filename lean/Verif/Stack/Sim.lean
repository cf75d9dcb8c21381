import Verif.Stack.Lemmas
import Mathlib.Algebra.BigOperators.Group.Finset.Basic
import Mathlib.Algebra.BigOperators.Fin
import Mathlib.Algebra.Order.Group.Multiset
import Mathlib.Algebra.Order.Group.Int
import Mathlib.Tactic.Abel

namespace Verif.Stack

open Verif.Spec

variable {n : Nat} {V : Type}

/-- The value at an address. -/
def valAt (mem : Addr → Option (Node V)) (a : Addr) : Option V := (mem a).map Node.value

/-- The status the atomic stack gives a thread. -/
def Stat (mem : Addr → Option (Node V)) : Local V → Status (StackOp V) (StackRes V) → Prop
  | .idle, st => st = .idle
  | .pushLoad a, st => ∃ v, valAt mem a = some v ∧ st = .called (.push v)
  | .pushStore a _, st => ∃ v, valAt mem a = some v ∧ st = .called (.push v)
  | .pushCas a _, st => ∃ v, valAt mem a = some v ∧ st = .called (.push v)
  | .pushAdd, st => st = .done .unit
  | .pushRet, st => st = .done .unit
  | .popLoad, st => st = .called .pop
  | .popNext _, st => st = .called .pop
  | .popCas _ _, st => st = .called .pop
  | .popSub h, st => ∃ v, valAt mem h = some v ∧ st = .done (.popped (some v))
  | .popDefer h, st => ∃ v, valAt mem h = some v ∧ st = .done (.popped (some v))
  | .popRead h, st => ∃ v, valAt mem h = some v ∧ st = .done (.popped (some v))
  | .popRet r, st => st = .done (.popped r)

/-- The nodes a thread refers to. -/
def Local.uses (L : Local V) (a : Addr) : Prop := L.owned = some a ∨ L.limbo = some a ∨ L.held = some a

theorem Stat.mono {mem mem' : Addr → Option (Node V)} {L : Local V} {st} (h : Stat mem L st)
    (hm : ∀ x v, L.uses x → valAt mem x = some v → valAt mem' x = some v) : Stat mem' L st := by
  cases L <;> first
    | exact h
    | (obtain ⟨v, h1, h2⟩ := h
       exact ⟨v, hm _ v (by simp [Local.uses, Local.owned, Local.limbo, Local.held]) h1, h2⟩)

/-- The counter lags behind by this much because of a thread. -/
def Local.debt : Local V → Int
  | .pushAdd => 1
  | .popSub _ => -1
  | _ => 0

theorem sum_goto {M : Type} [AddCommMonoid M] (f : Fin n → Local V → M) (g : Fin n → Local V) (t : Fin n)
    (L : Local V) :
    (∑ x, f x (if x = t then L else g x)) + f t (g t) = (∑ x, f x (g x)) + f t L := by
  rw [← Finset.add_sum_erase Finset.univ _ (Finset.mem_univ t),
    ← Finset.add_sum_erase Finset.univ (fun x => f x (g x)) (Finset.mem_univ t)]
  have : ∑ x ∈ Finset.univ.erase t, f x (if x = t then L else g x) = ∑ x ∈ Finset.univ.erase t, f x (g x) := by
    refine Finset.sum_congr rfl fun x hx => ?_
    rw [if_neg (Finset.ne_of_mem_erase hx)]
  rw [this]
  simp only [if_true]
  abel

/-- The simulation relation. -/
structure Sim (s : State n V) (σ : List V) (st : Fin n → Status (StackOp V) (StackRes V)) (l : List Addr)
    (role : Addr → Role n) : Prop where
  inv : Inv s l role
  vals : l.map (valAt s.mem) = σ.map some
  stat : ∀ t, Stat s.mem (s.th t) (st t)
  count : s.len + ∑ t, (s.th t).debt = l.length

theorem sim_init : Sim (init n V) [] (fun _ => .idle) [] (fun _ => .free) := by
  refine ⟨inv_init, rfl, fun t => rfl, ?_⟩
  simp [init, Local.debt]

theorem stat_goto {mem : Addr → Option (Node V)} {th : Fin n → Local V}
    {st : Fin n → Status (StackOp V) (StackRes V)} (h : ∀ t, Stat mem (th t) (st t)) (t : Fin n) (L : Local V)
    (s : Status (StackOp V) (StackRes V)) (hs : Stat mem L s) :
    ∀ x, Stat mem (if x = t then L else th x) (if x = t then s else st x) := by
  intro x
  split
  · exact hs
  · exact h x

theorem stat_goto' {mem : Addr → Option (Node V)} {th : Fin n → Local V}
    {st : Fin n → Status (StackOp V) (StackRes V)} (h : ∀ t, Stat mem (th t) (st t)) (t : Fin n) (L : Local V)
    (hs : Stat mem L (st t)) : ∀ x, Stat mem (if x = t then L else th x) (st x) := by
  intro x
  split
  · rename_i hx; subst hx; exact hs
  · exact h x

theorem count_goto {s : State n V} {k : Int} {m : Nat} (t : Fin n) (L : Local V)
    (hk : k + L.debt = s.len + (s.th t).debt) (h : s.len + ∑ t, (s.th t).debt = m) :
    k + ∑ x, (if x = t then L else s.th x).debt = m := by
  have := sum_goto (fun _ => Local.debt) s.th t L
  omega

theorem linked_prot {s : State n V} {l role} (h : Inv s l role) {hd : Addr} (hh : s.head = some hd) (t : Fin n) :
    Prot s.retired role t hd := by
  have hc := h.chain
  rw [hh] at hc
  obtain ⟨l', nd, rfl, _⟩ := hc.some
  exact Or.inl ((h.rlinked hd).2 (by simp))

theorem prot_alloc {s : State n V} {l role} (h : Inv s l role) {t : Fin n} {a : Addr}
    (hp : Prot s.retired role t a) : ∃ nd, s.mem a = some nd := by
  cases hm : s.mem a with
  | some nd => exact ⟨nd, rfl⟩
  | none =>
    have := (h.rfree a).2 hm
    unfold Prot at hp
    rw [this] at hp
    simp at hp

theorem owned_alloc {s : State n V} {l role} (h : Inv s l role) {t : Fin n} {a : Addr}
    (ho : (s.th t).owned = some a) : ∃ nd, s.mem a = some nd := by
  cases hm : s.mem a with
  | some nd => exact ⟨nd, rfl⟩
  | none =>
    have := (h.rfree a).2 hm
    rw [(h.rpriv a t).2 ho] at this
    cases this

/-- One access of a thread. -/
theorem sim_tick {s s' : State n V} {σ st l role evs} (h : Sim s σ st l role) {t : Fin n}
    (hs : tick s t = some (s', evs)) :
    ∃ σ' st' l' role', Sim s' σ' st' l' role' ∧ Atomic (lifo V) σ st evs σ' st' := by
  obtain ⟨hi, hv, hst, hc⟩ := h
  have hstt := hst t
  unfold tick at hs
  cases hL : s.th t with
  | idle => rw [hL] at hs; cases hs
  | pushLoad a =>
    rw [hL] at hs hstt
    cases hs
    refine ⟨σ, st, l, role, ⟨hi.goto t _ (by rw [hL]; rfl) (by rw [hL]; rfl) ?_ ?_ ?_, hv,
      stat_goto' hst t _ hstt, count_goto t _ (by rw [hL]; rfl) hc⟩, .nil _ _⟩
    · intro x hx; exact linked_prot hi hx t
    · intro a nx e; cases e
    · intro a nx e; cases e
  | pushStore a hd =>
    obtain ⟨nd, hnd⟩ := owned_alloc hi (t := t) (a := a) (by rw [hL]; rfl)
    rw [hL] at hs hstt
    simp only [hnd] at hs
    cases hs
    have hval : ∀ x, valAt (s.write a (some ⟨nd.value, hd⟩)).mem x = valAt s.mem x := by
      intro x
      by_cases hx : x = a
      · subst hx; simp [valAt, State.write, hnd]
      · simp [valAt, State.write, hx]
    refine ⟨σ, st, l, role, ⟨inv_store hi hL hnd, ?_, ?_, count_goto (s := s) (k := s.len) t _ (by rw [hL]; rfl) hc⟩, .nil _ _⟩
    · simp only [goto_mem, List.map_congr_left fun x _ => hval x]; exact hv
    · have h1 : ∀ x, Stat (s.write a (some ⟨nd.value, hd⟩)).mem (s.th x) (st x) := fun x =>
        (hst x).mono fun y v _ hy => by rw [hval]; exact hy
      refine stat_goto' h1 t _ ?_
      obtain ⟨v, h2, h3⟩ := hstt
      exact ⟨v, by rw [hval]; exact h2, h3⟩
  | pushCas a hd =>
    rw [hL] at hs hstt
    simp only at hs
    split at hs
    · rename_i hh
      cases hs
      subst hh
      obtain ⟨v, h2, h3⟩ := hstt
      refine ⟨v :: σ, fun x => if x = t then .done .unit else st x, a :: l, _,
        ⟨inv_pushCas hi hL, ?_, stat_goto hst t _ _ rfl, ?_⟩, ?_⟩
      · simp only [goto_mem, List.map_cons, hv, h2]
      · have := count_goto (k := s.len) (m := l.length + 1) (s := { s with len := s.len + 1 }) t .pushAdd
          (by simp only [hL, Local.debt]; omega) (by simp only; push_cast; omega)
        simpa using this
      · exact .effect t (.push v) h3 (.nil _ _)
    · cases hs
      refine ⟨σ, st, l, role, ⟨hi.goto t _ (by rw [hL]; rfl) (by rw [hL]; rfl) ?_ ?_ ?_, hv,
        stat_goto' hst t _ hstt, count_goto t _ (by rw [hL]; rfl) hc⟩, .nil _ _⟩
      · intro x hx; cases hx
      · intro a nx e; cases e
      · intro a nx e; cases e
  | pushAdd =>
    rw [hL] at hs hstt
    cases hs
    refine ⟨σ, st, l, role, ⟨(hi.len _).goto t _ (by rw [hL]; rfl) (by rw [hL]; rfl) ?_ ?_ ?_, hv,
        stat_goto' hst t _ hstt, count_goto (s := s) (k := s.len + 1) t _ (by rw [hL]; simp [Local.debt]) hc⟩, .nil _ _⟩
    · intro x hx; cases hx
    · intro a nx e; cases e
    · intro a nx e; cases e
  | pushRet =>
    rw [hL] at hs hstt
    cases hs
    refine ⟨σ, fun x => if x = t then .idle else st x, l, role, ⟨inv_unpin hi (by rw [hL]; rfl) (by rw [hL]; rfl),
      hv, stat_goto hst t _ _ rfl, count_goto t _ (by rw [hL]; rfl) hc⟩, .ret (O := lifo V) (st := st) t StackRes.unit hstt (.nil _ _)⟩
  | popLoad =>
    rw [hL] at hs hstt
    simp only at hs
    cases hh : s.head with
    | none =>
      rw [hh] at hs
      cases hs
      have hcn := hi.chain
      rw [hh] at hcn
      have hl := hcn.none
      subst hl
      have hσ : σ = [] := by
        cases σ with
        | nil => rfl
        | cons x y => cases hv
      subst hσ
      refine ⟨[], fun x => if x = t then .done (.popped none) else st x, [], role,
        ⟨hi.goto t _ (by rw [hL]; rfl) (by rw [hL]; rfl) ?_ ?_ ?_, hv,
        stat_goto hst t _ _ rfl, count_goto t _ (by rw [hL]; rfl) hc⟩, .effect t .pop hstt (.nil _ _)⟩
      · intro x hx; cases hx
      · intro a nx e; cases e
      · intro a nx e; cases e
    | some hd =>
      rw [hh] at hs
      cases hs
      refine ⟨σ, st, l, role, ⟨hi.goto t _ (by rw [hL]; rfl) (by rw [hL]; rfl) ?_ ?_ ?_, hv,
        stat_goto' hst t _ hstt, count_goto t _ (by rw [hL]; rfl) hc⟩, .nil _ _⟩
      · intro x hx; cases hx; exact linked_prot hi hh t
      · intro a nx e; cases e
      · intro a nx e; cases e
  | popNext hd =>
    have hp := hi.prot t hd (by rw [hL]; rfl)
    obtain ⟨nd, hnd⟩ := prot_alloc hi hp
    rw [hL] at hs hstt
    simp only [hnd] at hs
    cases hs
    refine ⟨σ, st, l, role, ⟨hi.goto t _ (by rw [hL]; rfl) (by rw [hL]; rfl) ?_ ?_ ?_, hv,
      stat_goto' hst t _ hstt, count_goto t _ (by rw [hL]; rfl) hc⟩, .nil _ _⟩
    · intro x hx; cases hx; exact hp
    · intro a nx e; cases e; rw [hnd]; rfl
    · intro a nx e; cases e
  | popCas hd nx =>
    rw [hL] at hs hstt
    simp only at hs
    split at hs
    · rename_i hh
      cases hs
      obtain ⟨l', nd, rfl, hm, hnx, hinv⟩ := inv_popCas hi hL hh
      cases σ with
      | nil => cases hv
      | cons v σ =>
        simp only [List.map_cons, List.cons.injEq] at hv
        refine ⟨σ, fun x => if x = t then .done (.popped (some v)) else st x, l', _,
          ⟨hinv, hv.2, stat_goto hst t _ _ ⟨v, hv.1, rfl⟩, ?_⟩, .effect t .pop hstt (.nil _ _)⟩
        have := count_goto (k := s.len) (m := l'.length) (s := { s with len := s.len - 1 }) t (.popSub hd)
          (by simp only [hL, Local.debt]; omega)
          (by simp only [List.length_cons] at hc ⊢; push_cast at hc; omega)
        simpa using this
    · cases hs
      refine ⟨σ, st, l, role, ⟨hi.goto t _ (by rw [hL]; rfl) (by rw [hL]; rfl) ?_ ?_ ?_, hv,
        stat_goto' hst t _ hstt, count_goto t _ (by rw [hL]; rfl) hc⟩, .nil _ _⟩
      · intro x hx; cases hx
      · intro a nx e; cases e
      · intro a nx e; cases e
  | popSub hd =>
    rw [hL] at hs hstt
    cases hs
    refine ⟨σ, st, l, role, ⟨(hi.len _).goto t _ (by rw [hL]; rfl) (by rw [hL]; rfl) ?_ ?_ ?_, hv,
        stat_goto' hst t _ hstt, count_goto (s := s) (k := s.len - 1) t _ (by rw [hL]; simp only [Local.debt]; omega) hc⟩, .nil _ _⟩
    · intro x hx; cases hx
    · intro a nx e; cases e
    · intro a nx e; cases e
  | popDefer hd =>
    rw [hL] at hs hstt
    cases hs
    refine ⟨σ, st, l, _, ⟨inv_defer hi hL, hv,
        stat_goto' hst t _ hstt, count_goto t _ (by rw [hL]; rfl) hc⟩, .nil _ _⟩
  | popRead hd =>
    have hp := hi.prot t hd (by rw [hL]; rfl)
    obtain ⟨nd, hnd⟩ := prot_alloc hi hp
    rw [hL] at hs hstt
    simp only [hnd] at hs
    cases hs
    obtain ⟨v, h1, h2⟩ := hstt
    simp only [valAt, hnd, Option.map_some, Option.some.injEq] at h1
    subst h1
    refine ⟨σ, st, l, role, ⟨hi.goto t _ (by rw [hL]; rfl) (by rw [hL]; rfl) ?_ ?_ ?_, hv,
      stat_goto' hst t _ h2, count_goto t _ (by rw [hL]; rfl) hc⟩, .nil _ _⟩
    · intro x hx; cases hx
    · intro a nx e; cases e
    · intro a nx e; cases e
  | popRet r =>
    rw [hL] at hs hstt
    cases hs
    refine ⟨σ, fun x => if x = t then .idle else st x, l, role, ⟨inv_unpin hi (by rw [hL]; rfl) (by rw [hL]; rfl),
      hv, stat_goto hst t _ _ rfl, count_goto t _ (by rw [hL]; rfl) hc⟩, .ret t _ hstt (.nil _ _)⟩

/-- The collector frees a node no thread refers to. -/
theorem reclaim_unused {s : State n V} {l role} (h : Inv s l role) {a : Addr} {r : Retired n}
    (hr : s.retired.find? (fun r => r.addr = a ∧ ∀ t, r.waits t = false) = some r) (t : Fin n) (x : Addr)
    (hu : (s.th t).uses x) : x ≠ a := by
  rintro rfl
  have hp := List.find?_some hr
  have hmem := List.mem_of_find?_eq_some hr
  simp only [decide_eq_true_eq] at hp
  obtain ⟨hra, hw⟩ := hp
  have hf : role x = .retired := (h.rret x).2 (List.mem_map.2 ⟨r, hmem, hra⟩)
  rcases hu with h1 | h1 | h1
  · rw [← h.rpriv, hf] at h1; cases h1
  · rw [← h.rlimbo, hf] at h1; cases h1
  · rcases h.prot t x h1 with h1 | ⟨t', h1⟩ | ⟨_, h1⟩
    · rw [hf] at h1; cases h1
    · rw [hf] at h1; cases h1
    · have := h1 r hmem hra
      rw [hw t] at this; cases this

theorem sim_step {s s' : State n V} {σ st l role evs} (h : Sim s σ st l role) {act : Action n V}
    (hs : step s act = some (s', evs)) :
    ∃ σ' st' l' role', Sim s' σ' st' l' role' ∧ Atomic (lifo V) σ st evs σ' st' := by
  cases act with
  | tick t => exact sim_tick h hs
  | push t v a =>
    obtain ⟨hi, hv, hst, hc⟩ := h
    simp only [step] at hs
    split at hs
    · rename_i ht ha
      cases hs
      have hval : ∀ x w, valAt s.mem x = some w → valAt (s.write a (some ⟨v, none⟩)).mem x = some w := by
        intro x w hx
        have : x ≠ a := by rintro rfl; simp [valAt, ha] at hx
        simpa [valAt, State.write, this] using hx
      have hstt := hst t
      rw [ht] at hstt
      refine ⟨σ, fun x => if x = t then .called (.push v) else st x, l, _, ⟨inv_push hi ht ha v, ?_, ?_,
        count_goto (s := s) t _ (by rw [ht]; rfl) hc⟩, .call (O := lifo V) (st := st) t (StackOp.push v) hstt (.nil _ _)⟩
      · rw [← hv]
        refine List.map_congr_left fun x hx => ?_
        have : x ≠ a := by
          rintro rfl
          have h1 := (hi.rlinked x).2 hx
          rw [(hi.rfree x).2 ha] at h1; cases h1
        simp [valAt, State.write, this]
      · refine stat_goto (fun x => (hst x).mono fun y w _ => hval y w) t _ _ ⟨v, ?_, rfl⟩
        simp [valAt, State.write]
    · cases hs
  | pop t =>
    obtain ⟨hi, hv, hst, hc⟩ := h
    simp only [step] at hs
    split at hs
    · rename_i ht
      cases hs
      have hstt := hst t
      rw [ht] at hstt
      refine ⟨σ, fun x => if x = t then .called .pop else st x, l, role,
        ⟨hi.goto t _ (by rw [ht]; rfl) (by rw [ht]; rfl) ?_ ?_ ?_, hv, stat_goto hst t _ _ rfl,
        count_goto t _ (by rw [ht]; rfl) hc⟩, .call (O := lifo V) (st := st) t StackOp.pop hstt (.nil _ _)⟩
      · intro x hx; cases hx
      · intro a nx e; cases e
      · intro a nx e; cases e
    · cases hs
  | reclaim a =>
    obtain ⟨hi, hv, hst, hc⟩ := h
    simp only [step] at hs
    split at hs
    · cases hs
    · rename_i r hr
      cases hs
      obtain ⟨nd, hnd, hinv⟩ := inv_reclaim hi hr
      have hfree : s.free a = { s.write a none with dropped := nd.value :: s.dropped } := by
        simp [State.free, hnd]
      have hmem : ∀ x, x ≠ a → valAt (s.free a).mem x = valAt s.mem x := by
        intro x hx; rw [hfree]; simp [valAt, State.write, hx]
      refine ⟨σ, st, l, _, ⟨hinv, ?_, ?_, ?_⟩, .nil _ _⟩
      · rw [← hv]
        refine List.map_congr_left fun x hx => hmem x ?_
        rintro rfl
        have h1 := (hi.rlinked x).2 hx
        have hp := List.find?_some hr
        simp only [decide_eq_true_eq] at hp
        rw [(hi.rret x).2 (List.mem_map.2 ⟨r, List.mem_of_find?_eq_some hr, hp.1⟩)] at h1
        cases h1
      · intro t
        have hth : (s.free a).th t = s.th t := by rw [hfree]; rfl
        show Stat (s.free a).mem ((s.free a).th t) (st t)
        rw [hth]
        exact (hst t).mono fun x v hu hx => by rw [hmem x (reclaim_unused hi hr t x hu)]; exact hx
      · rw [hfree]; exact hc

theorem _root_.Verif.Spec.Atomic.append {T S Op Res : Type} [DecidableEq T] {O : SeqObj S Op Res} {σ σ₁ σ₂ : S}
    {st st₁ st₂ : T → Status Op Res} {evs evs'} (h : Atomic O σ st evs σ₁ st₁)
    (h' : Atomic O σ₁ st₁ evs' σ₂ st₂) : Atomic O σ st (evs ++ evs') σ₂ st₂ := by
  induction h with
  | nil => exact h'
  | call t op ht _ ih => exact .call t op ht (ih h')
  | effect t op ht _ ih => exact .effect t op ht (ih h')
  | ret t r ht _ ih => exact .ret t r ht (ih h')

theorem sim_exec {s s' : State n V} {σ st l role evs} (h : Sim s σ st l role) {as : List (Action n V)}
    (hs : exec s as = some (s', evs)) :
    ∃ σ' st' l' role', Sim s' σ' st' l' role' ∧ Atomic (lifo V) σ st evs σ' st' := by
  induction as generalizing s σ st l role evs with
  | nil => cases hs; exact ⟨σ, st, l, role, h, .nil _ _⟩
  | cons a as ih =>
    simp only [exec] at hs
    cases h1 : step s a with
    | none => rw [h1] at hs; cases hs
    | some q =>
      obtain ⟨s₁, e₁⟩ := q
      rw [h1] at hs
      simp only at hs
      cases h2 : exec s₁ as with
      | none => rw [h2] at hs; cases hs
      | some q =>
        obtain ⟨s₂, e₂⟩ := q
        rw [h2] at hs
        cases hs
        obtain ⟨σ₁, st₁, l₁, role₁, h3, h4⟩ := sim_step h h1
        obtain ⟨σ₂, st₂, l₂, role₂, h5, h6⟩ := ih h3 h2
        exact ⟨σ₂, st₂, l₂, role₂, h5, h4.append h6⟩

end Verif.Stack
