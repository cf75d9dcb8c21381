import Verif.Stack.Sim

namespace Verif.Stack

open Verif.Spec

variable {n : Nat} {V : Type}

/-- The value an operation in progress is responsible for. -/
def pend : Status (StackOp V) (StackRes V) → Multiset V
  | .called (.push v) => {v}
  | .done (.popped (some v)) => {v}
  | _ => 0

theorem sum_upd {M S : Type} [AddCommMonoid M] (f : S → M) (g : Fin n → S) (t : Fin n) (L : S) :
    (∑ x, f (if x = t then L else g x)) + f (g t) = (∑ x, f (g x)) + f L := by
  rw [← Finset.add_sum_erase Finset.univ _ (Finset.mem_univ t),
    ← Finset.add_sum_erase Finset.univ (fun x => f (g x)) (Finset.mem_univ t)]
  have : ∑ x ∈ Finset.univ.erase t, f (if x = t then L else g x) = ∑ x ∈ Finset.univ.erase t, f (g x) := by
    refine Finset.sum_congr rfl fun x hx => ?_
    rw [if_neg (Finset.ne_of_mem_erase hx)]
  rw [this]
  simp only [if_true]
  abel

theorem pend_idle : pend (.idle : Status (StackOp V) (StackRes V)) = 0 := rfl
theorem pend_push (v : V) : pend (.called (.push v)) = {v} := rfl
theorem pend_pop : pend (.called .pop : Status (StackOp V) (StackRes V)) = 0 := rfl
theorem pend_unit : pend (.done .unit : Status (StackOp V) (StackRes V)) = 0 := rfl
theorem pend_none : pend (.done (.popped none) : Status (StackOp V) (StackRes V)) = 0 := rfl
theorem pend_some (v : V) : pend (.done (.popped (some v))) = {v} := rfl

/-- Conservation of values in an atomic stack history. -/
theorem atomic_conserve {σ σ' : List V} {st st' : Fin n → Status (StackOp V) (StackRes V)}
    {evs : List (Event (Fin n) (StackOp V) (StackRes V))} (h : Atomic (lifo V) σ st evs σ' st') :
    (pushed evs : Multiset V) + σ + ∑ t, pend (st t) = (popped evs : Multiset V) + σ' + ∑ t, pend (st' t) := by
  induction h with
  | nil => simp [pushed, popped]
  | @call σ st evs σ' st' t op ht _ ih =>
    have h1 := sum_upd (pend (V := V)) st t (.called op)
    rw [ht, pend_idle, add_zero] at h1
    cases op with
    | pop =>
      simp only [pushed, popped]
      rw [pend_pop, add_zero] at h1
      rw [← ih, ← h1]
    | push v =>
      simp only [pushed, popped]
      rw [pend_push] at h1
      rw [← ih, h1, ← Multiset.cons_coe, ← Multiset.singleton_add]
      abel
  | @effect σ st evs σ' st' t op ht _ ih =>
    have h1 := sum_upd (pend (V := V)) st t (.done ((lifo V).apply σ op).2)
    rw [ht] at h1
    rw [← ih]
    cases op with
    | push v =>
      rw [pend_push] at h1
      have e : ((lifo V).apply σ (.push v)) = ((v :: σ : List V), StackRes.unit) := rfl
      rw [e] at h1 ⊢
      rw [pend_unit, add_zero] at h1
      rw [← h1, ← Multiset.cons_coe, ← Multiset.singleton_add]
      abel
    | pop =>
      rw [pend_pop, add_zero] at h1
      cases σ with
      | nil =>
        have e : ((lifo V).apply ([] : List V) .pop) = (([] : List V), StackRes.popped none) := rfl
        rw [e] at h1 ⊢
        rw [pend_none, add_zero] at h1
        rw [h1]
      | cons v σ =>
        have e : ((lifo V).apply (v :: σ : List V) .pop) = ((σ : List V), StackRes.popped (some v)) := rfl
        rw [e] at h1 ⊢
        rw [pend_some] at h1
        rw [h1, ← Multiset.cons_coe, ← Multiset.singleton_add]
        abel
  | @ret σ st evs σ' st' t r ht _ ih =>
    have h1 := sum_upd (pend (V := V)) st t .idle
    rw [ht, pend_idle, add_zero] at h1
    cases r with
    | unit =>
      simp only [pushed, popped]
      rw [pend_unit, add_zero] at h1
      rw [← ih, h1]
    | popped o =>
      cases o with
      | none =>
        simp only [pushed, popped]
        rw [pend_none, add_zero] at h1
        rw [← ih, h1]
      | some v =>
        simp only [pushed, popped]
        rw [pend_some] at h1
        rw [← h1, ← Multiset.cons_coe, ← Multiset.singleton_add, add_assoc ({v} : Multiset V),
          add_assoc ({v} : Multiset V), ← ih]
        abel

/-- An optional value as a multiset. -/
def optM : Option V → Multiset V
  | none => 0
  | some v => {v}

/-- The value of a node that has been retired, if the `try_pop` that did it has not returned. -/
def aft (mem : Addr → Option (Node V)) : Local V → Multiset V
  | .popRead h => optM (valAt mem h)
  | .popRet (some v) => {v}
  | _ => 0

theorem aft_eq_zero {mem : Addr → Option (Node V)} {L : Local V} (h1 : ∀ h, L ≠ .popRead h)
    (h2 : ∀ r, L ≠ .popRet r) : aft mem L = 0 := by
  cases L <;> first | rfl | exact absurd rfl (h1 _) | exact absurd rfl (h2 _)

/-- The values of the retired nodes. -/
def retVals (mem : Addr → Option (Node V)) (l : List (Retired n)) : Multiset V :=
  (l.map fun r => optM (valAt mem r.addr)).sum

/-- Accounting of destructor runs: `q` are the values handed out so far. -/
def Drops (s : State n V) (q : Multiset V) : Prop :=
  q + ∑ t, aft s.mem (s.th t) = s.dropped + retVals s.mem s.retired

theorem retVals_congr {mem mem' : Addr → Option (Node V)} {l : List (Retired n)}
    (h : ∀ r ∈ l, valAt mem' r.addr = valAt mem r.addr) : retVals mem' l = retVals mem l := by
  unfold retVals
  congr 1
  exact List.map_congr_left fun r hr => by rw [h r hr]

theorem sum_aft_congr {mem mem' : Addr → Option (Node V)} {th : Fin n → Local V}
    (h : ∀ t x, (th t).held = some x → valAt mem' x = valAt mem x) :
    ∑ t, aft mem' (th t) = ∑ t, aft mem (th t) := by
  refine Finset.sum_congr rfl fun t _ => ?_
  have := h t
  cases hL : th t <;> try rfl
  · rw [hL] at this
    show optM _ = optM _
    rw [this _ rfl]
  · rename_i r
    cases r <;> rfl

theorem drops_goto {s s' : State n V} {q : Multiset V} (h : Drops s q) {t : Fin n} {L : Local V}
    (hth : s'.th = fun x => if x = t then L else s.th x) (hm : ∀ x, valAt s'.mem x = valAt s.mem x)
    (hr : s'.retired = s.retired) (hd : s'.dropped = s.dropped)
    (ha : aft s.mem L = aft s.mem (s.th t)) : Drops s' q := by
  unfold Drops at h ⊢
  rw [hr, hd, retVals_congr (fun r _ => hm r.addr), ← h, sum_aft_congr (fun t x _ => hm x), hth]
  have h1 := sum_upd (aft s.mem) s.th t L
  rw [ha] at h1
  rw [add_right_cancel h1]

theorem drops_unpin {s : State n V} {q : Multiset V} (h : Drops s q) (t : Fin n) :
    Drops (s.unpin t) (q + aft s.mem (s.th t)) := by
  unfold Drops at h ⊢
  have h1 := sum_upd (aft s.mem) s.th t .idle
  have h2 : retVals (s.unpin t).mem (s.unpin t).retired = retVals s.mem s.retired := by
    simp [State.unpin, retVals, State.goto, Function.comp_def]
  rw [h2]
  show q + aft s.mem (s.th t) + ∑ x, aft s.mem (if x = t then .idle else s.th x) = s.dropped + _
  rw [← h]
  have h3 : aft s.mem (.idle : Local V) = 0 := rfl
  rw [h3, add_zero] at h1
  rw [← h1]
  abel

theorem drops_step {s s' : State n V} {l role evs} (hi : Inv s l role) {act : Action n V}
    (hs : step s act = some (s', evs)) {q : Multiset V} (h : Drops s q) :
    Drops s' (q + (popped evs : Multiset V)) := by
  cases act with
  | push t v a =>
    simp only [step] at hs
    split at hs
    · rename_i ht ha
      cases hs
      simp only [popped, Multiset.coe_nil, add_zero]
      have hfree := (hi.rfree a).2 ha
      have hval : ∀ x, x ≠ a → valAt (s.write a (some ⟨v, none⟩)).mem x = valAt s.mem x := by
        intro x hx; simp [valAt, State.write, hx]
      have hret : ∀ r ∈ s.retired, r.addr ≠ a := by
        intro r hr he
        have := (hi.rret a).2 (List.mem_map.2 ⟨r, hr, he⟩)
        rw [hfree] at this; cases this
      unfold Drops at h ⊢
      show q + ∑ x, aft (s.write a (some ⟨v, none⟩)).mem (if x = t then .pushLoad a else s.th x) =
        s.dropped + retVals (s.write a (some ⟨v, none⟩)).mem s.retired
      rw [retVals_congr (fun r hr => hval _ (hret r hr)), ← h]
      have h1 := sum_upd (aft (s.write a (some ⟨v, none⟩)).mem) s.th t (.pushLoad a)
      have e1 : aft (s.write a (some ⟨v, none⟩)).mem (.pushLoad a : Local V) = 0 := rfl
      have e2 : aft (s.write a (some ⟨v, none⟩)).mem (.idle : Local V) = 0 := rfl
      rw [ht, e1, e2, add_zero, add_zero] at h1
      rw [h1]
      congr 1
      refine sum_aft_congr fun u x hx => hval x ?_
      rintro rfl
      have := hi.prot u x hx
      unfold Prot at this
      rw [hfree] at this
      simp at this
    · cases hs
  | pop t =>
    simp only [step] at hs
    split at hs
    · rename_i ht
      cases hs
      simp only [popped, Multiset.coe_nil, add_zero]
      exact drops_goto h (L := .popLoad) rfl (fun _ => rfl) rfl rfl (by rw [ht]; rfl)
    · cases hs
  | reclaim a =>
    simp only [step] at hs
    split at hs
    · cases hs
    · rename_i r hr
      cases hs
      simp only [popped, Multiset.coe_nil, add_zero]
      obtain ⟨nd, hnd, _⟩ := inv_reclaim hi hr
      have hfree : s.free a = { s.write a none with dropped := nd.value :: s.dropped } := by
        simp [State.free, hnd]
      rw [hfree]
      have hp := List.find?_some hr
      have hmem := List.mem_of_find?_eq_some hr
      simp only [decide_eq_true_eq] at hp
      obtain ⟨hra, hw⟩ := hp
      obtain ⟨r₀, l₁, l₂, hpre, hp0, hl0, he0⟩ :=
        List.exists_of_eraseP (p := fun r : Retired n => decide (r.addr = a ∧ ∀ t, r.waits t = false)) hmem
          (by simp [hra, hw])
      simp only [decide_eq_true_eq] at hp0
      have hnd' := hi.retNodup
      rw [hl0] at hnd'
      simp only [List.map_append, List.map_cons, hp0.1] at hnd'
      have hna := (List.nodup_cons.1 (List.perm_middle.nodup_iff.1 hnd')).1
      have hval : ∀ x, x ≠ a → valAt (s.write a none).mem x = valAt s.mem x := by
        intro x hx; simp [valAt, State.write, hx]
      have hva : valAt s.mem a = some nd.value := by simp [valAt, hnd]
      unfold Drops at h ⊢
      show q + ∑ x, aft (s.write a none).mem (s.th x) =
        ((nd.value :: s.dropped : List V) : Multiset V) + retVals (s.write a none).mem (List.eraseP _ s.retired)
      rw [he0, sum_aft_congr (mem := s.mem) (fun u x hx => hval x
        (reclaim_unused hi hr u x (Or.inr (Or.inr hx)))), h,
        retVals_congr (mem := s.mem) (fun r hr => hval _ (fun e => hna (by
          rw [← List.map_append]; exact List.mem_map.2 ⟨r, hr, e⟩)))]
      rw [hl0]
      simp only [retVals, List.map_append, List.map_cons, List.sum_append, List.sum_cons, hp0.1, hva, optM]
      rw [← Multiset.cons_coe, ← Multiset.singleton_add]
      abel
  | tick t =>
    simp only [step] at hs
    unfold tick at hs
    cases hL : s.th t with
    | idle => rw [hL] at hs; cases hs
    | pushLoad a =>
      rw [hL] at hs; cases hs
      simp only [popped, Multiset.coe_nil, add_zero]
      exact drops_goto h rfl (fun _ => rfl) rfl rfl (by rw [hL]; rfl)
    | pushStore a hd =>
      obtain ⟨nd, hnd⟩ := owned_alloc hi (t := t) (a := a) (by rw [hL]; rfl)
      rw [hL] at hs
      simp only [hnd] at hs
      cases hs
      simp only [popped, Multiset.coe_nil, add_zero]
      refine drops_goto h rfl (fun x => ?_) rfl rfl (by rw [hL]; rfl)
      by_cases hx : x = a
      · subst hx; simp [valAt, State.write, hnd]
      · simp [valAt, State.write, hx]
    | pushCas a hd =>
      rw [hL] at hs
      simp only at hs
      split at hs <;> cases hs <;> simp only [popped, Multiset.coe_nil, add_zero] <;>
        exact drops_goto h rfl (fun _ => rfl) rfl rfl (by rw [hL]; rfl)
    | pushAdd =>
      rw [hL] at hs; cases hs
      simp only [popped, Multiset.coe_nil, add_zero]
      exact drops_goto h rfl (fun _ => rfl) rfl rfl (by rw [hL]; rfl)
    | pushRet =>
      rw [hL] at hs; cases hs
      have := drops_unpin h t
      rw [hL] at this
      simpa [popped, aft] using this
    | popLoad =>
      rw [hL] at hs
      simp only at hs
      split at hs <;> cases hs <;> simp only [popped, Multiset.coe_nil, add_zero] <;>
        exact drops_goto h rfl (fun _ => rfl) rfl rfl (by rw [hL]; rfl)
    | popNext hd =>
      obtain ⟨nd, hnd⟩ := prot_alloc hi (hi.prot t hd (by rw [hL]; rfl))
      rw [hL] at hs
      simp only [hnd] at hs
      cases hs
      simp only [popped, Multiset.coe_nil, add_zero]
      exact drops_goto h rfl (fun _ => rfl) rfl rfl (by rw [hL]; rfl)
    | popCas hd nx =>
      rw [hL] at hs
      simp only at hs
      split at hs <;> cases hs <;> simp only [popped, Multiset.coe_nil, add_zero] <;>
        exact drops_goto h rfl (fun _ => rfl) rfl rfl (by rw [hL]; rfl)
    | popSub hd =>
      rw [hL] at hs; cases hs
      simp only [popped, Multiset.coe_nil, add_zero]
      exact drops_goto h rfl (fun _ => rfl) rfl rfl (by rw [hL]; rfl)
    | popDefer hd =>
      rw [hL] at hs; cases hs
      simp only [popped, Multiset.coe_nil, add_zero]
      unfold Drops at h ⊢
      show q + ∑ x, aft s.mem (if x = t then .popRead hd else s.th x) =
        s.dropped + (optM (valAt s.mem hd) + retVals s.mem s.retired)
      have h1 := sum_upd (aft s.mem) s.th t (.popRead hd)
      have e1 : aft s.mem (.popDefer hd : Local V) = 0 := rfl
      have e2 : aft s.mem (.popRead hd : Local V) = optM (valAt s.mem hd) := rfl
      rw [hL, e1, e2, add_zero] at h1
      rw [h1, ← add_assoc, h]
      abel
    | popRead hd =>
      obtain ⟨nd, hnd⟩ := prot_alloc hi (hi.prot t hd (by rw [hL]; rfl))
      rw [hL] at hs
      simp only [hnd] at hs
      cases hs
      simp only [popped, Multiset.coe_nil, add_zero]
      exact drops_goto h rfl (fun _ => rfl) rfl rfl (by rw [hL]; simp [aft, valAt, hnd, optM])
    | popRet r =>
      rw [hL] at hs; cases hs
      have := drops_unpin h t
      rw [hL] at this
      cases r with
      | none => simpa [popped, aft] using this
      | some v => simpa [popped, aft] using this

theorem popped_append (e e' : List (Event (Fin n) (StackOp V) (StackRes V))) :
    popped (e ++ e') = popped e ++ popped e' := by
  induction e with
  | nil => rfl
  | cons x e ih =>
    cases x with
    | call t op => simpa [popped] using ih
    | ret t r =>
      cases r with
      | unit => simpa [popped] using ih
      | popped o => cases o <;> simp [popped, ih]

theorem drops_exec {s s' : State n V} {σ st l role evs} (h : Sim s σ st l role) {as : List (Action n V)}
    (hs : exec s as = some (s', evs)) {q : Multiset V} (hd : Drops s q) :
    Drops s' (q + (popped evs : Multiset V)) := by
  induction as generalizing s σ st l role evs q with
  | nil => cases hs; simpa [popped] using hd
  | cons a as ih =>
    simp only [exec] at hs
    cases h1 : step s a with
    | none => rw [h1] at hs; cases hs
    | some p =>
      obtain ⟨s₁, e₁⟩ := p
      rw [h1] at hs
      simp only at hs
      cases h2 : exec s₁ as with
      | none => rw [h2] at hs; cases hs
      | some p =>
        obtain ⟨s₂, e₂⟩ := p
        rw [h2] at hs
        cases hs
        obtain ⟨σ₁, st₁, l₁, role₁, h3, h4⟩ := sim_step h h1
        have := ih h3 h2 (drops_step h.inv h1 hd)
        rw [popped_append, ← Multiset.coe_add, ← add_assoc]
        exact this

theorem drops_init : Drops (init n V) 0 := by
  simp [Drops, init, aft, retVals]

end Verif.Stack
