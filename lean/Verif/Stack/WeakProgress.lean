import Verif.Stack.Progress
import Verif.Stack.WeakStep

/-! C55: lock-freedom of `sync::Stack` on weak memory, where a load may return an old write. -/

namespace Verif.Stack.Weak

open Verif.Spec

variable {n : Nat} {V : Type}

/-- The number of memory accesses (and returns) in a schedule. -/
def ticks (as : List (Action n V)) : Nat := as.countP fun a => match a with | .tick _ _ => true | _ => false

/-- The number of calls in a history. -/
def calls {T Op Res : Type} (evs : List (HEvent T Op Res)) : Nat :=
  evs.countP fun e => match e with | .call _ _ => true | _ => false

/-- The number of operations that return in a history. -/
def returns {T Op Res : Type} (evs : List (HEvent T Op Res)) : Nat :=
  evs.countP fun e => match e with | .ret _ _ => true | _ => false

/-- How many more accesses the thread makes if its compare-and-swap succeeds. -/
def Local.cost : Local n V → Nat
  | .idle => 0
  | .pushLoad _ => 5
  | .pushStore _ _ => 4
  | .pushCas _ _ => 3
  | .pushAdd => 2
  | .pushRet => 1
  | .popLoad => 7
  | .popNext _ => 6
  | .popCas _ _ => 5
  | .popSub _ => 4
  | .popDefer _ => 3
  | .popRead _ => 2
  | .popRet _ => 1

/-- Has not changed the head yet. -/
def Local.before : Local n V → Bool
  | .pushLoad _ | .pushStore _ _ | .pushCas _ _ | .popLoad | .popNext _ | .popCas _ _ => true
  | _ => false

/-- The value of the head the thread will compare with. -/
def Local.expects : Local n V → Option (Option Addr)
  | .pushStore _ h => some h
  | .pushCas _ h => some h
  | .popNext h => some (some h)
  | .popCas h _ => some (some h)
  | _ => none

/-- The weight of a thread at `L`, from which `d` writes of the head are hidden. -/
def Local.weight (d : Nat) (L : Local n V) : Nat := L.cost + (if L.before then 3 * n else 0) + 3 * d

/-- The sum of the weights. -/
def State.weight (s : State n V) : Nat := ∑ t, (s.th t).weight (s.head.length - 1 - (s.view t).head)

/-- The number of calls in progress. -/
def State.busy (s : State n V) : Nat := ∑ t, if (s.th t).pinned then 1 else 0

/-- How many writes of the head the thread has not seen. -/
def State.hidden (s : State n V) (t : Fin n) : Nat := s.head.length - 1 - (s.view t).head

/-- The accesses the thread still makes if it runs alone, at most. -/
def State.left (s : State n V) (t : Fin n) : Nat := (s.th t).cost + 3 * s.hidden t

/-- The value a thread will compare with is that of the last write it has seen. -/
def Fresh (s : State n V) : Prop :=
  ∀ t h, (s.th t).expects = some h → ∃ m, s.head[(s.view t).head]? = some m ∧ m.val = h

theorem weight_step {s s' : State n V} {t : Fin n} (h1 : ∀ x, x ≠ t → s'.th x = s.th x)
    (h2 : ∀ x, x ≠ t → s'.view x = s.view x) (h3 : s'.head.length = s.head.length) :
    s'.weight + (s.th t).weight (s.head.length - 1 - (s.view t).head) =
      s.weight + (s'.th t).weight (s.head.length - 1 - (s'.view t).head) := by
  unfold State.weight
  rw [h3]
  exact Stack.sum_same (f := fun x => (s'.th x).weight (s.head.length - 1 - (s'.view x).head))
    (g := fun x => (s.th x).weight (s.head.length - 1 - (s.view x).head)) fun x hx => by rw [h1 x hx, h2 x hx]

theorem weight_head {s s' : State n V} {t : Fin n} (h1 : ∀ x, x ≠ t → s'.th x = s.th x)
    (h2 : ∀ x, x ≠ t → s'.view x = s.view x) (h3 : s'.head.length = s.head.length + 1) :
    s'.weight + (s.th t).weight (s.head.length - 1 - (s.view t).head) + 3 ≤
      s.weight + (s'.th t).weight (s'.head.length - 1 - (s'.view t).head) + 3 * n := by
  unfold State.weight
  refine Stack.sum_more (f := fun x => (s'.th x).weight (s'.head.length - 1 - (s'.view x).head))
    (g := fun x => (s.th x).weight (s.head.length - 1 - (s.view x).head)) fun x hx => ?_
  rw [h1 x hx, h2 x hx, h3]
  unfold Local.weight
  omega

theorem Fresh.step {s s' : State n V} {t : Fin n} (h : Fresh s) (h1 : ∀ x, x ≠ t → s'.th x = s.th x)
    (h2 : ∀ x, x ≠ t → s'.view x = s.view x) (h3 : ∃ l, s'.head = s.head ++ l)
    (h4 : ∀ h, (s'.th t).expects = some h → ∃ m, s'.head[(s'.view t).head]? = some m ∧ m.val = h) : Fresh s' := by
  intro x y hx
  by_cases hxt : x = t
  · subst hxt; exact h4 y hx
  · rw [h1 x hxt] at hx
    obtain ⟨m, hm, hv⟩ := h x y hx
    obtain ⟨l, hl⟩ := h3
    refine ⟨m, ?_, hv⟩
    rw [h2 x hxt, hl, List.getElem?_append_left (getElem?_lt hm)]
    exact hm

theorem readHead_head {o : MemOrd} {w : View n} {i : Nat} {m : Msg (Option Addr) n} (hw : w.head ≤ i)
    (hm : m.view.head ≤ i) : (readHead o w i m).head = i := by
  have h1 := readHead_head_ge o w i m
  have h2 := readHead_head_le o (k := i) hw (Nat.le_refl i) hm
  omega

/-- A step of thread `t` that does not write the head. -/
theorem lower {s s' : State n V} {t : Fin n} {L L' : Local n V} (hf : Fresh s) (hL : s.th t = L) (hL' : s'.th t = L')
    (h1 : ∀ x, x ≠ t → s'.th x = s.th x) (h2 : ∀ x, x ≠ t → s'.view x = s.view x) (h3 : s'.head = s.head)
    (hv : (s.view t).head ≤ (s'.view t).head) (hc : L'.cost + 1 ≤ L.cost) (hb : L'.before = true → L.before = true)
    (he : ∀ y, L'.expects = some y → (∃ m, s.head[(s'.view t).head]? = some m ∧ m.val = y) ∨
      (L.expects = some y ∧ (s'.view t).head = (s.view t).head)) : s'.weight + 1 ≤ s.weight ∧ Fresh s' ∧ s'.left t + 1 ≤ s.left t := by
  have hw := weight_step h1 h2 (congrArg List.length h3)
  rw [hL, hL'] at hw
  refine ⟨?_, hf.step h1 h2 ⟨[], by rw [h3, List.append_nil]⟩ fun y hy => ?_, ?_⟩
  · unfold Local.weight at hw
    cases h4 : L'.before with
    | true =>
      rw [h4, hb h4] at hw
      omega
    | false =>
      rw [h4] at hw
      simp only [Bool.false_eq_true, if_false] at hw
      omega
  · rw [hL'] at hy
    rw [h3]
    rcases he y hy with h | ⟨h, h'⟩
    · exact h
    · rw [h']
      exact hf t y (by rw [hL]; exact h)
  · unfold State.left State.hidden
    rw [hL, hL', h3]
    omega

/-- A compare-and-swap that fails has seen a write the thread had not seen before. -/
theorem casFail_weight {s s' : State n V} {t : Fin n} {k i : Nat} {L L' : Local n V} {m : Msg (Option Addr) n}
    {old : Option Addr} (hf : Fresh s) (hlen : s.head.length = k + 1) (hL : s.th t = L) (hL' : s'.th t = L')
    (h1 : ∀ x, x ≠ t → s'.th x = s.th x) (h2 : ∀ x, x ≠ t → s'.view x = s.view x) (h3 : s'.head = s.head)
    (hvt : (s'.view t).head = i) (he : L.expects = some old) (hb : L.before = true) (hc : L'.cost = L.cost + 2)
    (he' : L'.expects = none) (hb' : L'.before = true) (hm : s.head[i]? = some m) (hv : (s.view t).head ≤ i)
    (hne : m.val ≠ old) : s'.weight + 1 ≤ s.weight ∧ Fresh s' ∧ s'.left t + 1 ≤ s.left t := by
  obtain ⟨m', hm', hv'⟩ := hf t old (by rw [hL]; exact he)
  have hlt : (s.view t).head < i := by
    rcases Nat.lt_or_ge (s.view t).head i with h | h
    · exact h
    · have : (s.view t).head = i := Nat.le_antisymm hv h
      rw [this, hm] at hm'
      injection hm' with hm'
      subst hm'
      exact absurd hv' hne
  have hi := getElem?_le hlen hm
  have hw := weight_step h1 h2 (congrArg List.length h3)
  rw [hL, hL', hvt] at hw
  refine ⟨?_, hf.step h1 h2 ⟨[], by rw [h3, List.append_nil]⟩ ?_, ?_⟩
  · unfold Local.weight at hw
    rw [hb, hb', hc] at hw
    simp only [if_true] at hw
    omega
  · rw [hL', he']
    intro y hy
    cases hy
  · unfold State.left State.hidden
    rw [hL, hL', h3, hvt, hc]
    omega

/-- A compare-and-swap that succeeds hides one more write from the other threads, once. -/
theorem casOk_weight {s s' : State n V} {t : Fin n} {L L' : Local n V} {x : Msg (Option Addr) n}
    (hf : Fresh s) (hL : s.th t = L) (hL' : s'.th t = L') (h1 : ∀ x, x ≠ t → s'.th x = s.th x)
    (h2 : ∀ x, x ≠ t → s'.view x = s.view x) (h3 : s'.head = s.head ++ [x]) (hvt : (s'.view t).head = s.head.length)
    (hb : L.before = true) (hc : L'.cost + 1 = L.cost) (he' : L'.expects = none) (hb' : L'.before = false) :
    s'.weight + 1 ≤ s.weight ∧ Fresh s' ∧ s'.left t + 1 ≤ s.left t := by
  have h4 : s'.head.length = s.head.length + 1 := by rw [h3]; exact List.length_append
  have hk := weight_head h1 h2 h4
  rw [hL', hL, h4, hvt] at hk
  refine ⟨?_, hf.step h1 h2 ⟨[x], h3⟩ ?_, ?_⟩
  · unfold Local.weight at hk
    rw [hb, hb'] at hk
    simp only [if_true, Bool.false_eq_true, if_false] at hk
    omega
  · rw [hL', he']
    intro y hy
    cases hy
  · unfold State.left State.hidden
    rw [hL, hL', h4, hvt]
    omega

theorem clientStep_head (s : State n V) (t x : Fin n) : ((s.clientStep t).view x).head = (s.view x).head := by
  by_cases hx : x = t
  · subst hx
    rw [clientStep_eq]
  · exact congrArg View.head (see_ne hx)

/-- Every access lowers the weight. -/
theorem tick_weight {o : Orders} {s s' : State n V} {H evs : Hist n V} (hg : Good s H) (hf : Fresh s) {t : Fin n} {i : Nat}
    (h : tick o s t i = some (s', evs)) : s'.weight + 1 ≤ s.weight ∧ Fresh s' ∧ s'.left t + 1 ≤ s.left t := by
  obtain ⟨k, σ, role, ops, adds, cur, hs⟩ := hg
  have hret : ∀ L, s.th t = L → 1 ≤ L.cost → ((s.unpin t).clientStep t).weight + 1 ≤ s.weight ∧
      Fresh ((s.unpin t).clientStep t) ∧ ((s.unpin t).clientStep t).left t + 1 ≤ s.left t := by
    intro L hL hc
    refine lower (L' := .idle) hf hL (if_pos rfl) (fun x hx => if_neg hx) (fun x hx => see_ne hx) rfl ?_ hc
      (fun h => nomatch h) (fun y hy => nomatch hy)
    rw [clientStep_head]
    exact Nat.le_refl _
  unfold tick at h
  cases ht : s.th t with
  | idle => rw [ht] at h; cases h
  | pushLoad a =>
    rw [ht] at h
    dsimp only at h
    cases hm : s.head[i]? with
    | none => rw [hm] at h; cases h
    | some m =>
      rw [hm] at h
      dsimp only at h
      split at h
      · rename_i hv
        injection h with h; injection h with h1 h2
        subst h1
        have hhd := readHead_head (o := o.pushLoad) hv (hs.inv.mhead i m hm)
        have hvw : ((s.see t (readHead o.pushLoad (s.view t) i m)).goto t (.pushStore a m.val)).view t = _ := see_eq
        refine lower hf ht goto_eq (fun x hx => goto_ne hx) (fun x hx => see_ne hx) rfl ?_ (Nat.le_refl _) (fun _ => rfl) ?_
        · rw [hvw, hhd]; exact hv
        · intro y hy
          injection hy with hy
          rw [hvw, hhd]
          exact Or.inl ⟨m, hm, hy⟩
      · cases h
  | pushStore a x =>
    obtain ⟨c, hc, hd⟩ := hs.inv.deref (t := t) (a := a) (by rw [ht]; rfl)
    rw [ht] at h
    dsimp only at h
    rw [hd] at h
    injection h with h; injection h with h1 h2
    subst h1
    have hvw : (({ s.write a (some { c with next := (s.stamp, x) :: c.next }) with stamp := s.stamp + 1 }.see t
        ((s.view t).at a s.stamp)).goto t (.pushCas a x)).view t = _ := see_eq
    refine lower hf ht goto_eq (fun x hx => goto_ne hx) (fun x hx => see_ne hx) rfl ?_ (Nat.le_refl _) (fun _ => rfl) ?_
    · rw [hvw]; exact Nat.le_refl _
    · intro y hy
      rw [hvw]
      exact Or.inr ⟨hy, rfl⟩
  | pushCas a x =>
    rw [ht] at h
    dsimp only at h
    cases hcas : casHead o.pushCas s t i x (some a) .pushAdd (.pushLoad a) with
    | none => rw [hcas] at h; cases h
    | some s'' =>
      rw [hcas] at h
      injection h with h; injection h with h1 h2
      subst h1
      obtain ⟨m, hm, hv, ⟨h1, h2, h3⟩ | ⟨h1, h3⟩⟩ := casHead_cases hcas
      · rw [h3]
        exact casOk_weight hf ht goto_eq (fun x hx => goto_ne hx) (fun x hx => see_ne hx) rfl
          ((congrArg View.head (if_pos rfl : (if t = t then _ else _) = _)).trans h2) rfl rfl rfl rfl
      · rw [h3]
        exact casFail_weight hf hs.inv.hlen ht goto_eq (fun x hx => goto_ne hx) (fun x hx => see_ne hx) rfl
          (congrArg View.head (if_pos rfl : (if t = t then _ else _) = _)) rfl rfl rfl rfl rfl hm hv h1
  | pushAdd =>
    rw [ht] at h
    dsimp only at h
    unfold Weak.addLen at h
    cases hm : s.len.getLast? with
    | none => rw [hm] at h; cases h
    | some m =>
      rw [hm] at h
      injection h with h; injection h with h1 h2
      subst h1
      refine lower hf ht goto_eq (fun x hx => goto_ne hx) (fun x hx => see_ne hx) rfl ?_ (Nat.le_refl _) (fun h => nomatch h)
        (fun y hy => nomatch hy)
      simp [State.see, State.goto]
  | pushRet =>
    rw [ht] at h
    injection h with h; injection h with h1 h2
    subst h1
    exact hret _ ht (Nat.le_refl 1)
  | popLoad =>
    rw [ht] at h
    dsimp only at h
    cases hm : s.head[i]? with
    | none => rw [hm] at h; cases h
    | some m =>
      rw [hm] at h
      dsimp only at h
      split at h
      · rename_i hv
        have hhd := readHead_head (o := o.popLoad) hv (hs.inv.mhead i m hm)
        cases hval : m.val with
        | none =>
          rw [hval] at h
          injection h with h; injection h with h1 h2
          subst h1
          refine lower hf ht goto_eq (fun x hx => goto_ne hx) (fun x hx => see_ne hx) rfl ?_ (by simp [Local.cost]) (fun h => nomatch h)
            (fun y hy => nomatch hy)
          rw [show ((s.see t (readHead o.popLoad (s.view t) i m)).goto t (.popRet none)).view t = _ from see_eq, hhd]
          exact hv
        | some a =>
          rw [hval] at h
          injection h with h; injection h with h1 h2
          subst h1
          have hvw : ((s.see t (readHead o.popLoad (s.view t) i m)).goto t (.popNext a)).view t = _ := see_eq
          refine lower hf ht goto_eq (fun x hx => goto_ne hx) (fun x hx => see_ne hx) rfl ?_ (Nat.le_refl _) (fun _ => rfl) ?_
          · rw [hvw, hhd]; exact hv
          · intro y hy
            injection hy with hy
            rw [hvw, hhd]
            exact Or.inl ⟨m, hm, hval.trans hy⟩
      · cases h
  | popNext a =>
    obtain ⟨c, hc, hd⟩ := hs.inv.deref (t := t) (a := a) (by rw [ht]; rfl)
    rw [ht] at h
    dsimp only at h
    rw [hd] at h
    dsimp only at h
    cases hn : c.next[i]? with
    | none => rw [hn] at h; cases h
    | some p =>
      obtain ⟨ts, nx⟩ := p
      rw [hn] at h
      dsimp only at h
      split at h
      · injection h with h; injection h with h1 h2
        subst h1
        have hvw : ((s.see t ((s.view t).at a ts)).goto t (.popCas a nx)).view t = _ := see_eq
        refine lower hf ht goto_eq (fun x hx => goto_ne hx) (fun x hx => see_ne hx) rfl ?_ (Nat.le_refl _) (fun _ => rfl) ?_
        · rw [hvw]; exact Nat.le_refl _
        · intro y hy
          rw [hvw]
          exact Or.inr ⟨hy, rfl⟩
      · cases h
  | popCas a x =>
    rw [ht] at h
    dsimp only at h
    cases hcas : casHead o.popCas s t i (some a) x (.popSub a) .popLoad with
    | none => rw [hcas] at h; cases h
    | some s'' =>
      rw [hcas] at h
      injection h with h; injection h with h1 h2
      subst h1
      obtain ⟨m, hm, hv, ⟨h1, h2, h3⟩ | ⟨h1, h3⟩⟩ := casHead_cases hcas
      · rw [h3]
        exact casOk_weight hf ht goto_eq (fun x hx => goto_ne hx) (fun x hx => see_ne hx) rfl
          ((congrArg View.head (if_pos rfl : (if t = t then _ else _) = _)).trans h2) rfl rfl rfl rfl
      · rw [h3]
        exact casFail_weight hf hs.inv.hlen ht goto_eq (fun x hx => goto_ne hx) (fun x hx => see_ne hx) rfl
          (congrArg View.head (if_pos rfl : (if t = t then _ else _) = _)) rfl rfl rfl rfl rfl hm hv h1
  | popSub a =>
    rw [ht] at h
    dsimp only at h
    unfold Weak.addLen at h
    cases hm : s.len.getLast? with
    | none => rw [hm] at h; cases h
    | some m =>
      rw [hm] at h
      injection h with h; injection h with h1 h2
      subst h1
      refine lower hf ht goto_eq (fun x hx => goto_ne hx) (fun x hx => see_ne hx) rfl ?_ (Nat.le_refl _) (fun h => nomatch h)
        (fun y hy => nomatch hy)
      simp [State.see, State.goto]
  | popDefer a =>
    rw [ht] at h
    injection h with h; injection h with h1 h2
    subst h1
    exact lower hf ht goto_eq (fun x hx => goto_ne hx) (fun _ _ => rfl) rfl (Nat.le_refl _) (Nat.le_refl _) (fun h => nomatch h)
      (fun y hy => nomatch hy)
  | popRead a =>
    obtain ⟨c, hc, hd⟩ := hs.inv.deref (t := t) (a := a) (by rw [ht]; rfl)
    rw [ht] at h
    dsimp only at h
    rw [hd] at h
    injection h with h; injection h with h1 h2
    subst h1
    exact lower hf ht goto_eq (fun x hx => goto_ne hx) (fun _ _ => rfl) rfl (Nat.le_refl _) (Nat.le_refl _) (fun h => nomatch h)
      (fun y hy => nomatch hy)
  | popRet r =>
    rw [ht] at h
    injection h with h; injection h with h1 h2
    subst h1
    exact hret _ ht (Nat.le_refl 1)

theorem busy_goto {s s' : State n V} {t : Fin n} (h1 : ∀ x, x ≠ t → s'.th x = s.th x) :
    s'.busy + (if (s.th t).pinned then 1 else 0) = s.busy + if (s'.th t).pinned then 1 else 0 := by
  unfold State.busy
  exact Stack.sum_same (f := fun x => if (s'.th x).pinned then 1 else 0) (g := fun x => if (s.th x).pinned then 1 else 0)
    fun x hx => by rw [h1 x hx]

theorem busy_le (s : State n V) : s.busy ≤ n := by
  unfold State.busy
  refine Nat.le_trans (Finset.sum_le_sum (g := fun _ => 1) fun t _ => ?_) (by simp)
  split <;> omega

theorem tick_busy {o : Orders} {s s' : State n V} {evs} {t : Fin n} {i : Nat} (h : tick o s t i = some (s', evs)) :
    s'.busy + returns evs = s.busy + calls evs := by
  have key : ∀ {s' : State n V}, (∀ x, x ≠ t → s'.th x = s.th x) → (s.th t).pinned = true → (s'.th t).pinned = true →
      s'.busy + 0 = s.busy + 0 := by
    intro s' h1 h2 h3
    have := busy_goto h1
    rw [if_pos h2, if_pos h3] at this
    omega
  have hret : (s.th t).pinned = true → ((s.unpin t).clientStep t).busy + 1 = s.busy + 0 := by
    intro h2
    have := busy_goto (s := s) (s' := (s.unpin t).clientStep t) (t := t) (fun x hx => if_neg hx)
    rw [if_pos h2, show ((s.unpin t).clientStep t).th t = .idle from if_pos rfl] at this
    simp [Local.pinned] at this
    omega
  have hcas : ∀ {o i old new yes no s''}, casHead o s t i old new yes no = some s'' → (s.th t).pinned = true →
      yes.pinned = true → no.pinned = true → s''.busy + 0 = s.busy + 0 := by
    intro o i old new yes no s'' h0 h1 h2 h3
    obtain ⟨m, _, _, ⟨_, _, h4⟩ | ⟨_, h4⟩⟩ := casHead_cases h0 <;> subst h4
    · exact key (fun x hx => goto_ne hx) h1 (by rw [goto_eq]; exact h2)
    · exact key (fun x hx => goto_ne hx) h1 (by rw [goto_eq]; exact h3)
  have hadd : ∀ {o d L s''}, addLen o s t d L = some s'' → (s.th t).pinned = true →
      L.pinned = true → s''.busy + 0 = s.busy + 0 := by
    intro o d L s'' h0 h1 h2
    unfold addLen at h0
    split at h0
    · cases h0
    · injection h0 with h0
      subst h0
      exact key (fun x hx => goto_ne hx) h1 (by rw [goto_eq]; exact h2)
  have hmap : ∀ {q : Option (State n V)}, q.map (fun x => (x, ([] : Hist n V))) = some (s', evs) → q = some s' ∧ evs = [] := by
    intro q hq
    cases q with
    | none => cases hq
    | some x => injection hq with hq; injection hq with h1 h2; subst h1; subst h2; exact ⟨rfl, rfl⟩
  unfold tick at h
  cases ht : s.th t <;> rw [ht] at h key hret hcas hadd <;> dsimp only at h <;> (try cases h) <;> (repeat' split at h) <;>
    first
      | cases h; done
      | (obtain ⟨h1, h2⟩ := hmap h; subst h2; exact hcas h1 rfl rfl rfl)
      | (obtain ⟨h1, h2⟩ := hmap h; subst h2; exact hadd h1 rfl rfl)
      | (injection h with h; injection h with h1 h2; subst h1; subst h2
         exact key (fun x hx => goto_ne hx) rfl (by rw [goto_eq]; rfl))
      | (injection h with h; injection h with h1 h2; subst h1; subst h2
         exact key (fun _ _ => rfl) rfl (by show (s.th t).pinned = true; rw [ht]; rfl))
      | exact hret rfl
      | exact key (fun x hx => goto_ne hx) rfl (by rw [goto_eq]; rfl)

/-- A step that is not an access and does not write the head. -/
theorem other_weight {s s' : State n V} {t : Fin n} {L' : Local n V} (hf : Fresh s) (hL : s.th t = .idle)
    (hL' : s'.th t = L') (h1 : ∀ x, x ≠ t → s'.th x = s.th x) (h2 : ∀ x, x ≠ t → s'.view x = s.view x)
    (h3 : s'.head = s.head) (hv : (s.view t).head ≤ (s'.view t).head) (hc : L'.cost ≤ 7) (he : L'.expects = none) :
    s'.weight ≤ s.weight + (if L'.pinned then 3 * n + 7 else 0) ∧ Fresh s' := by
  have hw := weight_step h1 h2 (congrArg List.length h3)
  rw [hL, hL'] at hw
  refine ⟨?_, hf.step h1 h2 ⟨[], by rw [h3, List.append_nil]⟩ fun y hy => ?_⟩
  · cases L' <;> simp [Local.weight, Local.cost, Local.before, Local.pinned] at hw ⊢ <;>
      first | omega | simp [Local.cost] at hc
  · rw [hL', he] at hy
    cases hy

theorem pin_head (s : State n V) (t : Fin n) (sees : Addr → Bool) : (s.view t).head ≤ ((s.pin t sees).view t).head := by
  have : (s.pin t sees).view t = _ := if_pos rfl
  rw [this]
  exact Nat.le_trans (Nat.le_max_left _ _) (foldl_max_ge _ _).1

theorem step_progress {o : Orders} (hrel : o.pushCas = .release) (hacq : o.popLoad = .acquire) {s s' : State n V}
    {H evs : Hist n V} (hg : Good s H) (hf : Fresh s) {a : Action n V} (h : step o s a = some (s', evs)) :
    s'.weight + ticks [a] ≤ s.weight + calls evs * (3 * n + 7) ∧ s'.busy + returns evs = s.busy + calls evs ∧ Fresh s' := by
  have call : ∀ {t : Fin n} {L'} {s' : State n V}, s.th t = .idle → s'.th t = L' → (∀ x, x ≠ t → s'.th x = s.th x) →
      (∀ x, x ≠ t → s'.view x = s.view x) → s'.head = s.head → (s.view t).head ≤ (s'.view t).head → L'.cost ≤ 7 →
      L'.expects = none → L'.pinned = true →
      s'.weight + 0 ≤ s.weight + 1 * (3 * n + 7) ∧ s'.busy + 0 = s.busy + 1 ∧ Fresh s' := by
    intro t L' s' hL hL' h1 h2 h3 hv hc he hp
    obtain ⟨h4, h5⟩ := other_weight hf hL hL' h1 h2 h3 hv hc he
    have h6 := busy_goto h1
    rw [hL, hL', if_pos hp] at h6
    rw [if_pos hp] at h4
    simp only [Local.pinned, Bool.false_eq_true, if_false] at h6
    exact ⟨by omega, by omega, h5⟩
  have quiet : ∀ {t : Fin n} {s' : State n V}, s.th t = .idle → s'.th t = .idle → (∀ x, x ≠ t → s'.th x = s.th x) →
      (∀ x, x ≠ t → s'.view x = s.view x) → s'.head = s.head → (s.view t).head ≤ (s'.view t).head →
      s'.weight + 0 ≤ s.weight + 0 * (3 * n + 7) ∧ s'.busy + 0 = s.busy + 0 ∧ Fresh s' := by
    intro t s' hL hL' h1 h2 h3 hv
    obtain ⟨h4, h5⟩ := other_weight hf hL hL' h1 h2 h3 hv (Nat.zero_le _) rfl
    have h6 := busy_goto h1
    rw [hL, hL'] at h6
    simp only [Local.pinned, Bool.false_eq_true, if_false] at h4 h6
    exact ⟨by omega, by omega, h5⟩
  cases a with
  | push t v a sees =>
    dsimp only [step] at h
    cases ht : s.th t <;> rw [ht] at h <;> try cases h
    cases ha : s.mem a with
    | some c => rw [ha] at h; cases h
    | none =>
      rw [ha] at h
      injection h with h; injection h with h1 h2
      subst h1; subst h2
      refine call (L' := .pushLoad a) ht goto_eq (fun x hx => goto_ne hx) (fun x hx => ?_) rfl ?_ (by simp [Local.cost]) rfl rfl
      · simp [State.goto, State.pin, State.see, State.write, State.clientStep, hx]
      · refine Nat.le_trans ?_ (pin_head _ t sees)
        simp [State.see, State.clientStep, View.at]
  | pop t sees =>
    dsimp only [step] at h
    cases ht : s.th t <;> rw [ht] at h <;> try cases h
    refine call (L' := .popLoad) ht goto_eq (fun x hx => goto_ne hx) (fun x hx => ?_) rfl ?_ (by simp [Local.cost]) rfl rfl
    · simp [State.goto, State.pin, State.see, State.clientStep, hx]
    · refine Nat.le_trans ?_ (pin_head _ t sees)
      rw [clientStep_head]
  | tick t i =>
    obtain ⟨h1, h2, _⟩ := tick_weight hg hf h
    refine ⟨?_, tick_busy h, h2⟩
    have : ticks [Action.tick (V := V) t i] = 1 := rfl
    rw [this]
    omega
  | send t =>
    dsimp only [step] at h
    cases ht : s.th t <;> rw [ht] at h <;> try cases h
    refine quiet (t := t) ht ht (fun x _ => rfl) (fun x hx => see_ne hx) rfl ?_
    exact Nat.le_of_eq (clientStep_head s t t).symm
  | recv t j =>
    dsimp only [step] at h
    cases ht : s.th t <;> rw [ht] at h <;> try cases h
    cases hj : s.posts[j]? with
    | none => rw [hj] at h; cases h
    | some w =>
      rw [hj] at h
      injection h with h; injection h with h1 h2
      subst h1; subst h2
      refine quiet (t := t) ht ht (fun x _ => rfl) (fun x hx => (see_ne hx).trans (see_ne hx)) rfl ?_
      rw [see_eq]
      exact Nat.le_trans (Nat.le_of_eq (clientStep_head s t t).symm) (Nat.le_max_left _ _)
  | reclaim a =>
    dsimp only [step] at h
    have key : ∀ {s' : State n V}, s'.th = s.th → s'.view = s.view → s'.head = s.head →
        s'.weight + 0 ≤ s.weight + 0 * (3 * n + 7) ∧ s'.busy + 0 = s.busy + 0 ∧ Fresh s' := by
      intro s' h1 h2 h3
      unfold State.weight State.busy Fresh
      rw [h1, h2, h3]
      exact ⟨by omega, rfl, hf⟩
    split at h
    · cases h
    · split at h <;> injection h with h <;> injection h with h1 h2 <;> subst h1 <;> subst h2
      · exact key rfl rfl rfl
      · exact key rfl rfl rfl

theorem exec_progress {o : Orders} (hrel : o.pushCas = .release) (hacq : o.popLoad = .acquire) (as : List (Action n V)) :
    ∀ {s s' : State n V} {H evs : Hist n V}, Good s H → Fresh s → exec o s as = some (s', evs) →
    s'.weight + ticks as ≤ s.weight + calls evs * (3 * n + 7) ∧ s'.busy + returns evs = s.busy + calls evs ∧ Fresh s' := by
  induction as with
  | nil =>
    intro s s' H evs _ hf h
    injection h with h; injection h with h1 h2
    subst h1; subst h2
    simp [ticks, calls, returns, hf]
  | cons a as ih =>
    intro s s' H evs hg hf h
    unfold exec at h
    cases hst : step o s a with
    | none => rw [hst] at h; cases h
    | some q =>
      obtain ⟨s1, e1⟩ := q
      rw [hst] at h
      dsimp only at h
      cases hex : exec o s1 as with
      | none => rw [hex] at h; cases h
      | some q =>
        obtain ⟨s2, e2⟩ := q
        rw [hex] at h
        injection h with h; injection h with h1 h2
        subst h1; subst h2
        obtain ⟨h3, h4, hf1⟩ := step_progress hrel hacq hg hf hst
        obtain ⟨h5, h6, hf2⟩ := ih (good_step hrel hacq hg hst) hf1 hex
        have h7 : ticks (a :: as) = ticks [a] + ticks as := by
          rw [← List.singleton_append, ticks, List.countP_append]; rfl
        have h8 : calls (e1 ++ e2) = calls e1 + calls e2 := List.countP_append
        have h9 : returns (e1 ++ e2) = returns e1 + returns e2 := List.countP_append
        rw [h7, h8, h9]
        refine ⟨?_, by omega, hf2⟩
        rw [Nat.add_mul]; omega

theorem fresh_init : Fresh (init n V) := fun _ _ h => nomatch h

/-- C55.  Lock-freedom on weak memory: whatever old writes the loads return, the threads together make at most
`3 n + 7` accesses for each operation that has returned and for each thread.  No fairness is assumed. -/
theorem C55_lock_free_weak (as : List (Action n V)) {s' : State n V} {evs : Hist n V}
    (h : exec code (init n V) as = some (s', evs)) : ticks as ≤ (3 * n + 7) * (returns evs + n) := by
  obtain ⟨h1, h2, _⟩ := exec_progress rfl rfl as good_init fresh_init h
  have h3 : (init n V).weight = 0 := by
    simp [State.weight, init, Local.weight, Local.cost, Local.before]
  have h4 : (init n V).busy = 0 := by
    simp [State.busy, init, Local.pinned]
  have h5 := busy_le s'
  have h6 : calls evs ≤ returns evs + n := by omega
  have h7 : calls evs * (3 * n + 7) ≤ (returns evs + n) * (3 * n + 7) := Nat.mul_le_mul_right _ h6
  rw [Nat.mul_comm]
  omega

/-! ### No access ever blocks -/

/-- No view is ahead of the last write to a node. -/
def View.Cap (s : State n V) (w : View n) : Prop :=
  ∀ a, w.cell a < s.stamp ∧ ∀ c, s.mem a = some c → w.cell a ≤ c.lastTs

/-- This holds of all views a thread can take over. -/
structure Capped (s : State n V) : Prop where
  th : ∀ t, (s.view t).Cap s
  head : ∀ m ∈ s.head, m.view.Cap s
  posts : ∀ w ∈ s.posts, w.Cap s
  next : ∀ a c, s.mem a = some c → c.next ≠ []

theorem capped_init : Capped (init n V) := by
  have h : (View.bot n).Cap (init n V) := fun a => ⟨Nat.zero_lt_one, fun c hc => nomatch hc⟩
  refine ⟨fun _ => h, fun m hm => ?_, fun w hw => (nomatch hw), fun a c hc => (nomatch hc)⟩
  rw [show (init n V).head = [⟨none, .bot n⟩] from rfl, List.mem_singleton] at hm
  subst hm
  exact h

theorem View.Cap.join {s : State n V} {v w : View n} (h : v.Cap s) (h' : w.Cap s) : (v.join w).Cap s := by
  intro a
  refine ⟨Nat.max_lt.2 ⟨(h a).1, (h' a).1⟩, fun c hc => Nat.max_le.2 ⟨(h a).2 c hc, (h' a).2 c hc⟩⟩

theorem View.Cap.cell {s : State n V} {v w : View n} (h : v.Cap s) (e : w.cell = v.cell) : w.Cap s := by
  intro a
  rw [e]
  exact h a

theorem Capped.step {s s' : State n V} (h : Capped s) (t : Fin n) (hm : ∀ w : View n, w.Cap s → w.Cap s')
    (h2 : ∀ x, x ≠ t → s'.view x = s.view x) (h3 : (s'.view t).Cap s')
    (h4 : ∀ m ∈ s'.head, m ∈ s.head ∨ m.view.Cap s') (h5 : ∀ w ∈ s'.posts, w ∈ s.posts ∨ w.Cap s')
    (h6 : ∀ a c, s'.mem a = some c → c.next ≠ []) : Capped s' := by
  refine ⟨fun x => ?_, fun m hm' => (h4 m hm').elim (fun k => hm _ (h.head m k)) id,
    fun w hw => (h5 w hw).elim (fun k => hm _ (h.posts w k)) id, h6⟩
  by_cases hx : x = t
  · subst hx; exact h3
  · rw [h2 x hx]; exact hm _ (h.th x)

/-- Steps that change neither the nodes nor the head nor the messages. -/
theorem Capped.quiet {s s' : State n V} (h : Capped s) (t : Fin n) (hm : s'.mem = s.mem) (hs : s'.stamp = s.stamp)
    (h2 : ∀ x, x ≠ t → s'.view x = s.view x) (h3 : (s'.view t).Cap s) (h4 : s'.head = s.head) (h5 : s'.posts = s.posts) :
    Capped s' := by
  have hmono : ∀ w : View n, w.Cap s → w.Cap s' := fun w hw => by unfold View.Cap; rw [hm, hs]; exact hw
  exact h.step t hmono h2 (hmono _ h3) (fun m hm' => Or.inl (h4 ▸ hm')) (fun w hw => Or.inl (h5 ▸ hw)) (by rw [hm]; exact h.next)

/-- Writing a new stamp at `a`. -/
theorem Capped.stamped {s s' : State n V} {t : Fin n} {a : Addr} {c : Cell n V} {v : View n} (h : Capped s) (hc : c.lastTs = s.stamp)
    (hne : c.next ≠ [])
    (hm : s'.mem = fun x => if x = a then some c else s.mem x) (hs : s'.stamp = s.stamp + 1) (hv : v.Cap s)
    (h2 : ∀ x, x ≠ t → s'.view x = s.view x) (h3 : (s'.view t).cell = (v.at a s.stamp).cell) (h4 : s'.head = s.head)
    (h5 : s'.posts = s.posts) : Capped s' := by
  have hmono : ∀ w : View n, w.Cap s → w.Cap s' := by
    intro w hw x
    rw [hm, hs]
    refine ⟨Nat.lt_succ_of_lt (hw x).1, fun c' hc' => ?_⟩
    dsimp only at hc'
    split at hc'
    · injection hc' with hc'
      subst hc'
      rw [hc]
      exact Nat.le_of_lt (hw x).1
    · exact (hw x).2 c' hc'
  refine h.step t hmono h2 ?_ (fun m hm' => Or.inl (h4 ▸ hm')) (fun w hw => Or.inl (h5 ▸ hw)) fun x c' hc' => ?_
  rotate_left
  · rw [hm] at hc'
    dsimp only at hc'
    split at hc'
    · injection hc' with hc'
      subst hc'
      exact hne
    · exact h.next x c' hc'
  refine View.Cap.cell (v := v.at a s.stamp) (fun x => ?_) h3
  have hx := hmono v hv x
  by_cases hxa : x = a
  · subst hxa
    have e : (v.at x s.stamp).cell x = s.stamp := by
      have := (hv x).1
      simp only [View.at, if_true]
      omega
    rw [e, hs, hm]
    refine ⟨Nat.lt_succ_self _, fun c' hc' => ?_⟩
    simp only [if_true] at hc'
    injection hc' with hc'
    subst hc'
    rw [hc]
  · have e : (v.at a s.stamp).cell x = v.cell x := by simp [View.at, hxa]
    rw [e]
    exact hx

theorem cap_readHead {s : State n V} (o : MemOrd) {w : View n} {i : Nat} {m : Msg (Option Addr) n} (h : w.Cap s)
    (hm : m.view.Cap s) : (readHead o w i m).Cap s := by
  unfold readHead
  dsimp only
  split
  · exact View.Cap.join (h.cell rfl) hm
  · exact h.cell rfl

theorem cap_release {s : State n V} (o : MemOrd) {w : View n} {m : Msg (Option Addr) n} (h : w.Cap s)
    (hm : m.view.Cap s) : (release o w m).Cap s := by
  unfold release
  split
  · exact hm.join h
  · exact hm

theorem Capped.cas {o : MemOrd} {s s' : State n V} {t : Fin n} {i : Nat} {old new : Option Addr} {yes no : Local n V}
    (hc : Capped s) (h : casHead o s t i old new yes no = some s') : Capped s' := by
  obtain ⟨m, hm, _, ⟨_, _, h3⟩ | ⟨_, h3⟩⟩ := casHead_cases h
  · subst h3
    have h1 : ({ s.view t with head := i + 1 } : View n).Cap s := (hc.th t).cell rfl
    refine hc.step t (fun w hw => hw) (fun x hx => see_ne hx) ?_ (fun m' hm' => ?_) (fun w hw => Or.inl hw) hc.next
    · refine h1.cell ?_
      simp [State.see, State.goto]
    · rcases List.mem_append.1 hm' with h | h
      · exact Or.inl h
      · rw [List.mem_singleton] at h
        subst h
        exact Or.inr (cap_release o h1 (hc.head m (List.mem_of_getElem? hm)))
  · subst h3
    refine hc.quiet t rfl rfl (fun x hx => see_ne hx) ?_ rfl rfl
    refine (hc.th t).cell ?_
    simp [State.see, State.goto]

theorem Capped.add {o : MemOrd} {s s' : State n V} {t : Fin n} {d : Int} {L : Local n V}
    (hc : Capped s) (h : addLen o s t d L = some s') : Capped s' := by
  unfold addLen at h
  split at h
  · cases h
  · injection h with h
    subst h
    refine hc.quiet t rfl rfl (fun x hx => see_ne hx) ((hc.th t).cell ?_) rfl rfl
    simp [State.see, State.goto]

theorem Capped.client {s : State n V} (hc : Capped s) (t : Fin n) : Capped (s.clientStep t) := by
  refine hc.quiet t rfl rfl (fun x hx => see_ne hx) ((hc.th t).cell ?_) rfl rfl
  rw [clientStep_eq]

theorem Capped.pinned {s : State n V} (hc : Capped s) (t : Fin n) (sees : Addr → Bool) : Capped (s.pin t sees) := by
  refine hc.quiet t rfl rfl (fun x hx => see_ne hx) ((hc.th t).cell ?_) rfl rfl
  rw [show (s.pin t sees).view t = _ from if_pos rfl]

theorem next_le {c : Cell n V} {st i ts : Nat} {nx : Option Addr} (h : c.Ok st) (hi : c.next[i]? = some (ts, nx)) :
    ts ≤ c.lastTs := by
  unfold Cell.lastTs
  have hs := h.sorted
  cases hn : c.next with
  | nil => rw [hn] at hi; cases hi
  | cons q l =>
    rw [hn] at hi hs
    cases i with
    | zero => injection hi with hi; subst hi; exact Nat.le_refl _
    | succ i =>
      have hmem := List.mem_of_getElem? (show l[i]? = some (ts, nx) from hi)
      rw [List.map_cons, List.pairwise_cons] at hs
      exact Nat.le_of_lt (hs.1 _ (List.mem_map_of_mem hmem))

theorem Capped.mem {s : State n V} (hc : Capped s) (t : Fin n) {L : Local n V} : Capped (s.goto t L) :=
  hc.quiet t rfl rfl (fun _ _ => rfl) (hc.th t) rfl rfl

theorem tick_capped {o : Orders} {s s' : State n V} {H evs : Hist n V} (hg : Good s H) (hc : Capped s) {t : Fin n} {i : Nat}
    (h : tick o s t i = some (s', evs)) : Capped s' := by
  obtain ⟨k, σ, role, ops, adds, cur, hs⟩ := hg
  have hmap : ∀ {q : Option (State n V)}, q.map (fun x => (x, ([] : Hist n V))) = some (s', evs) → q = some s' := by
    intro q hq
    cases q with
    | none => cases hq
    | some x => injection hq with hq; injection hq with h1 h2; subst h1; rfl
  have hbad : Capped s.bad := hc.quiet t rfl rfl (fun _ _ => rfl) (hc.th t) rfl rfl
  have hread : ∀ {o i m L}, s.head[i]? = some m → Capped ((s.see t (readHead o (s.view t) i m)).goto t L) := by
    intro o i m L hm
    refine hc.quiet t rfl rfl (fun x hx => see_ne hx) ?_ rfl rfl
    rw [show ((s.see t (readHead o (s.view t) i m)).goto t L).view t = _ from see_eq]
    exact cap_readHead o (hc.th t) (hc.head m (List.mem_of_getElem? hm))
  have hret : Capped ((s.unpin t).clientStep t) :=
    Capped.client (hc.quiet (s' := s.unpin t) t rfl rfl (fun _ _ => rfl) (hc.th t) rfl rfl) t
  unfold tick at h
  cases ht : s.th t with
  | idle => rw [ht] at h; cases h
  | pushLoad a =>
    rw [ht] at h
    dsimp only at h
    split at h
    · cases h
    · split at h
      · injection h with h; injection h with h1 h2; subst h1
        exact hread (by assumption)
      · cases h
  | pushStore a x =>
    rw [ht] at h
    dsimp only at h
    split at h
    · injection h with h; injection h with h1 h2; subst h1
      exact hbad
    · rename_i c _
      injection h with h; injection h with h1 h2; subst h1
      refine hc.stamped (t := t) (a := a) (c := { c with next := (s.stamp, x) :: c.next }) (v := s.view t) rfl
        (List.cons_ne_nil _ _) rfl rfl (hc.th t)
        (fun x hx => see_ne hx) ?_ rfl rfl
      simp [State.see, State.goto]
  | pushCas a x => rw [ht] at h; exact hc.cas (hmap h)
  | pushAdd => rw [ht] at h; exact hc.add (hmap h)
  | pushRet =>
    rw [ht] at h
    injection h with h; injection h with h1 h2; subst h1
    exact hret
  | popLoad =>
    rw [ht] at h
    dsimp only at h
    split at h
    · cases h
    · split at h
      · split at h <;> injection h with h <;> injection h with h1 h2 <;> subst h1 <;> exact hread (by assumption)
      · cases h
  | popNext a =>
    obtain ⟨c, hm, hd⟩ := hs.inv.deref (t := t) (a := a) (by rw [ht]; rfl)
    rw [ht] at h
    dsimp only at h
    rw [hd] at h
    dsimp only at h
    split at h
    · cases h
    · rename_i ts nx hnx
      split at h
      · rename_i hts
        injection h with h; injection h with h1 h2; subst h1
        refine hc.quiet t rfl rfl (fun x hx => see_ne hx) ?_ rfl rfl
        rw [show ((s.see t ((s.view t).at a ts)).goto t (.popCas a nx)).view t = _ from see_eq]
        have hok := hs.inv.cells a c hm
        have hle := next_le hok hnx
        intro x
        by_cases hx : x = a
        · subst hx
          have e : ((s.view t).at x ts).cell x = ts := by
            simp only [View.at, if_true]
            omega
          rw [e]
          refine ⟨Nat.lt_of_le_of_lt hle hok.last, fun c' hc' => ?_⟩
          rw [hm] at hc'
          injection hc' with hc'
          subst hc'
          exact hle
        · have e : ((s.view t).at a ts).cell x = (s.view t).cell x := by simp [View.at, hx]
          rw [e]
          exact hc.th t x
      · cases h
  | popCas a x => rw [ht] at h; exact hc.cas (hmap h)
  | popSub a => rw [ht] at h; exact hc.add (hmap h)
  | popDefer a =>
    rw [ht] at h
    injection h with h; injection h with h1 h2; subst h1
    exact hc.quiet t rfl rfl (fun _ _ => rfl) (hc.th t) rfl rfl
  | popRead a =>
    rw [ht] at h
    dsimp only at h
    split at h <;> injection h with h <;> injection h with h1 h2 <;> subst h1
    · exact hbad
    · exact hc.mem t
  | popRet r =>
    rw [ht] at h
    injection h with h; injection h with h1 h2; subst h1
    exact hret

theorem step_capped {o : Orders} {s s' : State n V} {H evs : Hist n V} (hg : Good s H) (hc : Capped s) {a : Action n V}
    (h : step o s a = some (s', evs)) : Capped s' := by
  cases a with
  | push t v a sees =>
    dsimp only [step] at h
    cases ht : s.th t <;> rw [ht] at h <;> try cases h
    cases ha : s.mem a with
    | some c => rw [ha] at h; cases h
    | none =>
      rw [ha] at h
      injection h with h; injection h with h1 h2
      subst h1
      have h1 := hc.client t
      have h2 : Capped ({ (s.clientStep t).write a (some ⟨v, s.stamp, [(s.stamp, none)], (t, ((s.clientStep t).view t).clock t)⟩)
          with stamp := s.stamp + 1 }.see t (((s.clientStep t).view t).at a s.stamp)) := by
        refine h1.stamped (t := t) (a := a) (c := ⟨v, s.stamp, [(s.stamp, none)], (t, ((s.clientStep t).view t).clock t)⟩)
          (v := (s.clientStep t).view t) rfl (List.cons_ne_nil _ _) rfl rfl (h1.th t) (fun x hx => see_ne hx) ?_ rfl rfl
        rw [see_eq]
        rfl
      exact (h2.pinned t sees).mem t
  | pop t sees =>
    dsimp only [step] at h
    cases ht : s.th t <;> rw [ht] at h <;> try cases h
    exact ((hc.client t).pinned t sees).mem t
  | tick t i => exact tick_capped hg hc h
  | send t =>
    dsimp only [step] at h
    cases ht : s.th t <;> rw [ht] at h <;> try cases h
    have h1 := hc.client t
    refine h1.step t (fun w hw => hw) (fun _ _ => rfl) (h1.th t) (fun m hm => Or.inl hm) (fun w hw => ?_) h1.next
    rcases List.mem_append.1 hw with hw | hw
    · exact Or.inl hw
    · rw [List.mem_singleton] at hw
      subst hw
      exact Or.inr (h1.th t)
  | recv t j =>
    dsimp only [step] at h
    cases ht : s.th t <;> rw [ht] at h <;> try cases h
    cases hj : s.posts[j]? with
    | none => rw [hj] at h; cases h
    | some w =>
      rw [hj] at h
      injection h with h; injection h with h1 h2
      subst h1
      have h1 := hc.client t
      refine h1.quiet t rfl rfl (fun x hx => see_ne hx) ?_ rfl rfl
      rw [see_eq]
      exact (h1.th t).join (h1.posts w (List.mem_of_getElem? hj))
  | reclaim a =>
    dsimp only [step] at h
    split at h
    · cases h
    · split at h <;> injection h with h <;> injection h with h1 h2 <;> subst h1
      · exact ⟨hc.th, hc.head, hc.posts, hc.next⟩
      · have hmono : ∀ w : View n, w.Cap s → w.Cap (s.write a none) := by
          intro w hw x
          refine ⟨(hw x).1, fun c hc => ?_⟩
          unfold State.write at hc
          dsimp only at hc
          split at hc
          · cases hc
          · exact (hw x).2 c hc
        refine ⟨fun x => hmono _ (hc.th x), fun m hm => hmono _ (hc.head m hm), fun w hw => hmono _ (hc.posts w hw),
          fun x c hx => ?_⟩
        unfold State.write at hx
        dsimp only at hx
        split at hx
        · cases hx
        · exact hc.next x c hx

theorem exec_capped {o : Orders} (hrel : o.pushCas = .release) (hacq : o.popLoad = .acquire) (as : List (Action n V)) :
    ∀ {s s' : State n V} {H evs : Hist n V}, Good s H → Capped s → exec o s as = some (s', evs) → Capped s' := by
  induction as with
  | nil =>
    intro s s' H evs _ hc h
    injection h with h; injection h with h1 h2
    subst h1
    exact hc
  | cons a as ih =>
    intro s s' H evs hg hc h
    unfold exec at h
    cases hst : step o s a with
    | none => rw [hst] at h; cases h
    | some q =>
      obtain ⟨s1, e1⟩ := q
      rw [hst] at h
      dsimp only at h
      cases hex : exec o s1 as with
      | none => rw [hex] at h; cases h
      | some q =>
        obtain ⟨s2, e2⟩ := q
        rw [hex] at h
        injection h with h; injection h with h1 h2
        subst h1
        exact ih (good_step hrel hacq hg hst) (step_capped hg hc hst) hex

/-- In a reachable state a thread inside a call can always make its next access. -/
theorem tick_enabled {o : Orders} {s : State n V} {H : Hist n V} (hg : Good s H) (hc : Capped s) {t : Fin n}
    (ht : s.th t ≠ .idle) : ∃ i s' evs, tick o s t i = some (s', evs) := by
  obtain ⟨k, σ, role, ops, adds, cur, hs⟩ := hg
  have hlen := hs.inv.hlen
  have hvk := hs.inv.vhead t
  obtain ⟨m, hm⟩ : ∃ m, s.head[k]? = some m := ⟨s.head[k], List.getElem?_eq_getElem (by omega)⟩
  have hcas : ∀ {o old new yes no}, ∃ s', casHead o s t k old new yes no = some s' := by
    intro o old new yes no
    unfold casHead
    rw [hm]
    dsimp only
    rw [if_pos hvk]
    split
    · rw [if_pos hlen.symm]; exact ⟨_, rfl⟩
    · exact ⟨_, rfl⟩
  have hadd : ∀ {o d L}, ∃ s', addLen o s t d L = some s' := by
    intro o d L
    unfold addLen
    cases hl : s.len.getLast? with
    | none =>
      rw [List.getLast?_eq_none_iff] at hl
      have := (hs.src.views t).2
      rw [hl] at this
      exact absurd this (Nat.not_lt_zero _)
    | some m => exact ⟨_, rfl⟩
  unfold tick
  cases hL : s.th t with
  | idle => exact absurd hL ht
  | pushLoad a =>
    refine ⟨k, ?_⟩
    dsimp only
    rw [hm]
    dsimp only
    rw [if_pos hvk]
    exact ⟨_, _, rfl⟩
  | pushStore a x =>
    obtain ⟨c, _, hd⟩ := hs.inv.deref (t := t) (a := a) (by rw [hL]; rfl)
    refine ⟨k, ?_⟩
    dsimp only
    rw [hd]
    exact ⟨_, _, rfl⟩
  | pushCas a x =>
    obtain ⟨s', h⟩ := hcas (o := o.pushCas) (old := x) (new := some a) (yes := .pushAdd) (no := .pushLoad a)
    exact ⟨k, s', [], by dsimp only; rw [h]; rfl⟩
  | pushAdd =>
    obtain ⟨s', h⟩ := hadd (o := o.pushAdd) (d := 1) (L := .pushRet)
    exact ⟨k, s', [], by dsimp only; rw [h]; rfl⟩
  | pushRet => exact ⟨k, _, _, rfl⟩
  | popLoad =>
    refine ⟨k, ?_⟩
    dsimp only
    rw [hm]
    dsimp only
    rw [if_pos hvk]
    cases m.val with
    | none => exact ⟨_, _, rfl⟩
    | some a => exact ⟨_, _, rfl⟩
  | popNext a =>
    obtain ⟨c, hmem, hd⟩ := hs.inv.deref (t := t) (a := a) (by rw [hL]; rfl)
    refine ⟨0, ?_⟩
    dsimp only
    rw [hd]
    dsimp only
    have hle := (hc.th t a).2 c hmem
    unfold Cell.lastTs at hle
    cases hn : c.next with
    | nil => exact absurd hn (hc.next a c hmem)
    | cons q l =>
      rw [hn] at hle
      dsimp only [List.getElem?_cons_zero]
      rw [if_pos hle]
      exact ⟨_, _, rfl⟩
  | popCas a x =>
    obtain ⟨s', h⟩ := hcas (o := o.popCas) (old := some a) (new := x) (yes := .popSub a) (no := .popLoad)
    exact ⟨k, s', [], by dsimp only; rw [h]; rfl⟩
  | popSub a =>
    obtain ⟨s', h⟩ := hadd (o := o.popSub) (d := -1) (L := .popDefer a)
    exact ⟨k, s', [], by dsimp only; rw [h]; rfl⟩
  | popDefer a => exact ⟨k, _, _, rfl⟩
  | popRead a =>
    obtain ⟨c, _, hd⟩ := hs.inv.deref (t := t) (a := a) (by rw [hL]; rfl)
    refine ⟨k, ?_⟩
    dsimp only
    rw [hd]
    exact ⟨_, _, rfl⟩
  | popRet r => exact ⟨k, _, _, rfl⟩

theorem reachable_facts {s : State n V} (hr : Reachable code s) : ∃ H, Good s H ∧ Fresh s ∧ Capped s := by
  obtain ⟨as, evs, h⟩ := hr
  exact ⟨_, good_exec rfl rfl as good_init h, (exec_progress rfl rfl as good_init fresh_init h).2.2,
    exec_capped rfl rfl as good_init capped_init h⟩

/-- C55.  No operation ever blocks: a thread inside a call can make its next access, whatever the others are doing. -/
theorem C55_never_blocks_weak {s : State n V} (hr : Reachable code s) {t : Fin n} (ht : s.th t ≠ .idle) :
    ∃ i s' evs, step code s (.tick t i) = some (s', evs) := by
  obtain ⟨H, hg, _, hc⟩ := reachable_facts hr
  exact tick_enabled hg hc ht

theorem solo_bound : ∀ (is : List Nat) {s s' : State n V} {H evs : Hist n V} (t : Fin n), Good s H → Fresh s →
    exec code s (is.map (.tick t)) = some (s', evs) → is.length ≤ s.left t := by
  intro is
  induction is with
  | nil => intro s s' H evs t _ _ _; exact Nat.zero_le _
  | cons i is ih =>
    intro s s' H evs t hg hf h
    rw [List.map_cons] at h
    unfold exec at h
    cases hst : step code s (.tick t i) with
    | none => rw [hst] at h; cases h
    | some q =>
      obtain ⟨s1, e1⟩ := q
      rw [hst] at h
      dsimp only at h
      cases hex : exec code s1 (is.map (.tick t)) with
      | none => rw [hex] at h; cases h
      | some q =>
        obtain ⟨s2, e2⟩ := q
        obtain ⟨_, hf1, h1⟩ := tick_weight hg hf hst
        have := ih t (good_step rfl rfl hg hst) hf1 hex
        rw [List.length_cons]
        omega

theorem solo_exists : ∀ (c : Nat) {s : State n V} {H : Hist n V} (t : Fin n), Good s H → Fresh s → Capped s → s.left t ≤ c →
    ∃ (is : List Nat) (s' : State n V) (evs : Hist n V), exec code s (is.map (.tick t)) = some (s', evs) ∧ s'.th t = .idle := by
  intro c
  induction c with
  | zero =>
    intro s H t hg hf hc hl
    refine ⟨[], s, [], rfl, ?_⟩
    by_contra ht
    obtain ⟨i, s', evs, h⟩ := tick_enabled (o := code) hg hc ht
    have := (tick_weight hg hf h).2.2
    omega
  | succ c ih =>
    intro s H t hg hf hc hl
    by_cases ht : s.th t = .idle
    · exact ⟨[], s, [], rfl, ht⟩
    · obtain ⟨i, s1, e1, h⟩ := tick_enabled (o := code) hg hc ht
      obtain ⟨_, hf1, h1⟩ := tick_weight hg hf h
      have hst : step code s (.tick t i) = some (s1, e1) := h
      obtain ⟨is, s', evs, h2, h3⟩ := ih t (good_step rfl rfl hg hst) hf1 (step_capped hg hc hst) (by omega)
      refine ⟨i :: is, s', e1 ++ evs, ?_, h3⟩
      rw [List.map_cons]
      unfold exec
      rw [hst]
      dsimp only
      rw [h2]

/-- C55.  A thread that runs alone returns from its call, whatever the other threads were doing when they stopped: it
can get there, and however its loads choose among the writes it may still see, it makes at most seven accesses and
three for each write of the head it had not seen. -/
theorem C55_solo_weak {s : State n V} (hr : Reachable code s) (t : Fin n) :
    (∃ (is : List Nat) (s' : State n V) (evs : Hist n V), exec code s (is.map (.tick t)) = some (s', evs) ∧ s'.th t = .idle) ∧
      ∀ (is : List Nat) (s' : State n V) (evs : Hist n V), exec code s (is.map (.tick t)) = some (s', evs) →
        is.length ≤ 7 + 3 * (s.head.length - 1 - (s.view t).head) := by
  obtain ⟨H, hg, hf, hc⟩ := reachable_facts hr
  refine ⟨solo_exists _ t hg hf hc (Nat.le_refl _), fun is s' evs h => ?_⟩
  have h1 := solo_bound is t hg hf h
  have h2 : (s.th t).cost ≤ 7 := by cases s.th t <;> simp [Local.cost]
  unfold State.left State.hidden at h1
  omega

/-- Non-vacuity of C55 on weak memory: thread 0 pushes; thread 1 loads the old, empty head, its compare-and-swap fails
against the new one, and it starts again.  Eight accesses, one return, and thread 1 is still inside its call. -/
example :
    (exec code (init 2 Nat) [.push 0 5 1 (fun _ => false), .push 1 6 2 (fun _ => false), .tick 0 0, .tick 0 0, .tick 0 0,
      .tick 0 0, .tick 0 0, .tick 1 0, .tick 1 0, .tick 1 1]).map (fun q => (returns q.2, calls q.2)) =
      some (1, 2) := by decide

end Verif.Stack.Weak
