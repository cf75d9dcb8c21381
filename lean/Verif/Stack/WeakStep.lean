import Verif.Stack.WeakLin

/-! Every step keeps the invariant, the order of the operations and the origin of the nodes. -/

namespace Verif.Stack.Weak

open Verif.Spec

variable {n : Nat} {V : Type}

/-! ### Origin of the nodes -/

/-- The `k`-th event of thread `u` in the history is a call of `push(v)`. -/
def NthPush (H : Hist n V) (u : Fin n) (k : Nat) (v : V) : Prop :=
  ∃ p : Nat, H[p]? = some (.call u (.push v)) ∧ (H.take (p + 1)).countP (fun e => decide (e.thread = u)) = k

/-- How many events a thread has in the history. -/
def events (H : Hist n V) (u : Fin n) : Nat := H.countP (fun e => decide (e.thread = u))

/-- The clocks of a view are those of events that have happened, and it contains no more of the history of the
counter than there is. -/
def View.Past (H : Hist n V) (l : Nat) (w : View n) : Prop := (∀ u, w.clock u ≤ events H u) ∧ w.len < l

/-- Where the nodes come from. -/
structure Src (s : State n V) (H : Hist n V) : Prop where
  own : ∀ t, events H t ≤ (s.view t).clock t
  views : ∀ t, (s.view t).Past H s.len.length
  heads : ∀ m ∈ s.head, m.view.Past H s.len.length
  posts : ∀ w ∈ s.posts, View.Past H s.len.length w
  cells : ∀ a c, s.mem a = some c → NthPush H c.src.1 c.src.2 c.value
  ret : ∀ t v u k, s.th t = .popRet (some (v, u, k)) → NthPush H u k v ∧ k ≤ (s.view t).clock u

theorem src_init : Src (init n V) [] := by
  constructor <;> simp [init, View.bot, View.Past, events]

theorem NthPush.mono {H : Hist n V} {u : Fin n} {k : Nat} {v : V} (h : NthPush H u k v) (E : Hist n V) :
    NthPush (H ++ E) u k v := by
  obtain ⟨p, h1, h2⟩ := h
  have hp := getElem?_lt h1
  refine ⟨p, ?_, ?_⟩
  · rw [List.getElem?_append_left hp]; exact h1
  · rw [List.take_append_of_le_length (by omega)]; exact h2

theorem events_append (H E : Hist n V) (u : Fin n) : events (H ++ E) u = events H u + events E u :=
  List.countP_append

theorem View.Past.mono {H : Hist n V} {l l' : Nat} {w : View n} (h : w.Past H l) (E : Hist n V) (hl : l ≤ l') :
    w.Past (H ++ E) l' := by
  refine ⟨?_, Nat.lt_of_lt_of_le h.2 hl⟩
  intro u
  rw [events_append]
  exact Nat.le_add_right_of_le (h.1 u)

theorem View.Past.more {H : Hist n V} {l l' : Nat} {w : View n} (h : w.Past H l) (hl : l ≤ l') : w.Past H l' :=
  ⟨h.1, Nat.lt_of_lt_of_le h.2 hl⟩

theorem View.Past.join {H : Hist n V} {l : Nat} {v w : View n} (h : v.Past H l) (h' : w.Past H l) :
    (v.join w).Past H l :=
  ⟨fun u => Nat.max_le.2 ⟨h.1 u, h'.1 u⟩, Nat.max_lt.2 ⟨h.2, h'.2⟩⟩

theorem past_readHead {H : Hist n V} {l : Nat} (o : MemOrd) {w : View n} {i : Nat} {m : Msg (Option Addr) n}
    (h : w.Past H l) (hm : m.view.Past H l) : (readHead o w i m).Past H l := by
  unfold readHead
  dsimp only
  split
  · exact View.Past.join h hm
  · exact h

theorem past_release {H : Hist n V} {l : Nat} (o : MemOrd) {w : View n} {m : Msg (Option Addr) n} (h : w.Past H l)
    (hm : m.view.Past H l) : (release o w m).Past H l := by
  unfold release
  split
  · exact View.Past.join hm h
  · exact hm

/-- A step without event. -/
theorem Src.silent {s s' : State n V} {H : Hist n V} (h : Src s H) (t : Fin n) (ho : Others s s' t)
    (hv : ∀ x, x ≠ t → s'.view x = s.view x) (hl : s.len.length ≤ s'.len.length)
    (hvt : (s'.view t).Past H s'.len.length) (hh : ∀ m ∈ s'.head, m ∈ s.head ∨ m.view.Past H s'.len.length) (hp : s'.posts = s.posts)
    (hc : ∀ a c', s'.mem a = some c' → ∃ c, s.mem a = some c ∧ c.src = c'.src ∧ c.value = c'.value)
    (hr : ∀ v u k, s'.th t = .popRet (some (v, u, k)) → NthPush H u k v ∧ k ≤ (s'.view t).clock u) : Src s' H := by
  refine ⟨?_, ?_, ?_, ?_, ?_, ?_⟩
  · intro x
    exact Nat.le_trans (h.own x) ((ho.view x).2.2.2 x)
  · intro x
    by_cases hx : x = t
    · subst hx; exact hvt
    · rw [hv x hx]; exact (h.views x).more hl
  · intro m hm
    rcases hh m hm with hm | hm
    · exact (h.heads m hm).more hl
    · exact hm
  · rw [hp]; exact fun w hw => (h.posts w hw).more hl
  · intro a c' hc'
    obtain ⟨c, h1, h2, h3⟩ := hc a c' hc'
    rw [← h2, ← h3]
    exact h.cells a c h1
  · intro x v u k hx
    by_cases hxt : x = t
    · subst hxt; exact hr v u k hx
    · rw [ho.th x hxt] at hx
      rw [hv x hxt]
      exact h.ret x v u k hx

/-- A step with an event of thread `t`. -/
theorem Src.event {s s' : State n V} {H : Hist n V} (h : Src s H) (t : Fin n) (ho : Others s s' t)
    (e : HEvent (Fin n) (StackOp V) (StackRes V)) (he : e.thread = t)
    (hv : ∀ x, x ≠ t → s'.view x = s.view x) (hl : s'.len = s.len)
    (hvt : (s'.view t).Past (H ++ [e]) s.len.length)
    (hvo : (s.view t).clock t + 1 ≤ (s'.view t).clock t)
    (hh : s'.head = s.head) (hp : ∀ w ∈ s'.posts, w ∈ s.posts ∨ w.Past (H ++ [e]) s.len.length)
    (hc : ∀ a c', s'.mem a = some c' → s.mem a = some c' ∨ NthPush (H ++ [e]) c'.src.1 c'.src.2 c'.value)
    (hr : ∀ v u k, s'.th t ≠ .popRet (some (v, u, k))) : Src s' (H ++ [e]) := by
  refine ⟨?_, ?_, ?_, ?_, ?_, ?_⟩
  · intro x
    rw [events_append]
    by_cases hx : x = t
    · subst hx
      have := h.own x
      have h1 : events [e] x = 1 := by simp [events, he]
      omega
    · have := h.own x
      have h1 : events [e] x = 0 := by simp [events, he, Ne.symm hx]
      rw [hv x hx]
      omega
  · intro x
    rw [hl]
    by_cases hx : x = t
    · subst hx; exact hvt
    · rw [hv x hx]; exact (h.views x).mono _ (Nat.le_refl _)
  · rw [hh, hl]
    intro m hm
    exact (h.heads m hm).mono _ (Nat.le_refl _)
  · rw [hl]
    intro w hw
    rcases hp w hw with hw | hw
    · exact (h.posts w hw).mono _ (Nat.le_refl _)
    · exact hw
  · intro a c' hc'
    rcases hc a c' hc' with h1 | h1
    · exact (h.cells a c' h1).mono _
    · exact h1
  · intro x v u k hx
    by_cases hxt : x = t
    · subst hxt; exact absurd hx (hr v u k)
    · rw [ho.th x hxt] at hx
      rw [hv x hxt]
      obtain ⟨h1, h2⟩ := h.ret x v u k hx
      exact ⟨h1.mono _, h2⟩

/-! ### All together -/

/-- The invariant of a state together with the history that led to it. -/
structure Sim (s : State n V) (k : Nat) (σ : Nat → List (Elem V)) (role : Addr → Role n) (H : Hist n V)
    (ops : List (Rec V)) (adds : List Nat) (cur : Fin n → Nat) : Prop where
  inv : Inv s k σ role
  lin : Lin s k σ H ops adds cur
  src : Src s H

/-- Some invariant. -/
def Good (s : State n V) (H : Hist n V) : Prop := ∃ k σ role ops adds cur, Sim s k σ role H ops adds cur

theorem good_init : Good (init n V) [] := ⟨_, _, _, _, _, _, inv_init, lin_init, src_init⟩

theorem Others.of {s s' : State n V} {t : Fin n} (h1 : ∀ x, x ≠ t → s'.th x = s.th x)
    (h2 : ∀ x, x ≠ t → s'.view x = s.view x) (h3 : (s.view t).le (s'.view t))
    (h4 : ∀ x, x ≠ t → ∀ a, (s.th x).knows = some a → ∀ c, s.mem a = some c →
      ∃ c', s'.mem a = some c' ∧ c'.value = c.value) : Others s s' t := by
  refine ⟨h1, ?_, h4⟩
  intro x
  by_cases hx : x = t
  · subst hx; exact h3
  · rw [h2 x hx]; exact View.le_refl _

theorem see_ne {s : State n V} {t : Fin n} {w : View n} {x : Fin n} (hx : x ≠ t) : (s.see t w).view x = s.view x :=
  if_neg hx

theorem see_eq {s : State n V} {t : Fin n} {w : View n} : (s.see t w).view t = w := if_pos rfl

theorem goto_ne {s : State n V} {t : Fin n} {L : Local n V} {x : Fin n} (hx : x ≠ t) : (s.goto t L).th x = s.th x :=
  if_neg hx

theorem goto_eq {s : State n V} {t : Fin n} {L : Local n V} : (s.goto t L).th t = L := if_pos rfl

/-- A step that only changes the place and the view of the thread. -/
theorem Sim.move {s : State n V} {k σ role H ops adds cur} (h : Sim s k σ role H ops adds cur) {t : Fin n}
    {w : View n} {L : Local n V} (hinv : Inv ((s.see t w).goto t L) k σ role) (hw : (s.view t).le w)
    (hpast : w.Past H s.len.length) (hd : L.debt = (s.th t).debt) (hti : s.th t ≠ .idle) (hi : L ≠ .idle)
    (hp : ∀ op, Pend s.mem (s.th t) op → Pend s.mem L op) (hdn : ∀ r, Done s.mem (s.th t) r → Done s.mem L r)
    (hr : ∀ v u k, L = .popRet (some (v, u, k)) → NthPush H u k v ∧ k ≤ w.clock u) :
    Sim ((s.see t w).goto t L) k σ role H ops adds cur := by
  have ho : Others s ((s.see t w).goto t L) t := by
    refine Others.of (fun x hx => goto_ne hx) (fun x hx => see_ne hx) ?_ ?_
    · show (s.view t).le ((s.see t w).view t)
      rw [see_eq]; exact hw
    · intro x _ a _ c hc
      exact ⟨c, hc, rfl⟩
  refine ⟨hinv, h.lin.silent t ho rfl rfl (by rw [goto_eq, hd]) (fun _ => by rw [goto_eq]; exact hi) ?_,
    h.src.silent t ho (fun x hx => see_ne hx) (Nat.le_refl _) ?_ (fun m hm => Or.inl hm) rfl (fun a c hc => ⟨c, hc, rfl, rfl⟩) ?_⟩
  · intro _
    have hb := h.lin.busy t hti
    refine ⟨hb.quiet, ?_⟩
    rw [goto_eq]
    show _ ∨ ∃ x ∈ ops, x.pos = cur t ∧ _ ∧ _ ∧ Eff ops adds (cur t) ((s.see t w).view t)
    rw [see_eq]
    rcases hb.phase with ⟨op, h1, h2, h3⟩ | ⟨x, hx, h1, h2, h3, h4⟩
    · exact Or.inl ⟨op, h1, hp op h2, h3⟩
    · exact Or.inr ⟨x, hx, h1, h2, hdn _ h3, h4.mono hw⟩
  · show ((s.see t w).view t).Past H s.len.length
    rw [see_eq]; exact hpast
  · intro v u j hL
    rw [goto_eq] at hL
    show _ ∧ j ≤ ((s.see t w).view t).clock u
    rw [see_eq]
    exact hr v u j hL

theorem see_self (s : State n V) (t : Fin n) : s.see t (s.view t) = s := by
  unfold State.see
  have : (fun x => if x = t then s.view t else s.view x) = s.view := by
    funext x
    split
    · rename_i hx; rw [hx]
    · rfl
  rw [this]

/-- The guard facts of a thread. -/
theorem Inv.pinned {s : State n V} {k σ role} (h : Inv s k σ role) {t : Fin n} (ht : (s.th t).pinned = true) :
    (∀ r ∈ s.retired, r.waits t = true ∨ r.unlink ≤ (s.view t).head) ∧ s.gone ≤ (s.view t).head :=
  ⟨h.pinR t ht, h.pinG t ht⟩

theorem casHead_cases {o : MemOrd} {s s' : State n V} {t : Fin n} {i : Nat} {old new : Option Addr} {yes no : Local n V}
    (h : casHead o s t i old new yes no = some s') :
    ∃ m, s.head[i]? = some m ∧ (s.view t).head ≤ i ∧
      ((m.val = old ∧ i + 1 = s.head.length ∧
        s' = (({ s with head := s.head ++ [Msg.mk new (release o { s.view t with head := i + 1 } m)] }.see t
          { s.view t with head := i + 1 }).goto t yes)) ∨
       (m.val ≠ old ∧ s' = ((s.see t { s.view t with head := i }).goto t no))) := by
  unfold casHead at h
  cases hm : s.head[i]? with
  | none => rw [hm] at h; cases h
  | some m =>
    rw [hm] at h
    dsimp only at h
    split at h
    · rename_i hv
      split at h
      · rename_i hval
        split at h
        · rename_i hlen
          injection h with h
          exact ⟨m, rfl, hv, Or.inl ⟨hval, hlen, h.symm⟩⟩
        · cases h
      · rename_i hval
        injection h with h
        exact ⟨m, rfl, hv, Or.inr ⟨hval, h.symm⟩⟩
    · cases h

theorem view_head_le {w : View n} {i : Nat} (h : w.head ≤ i) : w.le { w with head := i } :=
  ⟨h, Nat.le_refl _, fun _ => Nat.le_refl _, fun _ => Nat.le_refl _⟩

theorem view_at_le (w : View n) (a : Addr) (ts : Nat) : w.le (w.at a ts) := by
  refine ⟨Nat.le_refl _, Nat.le_refl _, fun x => ?_, fun _ => Nat.le_refl _⟩
  simp only [View.at]
  split
  · rename_i hx; rw [hx]; exact Nat.le_max_left _ _
  · exact Nat.le_refl _

theorem prev_extend {k i : Nat} (σ : Nat → List (Elem V)) (l : List (Elem V)) (hi : i ≤ k + 1) :
    prev (extend k σ l) i = prev σ i := by
  cases i with
  | zero => rfl
  | succ i =>
    show vals _ = vals _
    rw [extend_old σ l (by omega)]

/-- The order after an operation that makes write number `k + 1`. -/
theorem stk_extend {s : State n V} {k σ H ops adds cur} (h : Lin s k σ H ops adds cur) (l : List (Elem V))
    (x : Rec V) (hx : x.idx = k + 1) (ha : (lifo V).apply (vals (σ k)) x.op = (vals l, x.res)) :
    ∀ i, i ≤ k + 1 → Executes (lifo V) (prev (extend k σ l) i) (block (ops ++ [x]) i) (vals (extend k σ l i)) := by
  intro i hi
  rw [prev_extend σ l hi, block_snoc]
  by_cases hik : i = k + 1
  · subst hik
    rw [if_pos hx, extend_new, block_empty h.idxk (Nat.lt_succ_self k)]
    have h1 : ((lifo V).apply (vals (σ k)) x.op).2 = x.res := by rw [ha]
    have h2 : ((lifo V).apply (vals (σ k)) x.op).1 = vals l := by rw [ha]
    have := Executes.snoc (x := x.toOpRes) (Executes.nil (O := lifo V) (vals (σ k))) h1
    rw [h2] at this
    exact this
  · rw [if_neg (by omega), extend_old σ l (by omega)]
    exact h.stk i (by omega)

/-- The order after a `try_pop` that reads write number `j`, of an empty stack. -/
theorem stk_none {s : State n V} {k σ H ops adds cur} (h : Lin s k σ H ops adds cur) {j : Nat} (hj : σ j = [])
    (x : Rec V) (hx : x.idx = j) (hop : x.op = .pop) (hres : x.res = .popped none) :
    ∀ i, i ≤ k → Executes (lifo V) (prev σ i) (block (ops ++ [x]) i) (vals (σ i)) := by
  intro i hi
  rw [block_snoc]
  by_cases hik : i = j
  · subst hik
    rw [if_pos hx]
    have he := h.stk i hi
    rw [hj] at he ⊢
    have h1 : ((lifo V).apply (vals ([] : List (Elem V))) x.op).2 = x.res := by rw [hop, hres]; rfl
    have := Executes.snoc (x := x.toOpRes) he h1
    have h2 : ((lifo V).apply (vals ([] : List (Elem V))) x.op).1 = vals [] := by rw [hop]; rfl
    rw [h2] at this
    exact this
  · rw [if_neg (by omega)]
    exact h.stk i hi

theorem not_idle_of {s : State n V} {t : Fin n} {L : Local n V} (h : s.th t = L) (hL : L ≠ .idle) : s.th t ≠ .idle := by
  rw [h]; exact hL

/-! ### Loads -/

theorem Sim.pushLoad {s : State n V} {k σ role H ops adds cur} (h : Sim s k σ role H ops adds cur) (o : MemOrd)
    {t : Fin n} {a : Addr} (ht : s.th t = .pushLoad a) {i : Nat} {m : Msg (Option Addr) n} (hm : s.head[i]? = some m) :
    Sim ((s.see t (readHead o (s.view t) i m)).goto t (.pushStore a m.val)) k σ role H ops adds cur := by
  have hle := le_readHead o (s.view t) i m
  have hik := getElem?_le h.inv.hlen hm
  have hI := h.inv.see t _ hle (readHead_head_le o (h.inv.vhead t) hik (Nat.le_trans (h.inv.mhead i m hm) hik))
  have hth : (s.see t (readHead o (s.view t) i m)).th t = .pushLoad a := ht
  refine h.move ?_ hle (past_readHead o (h.src.views t) (h.src.heads m (List.mem_of_getElem? hm))) (by rw [ht]; rfl)
    (not_idle_of ht (by simp)) (by simp) (by rw [ht]; exact fun _ h => h) (by rw [ht]; exact fun _ h => h)
    (by intro v u j hj; cases hj)
  refine hI.goto t _ (by rw [hth]; rfl) (by rw [hth]; rfl) (fun _ => hI.pinned (by rw [hth]; rfl)) ?_ ?_ ?_
  · intro b hb; cases hb
  · intro b hb
    exact hI.know t b (by rw [hth]; exact hb)
  · intro b x hb; cases hb

/-- What a thread that holds a guard reads from the head is a node it can use until it drops the guard. -/
theorem Inv.fresh {s : State n V} {k σ role} (h : Inv s k σ role) {t : Fin n} (hpin : (s.th t).pinned = true) {i : Nat}
    {m : Msg (Option Addr) n} (hm : s.head[i]? = some m) (hi : (s.view t).head ≤ i) {a : Addr} (ha : m.val = some a) :
    Prot s.retired role t a ∧ ∃ c, s.mem a = some c ∧ c.Seen a m.view := by
  have hik := getElem?_le h.hlen hm
  have htop := h.hval i m hm
  rw [ha] at htop
  cases hσ : σ i with
  | nil => rw [hσ] at htop; cases htop
  | cons e l =>
    rw [hσ] at htop
    have hea : e.addr = a := by
      simp only [top, List.head?_cons, Option.map_some, Option.some.injEq] at htop
      exact htop.symm
    have hmem : e ∈ σ i := by rw [hσ]; exact List.mem_cons_self
    obtain ⟨c, hc, hcb⟩ := h.alive i (Nat.le_trans (h.pinG t hpin) hi) hik e hmem
    obtain ⟨_, h2, h3⟩ := h.cover i m hm e hmem c hc hcb
    rw [hea] at hc h2 h3
    refine ⟨?_, c, hc, h2⟩
    cases hr : role a with
    | free => rw [(h.rfree a).1 hr] at hc; cases hc
    | priv u => exact absurd hr (h3 u)
    | linked => exact Or.inl hr
    | limbo u => exact Or.inr (Or.inl ⟨u, hr⟩)
    | retired =>
      refine Or.inr (Or.inr ⟨hr, ?_⟩)
      intro r hrm hra
      rcases h.pinR t hpin r hrm with h4 | h4
      · exact h4
      · exfalso
        exact (h.uret r hrm).2 i (Nat.le_trans h4 hi) hik e hmem (by rw [hra, hea]) c (by rw [hra]; exact hc) hcb

theorem Sim.popLoad_some {s : State n V} {k σ role H ops adds cur} (h : Sim s k σ role H ops adds cur)
    {t : Fin n} (ht : s.th t = .popLoad) {i : Nat} {m : Msg (Option Addr) n} (hm : s.head[i]? = some m)
    (hi : (s.view t).head ≤ i) {a : Addr} (ha : m.val = some a) :
    Sim ((s.see t (readHead .acquire (s.view t) i m)).goto t (.popNext a)) k σ role H ops adds cur := by
  have hle := le_readHead .acquire (s.view t) i m
  have hik := getElem?_le h.inv.hlen hm
  have hI := h.inv.see t _ hle (readHead_head_le .acquire (h.inv.vhead t) hik (Nat.le_trans (h.inv.mhead i m hm) hik))
  have hth : (s.see t (readHead .acquire (s.view t) i m)).th t = .popLoad := ht
  obtain ⟨hprot, c, hc, hseen⟩ := h.inv.fresh (by rw [ht]; rfl) hm hi ha
  refine h.move ?_ hle (past_readHead .acquire (h.src.views t) (h.src.heads m (List.mem_of_getElem? hm)))
    (by rw [ht]; rfl) (not_idle_of ht (by simp)) (by simp) (by rw [ht]; exact fun _ h => h)
    (by rw [ht]; exact fun _ h => h.elim) (by intro v u j hj; cases hj)
  refine hI.goto t _ (by rw [hth]; rfl) (by rw [hth]; rfl) (fun _ => hI.pinned (by rw [hth]; rfl)) ?_ ?_ ?_
  · intro b hb
    injection hb with hb
    rw [← hb]; exact hprot
  · intro b hb c' hc'
    injection hb with hb
    subst hb
    have : s.mem a = some c' := hc'
    rw [hc] at this
    injection this with this
    subst this
    rw [see_eq]
    exact hseen.mono (readHead_acquire _ _ _)
  · intro b x hb; cases hb

theorem Sim.popLoad_none {s : State n V} {k σ role H ops adds cur} (h : Sim s k σ role H ops adds cur) (o : MemOrd)
    {t : Fin n} (ht : s.th t = .popLoad) {i : Nat} {m : Msg (Option Addr) n} (hm : s.head[i]? = some m)
    (hi : (s.view t).head ≤ i) (ha : m.val = none) :
    Good ((s.see t (readHead o (s.view t) i m)).goto t (.popRet none)) H := by
  have hle := le_readHead o (s.view t) i m
  have hik := getElem?_le h.inv.hlen hm
  have hhk := readHead_head_le o (h.inv.vhead t) hik (Nat.le_trans (h.inv.mhead i m hm) hik)
  have hI := h.inv.see t _ hle hhk
  have hth : (s.see t (readHead o (s.view t) i m)).th t = .popLoad := ht
  have hti := not_idle_of ht (by simp)
  have hσ : σ i = [] := by
    have := h.inv.hval i m hm
    rw [ha] at this
    cases hs : σ i with
    | nil => rfl
    | cons e l => rw [hs] at this; cases this
  have ho : Others s ((s.see t (readHead o (s.view t) i m)).goto t (.popRet none)) t := by
    refine Others.of (fun x hx => goto_ne hx) (fun x hx => see_ne hx) ?_ (fun _ _ _ _ c hc => ⟨c, hc, rfl⟩)
    show (s.view t).le ((s.see t _).view t)
    rw [see_eq]; exact hle
  obtain ⟨op, hop, hpend, -⟩ : ∃ op, H[cur t]? = some (.call t op) ∧ Pend s.mem (s.th t) op ∧ True := by
    rcases (h.lin.busy t hti).phase with ⟨op, h1, h2, _⟩ | ⟨x, _, _, _, h3, _⟩
    · exact ⟨op, h1, h2, trivial⟩
    · rw [ht] at h3; exact h3.elim
  have hopp : op = .pop := by rw [ht] at hpend; exact hpend
  refine ⟨k, σ, role, _, adds, cur, ?_,
    h.lin.effect t ho rfl rfl (.popped none) hti hop hpend i hi ?_ (by rw [goto_eq]; simp) (by rw [goto_eq]; rfl)
      (Nat.le_refl k) hik (stk_none h.lin hσ _ rfl hopp rfl) (by rw [goto_eq, ht]; simp [Local.debt]),
    h.src.silent t ho (fun x hx => see_ne hx) (Nat.le_refl _) ?_ (fun m hm => Or.inl hm) rfl (fun a c hc => ⟨c, hc, rfl, rfl⟩) ?_⟩
  · refine hI.goto t _ (by rw [hth]; rfl) (by rw [hth]; rfl) (fun _ => hI.pinned (by rw [hth]; rfl)) ?_ ?_ ?_
    · intro b hb; cases hb
    · intro b hb; cases hb
    · intro b x hb; cases hb
  · show i ≤ ((s.see t _).view t).head
    rw [see_eq]; exact readHead_head_ge _ _ _ _
  · show ((s.see t _).view t).Past H s.len.length
    rw [see_eq]; exact past_readHead o (h.src.views t) (h.src.heads m (List.mem_of_getElem? hm))
  · intro v u j hj
    rw [goto_eq] at hj; cases hj

theorem Sim.popNext {s : State n V} {k σ role H ops adds cur} (h : Sim s k σ role H ops adds cur)
    {t : Fin n} {a : Addr} (ht : s.th t = .popNext a) {c : Cell n V} (hc : s.mem a = some c) {i ts : Nat}
    {nx : Option Addr} (hi : c.next[i]? = some (ts, nx)) (hts : (s.view t).cell a ≤ ts) :
    Sim ((s.see t ((s.view t).at a ts)).goto t (.popCas a nx)) k σ role H ops adds cur := by
  have hle := view_at_le (s.view t) a ts
  have hI := h.inv.see t _ hle (h.inv.vhead t)
  have hth : (s.see t ((s.view t).at a ts)).th t = .popNext a := ht
  have hk := h.inv.know t a (by rw [ht]; rfl) c hc
  obtain ⟨h1, _⟩ := (h.inv.cells a c hc).read hi (Nat.le_trans hk.1 hts)
  refine h.move ?_ hle (h.src.views t) (by rw [ht]; rfl) (not_idle_of ht (by simp)) (by simp)
    (by rw [ht]; exact fun _ h => h) (by rw [ht]; exact fun _ h => h.elim) (by intro v u j hj; cases hj)
  refine hI.goto t _ (by rw [hth]; rfl) (by rw [hth]; rfl) (fun _ => hI.pinned (by rw [hth]; rfl)) ?_ ?_ ?_
  · intro b hb
    exact hI.prot t b (by rw [hth]; exact hb)
  · intro b hb
    exact hI.know t b (by rw [hth]; exact hb)
  · intro b x hb c' hc'
    injection hb with hb
    injection hb with hb hb'
    subst hb
    subst hb'
    have : s.mem a = some c' := hc'
    rw [hc] at this
    injection this with this
    subst this
    exact h1.symm

theorem Sim.popRead {s : State n V} {k σ role H ops adds cur} (h : Sim s k σ role H ops adds cur)
    {t : Fin n} {a : Addr} (ht : s.th t = .popRead a) {c : Cell n V} (hc : s.mem a = some c) :
    Sim (s.goto t (.popRet (some (c.value, c.src)))) k σ role H ops adds cur := by
  have hk := h.inv.know t a (by rw [ht]; rfl) c hc
  have := h.move (t := t) (w := s.view t) (L := .popRet (some (c.value, c.src))) ?_ (View.le_refl _) (h.src.views t)
    (by rw [ht]; rfl) (not_idle_of ht (by simp)) (by simp) (by rw [ht]; exact fun _ h => h.elim) ?_ ?_
  · rw [see_self] at this; exact this
  · rw [see_self]
    refine h.inv.goto t _ (by rw [ht]; rfl) (by rw [ht]; rfl) (fun _ => h.inv.pinned (by rw [ht]; rfl)) ?_ ?_ ?_
    · intro b hb; cases hb
    · intro b hb; cases hb
    · intro b x hb; cases hb
  · rw [ht]
    rintro r ⟨c', hc', hr⟩
    rw [hc] at hc'
    injection hc' with hc'
    subst hc'
    exact hr
  · intro v u j hj
    injection hj with hj
    injection hj with hj
    injection hj with hj1 hj2
    subst hj1
    have h1 := h.src.cells a c hc
    have h2 := hk.2
    rw [hj2] at h1 h2
    exact ⟨h1, h2⟩

/-! ### Writes -/

theorem Sim.pushStore {s : State n V} {k σ role H ops adds cur} (h : Sim s k σ role H ops adds cur)
    {t : Fin n} {a : Addr} {x : Option Addr} (ht : s.th t = .pushStore a x) {c : Cell n V} (hc : s.mem a = some c) :
    Sim (({ s.write a (some { c with next := (s.stamp, x) :: c.next }) with stamp := s.stamp + 1 }.see t
        ((s.view t).at a s.stamp)).goto t (.pushCas a x)) k σ role H ops adds cur := by
  have hle := view_at_le (s.view t) a s.stamp
  have hI := h.inv.see t _ hle (h.inv.vhead t)
  have hth : (s.see t ((s.view t).at a s.stamp)).th t = .pushStore a x := ht
  have hk := h.inv.know t a (by rw [ht]; rfl) c hc
  have hok := h.inv.cells a c hc
  have hpr : role a = .priv t := (h.inv.rpriv a t).2 (by rw [ht]; rfl)
  have hti := not_idle_of ht (by simp)
  have hmem : ∀ b c', s.mem b = some c' → ∃ c'', (if b = a then some { c with next := (s.stamp, x) :: c.next } else s.mem b)
      = some c'' ∧ c''.value = c'.value := by
    intro b c' hb
    by_cases hba : b = a
    · subst hba
      rw [hc] at hb
      injection hb with hb
      subst hb
      exact ⟨_, if_pos rfl, rfl⟩
    · exact ⟨c', by rw [if_neg hba]; exact hb, rfl⟩
  have ho : Others s (({ s.write a (some { c with next := (s.stamp, x) :: c.next }) with stamp := s.stamp + 1 }.see t
        ((s.view t).at a s.stamp)).goto t (.pushCas a x)) t := by
    refine Others.of (fun x hx => goto_ne hx) (fun x hx => see_ne hx) ?_ (fun _ _ b _ c' hc' => hmem b c' hc')
    show (s.view t).le ((s.see t _).view t)
    rw [see_eq]; exact hle
  refine ⟨?_, h.lin.silent t ho rfl rfl (by rw [goto_eq, ht]; rfl) (fun _ => by rw [goto_eq]; simp) ?_,
    h.src.silent t ho (fun x hx => see_ne hx) (Nat.le_refl _) ?_ (fun m hm => Or.inl hm) rfl ?_ ?_⟩
  · refine hI.store (c := c) (c' := { c with next := (s.stamp, x) :: c.next }) (by rw [hth]; rfl) hc rfl ?_ rfl ?_
      (by rw [hth]; rfl)
    · refine ⟨?_, Nat.lt_succ_self _, ?_⟩
      · exact Nat.le_of_lt (Nat.lt_of_le_of_lt hok.birth hok.last)
      · rw [List.map_cons, List.pairwise_cons]
        refine ⟨?_, hok.sorted⟩
        intro y hy
        have hs := hok.sorted
        have hl := hok.last
        unfold Cell.lastTs at hl
        cases hn : c.next with
        | nil => rw [hn] at hy; cases hy
        | cons p l =>
          rw [hn] at hy hs hl
          rw [List.map_cons, List.pairwise_cons] at hs
          rw [List.map_cons, List.mem_cons] at hy
          rcases hy with hy | hy
          · rw [hy]; exact hl
          · exact Nat.lt_trans (hs.1 y hy) hl
    · rw [see_eq]
      refine ⟨?_, Nat.le_trans hk.2 (hle.2.2.2 _)⟩
      show s.stamp ≤ ((s.view t).at a s.stamp).cell a
      simp [View.at]
  · intro _
    have hb := h.lin.busy t hti
    have hb' := hb.mono (mem' := fun b => if b = a then some { c with next := (s.stamp, x) :: c.next } else s.mem b)
      hle (fun b _ c' hc' => hmem b c' hc')
    refine ⟨hb.quiet, ?_⟩
    rw [goto_eq]
    show _ ∨ ∃ x ∈ ops, x.pos = cur t ∧ _ ∧ _ ∧ Eff ops adds (cur t) ((s.see t _).view t)
    rw [see_eq]
    rw [ht] at hb'
    rcases hb'.phase with ⟨op, h1, h2, h3⟩ | ⟨x, hx, h1, h2, h3, h4⟩
    · exact Or.inl ⟨op, h1, h2, h3⟩
    · exact h3.elim
  · show ((s.see t _).view t).Past H s.len.length
    rw [see_eq]; exact h.src.views t
  · intro b c' hb
    have hb : (if b = a then some { c with next := (s.stamp, x) :: c.next } else s.mem b) = some c' := hb
    by_cases hba : b = a
    · subst hba
      rw [if_pos rfl] at hb
      injection hb with hb
      subst hb
      exact ⟨c, hc, rfl, rfl⟩
    · rw [if_neg hba] at hb
      exact ⟨c', hb, rfl, rfl⟩
  · intro v u j hj
    rw [goto_eq] at hj; cases hj

/-- A compare-and-swap that fails. -/
theorem Sim.casFail {s : State n V} {k σ role H ops adds cur} (h : Sim s k σ role H ops adds cur)
    {t : Fin n} {i : Nat} {m : Msg (Option Addr) n} (hm : s.head[i]? = some m) (hi : (s.view t).head ≤ i)
    (hL : (∃ a x, s.th t = .pushCas a x ∧ L = .pushLoad a) ∨ (∃ a x, s.th t = .popCas a x ∧ L = .popLoad)) :
    Sim ((s.see t { s.view t with head := i }).goto t L) k σ role H ops adds cur := by
  have hle : (s.view t).le { s.view t with head := i } := view_head_le hi
  have hI := h.inv.see t _ hle (getElem?_le h.inv.hlen hm)
  rcases hL with ⟨a, x, ht, rfl⟩ | ⟨a, x, ht, rfl⟩
  · have hth : (s.see t { s.view t with head := i }).th t = .pushCas a x := ht
    refine h.move ?_ hle (h.src.views t) (by rw [ht]; rfl) (not_idle_of ht (by simp)) (by simp)
      (by rw [ht]; exact fun _ h => h) (by rw [ht]; exact fun _ h => h.elim) (by intro v u j hj; cases hj)
    refine hI.goto t _ (by rw [hth]; rfl) (by rw [hth]; rfl) (fun _ => hI.pinned (by rw [hth]; rfl)) ?_ ?_ ?_
    · intro b hb; cases hb
    · intro b hb
      exact hI.know t b (by rw [hth]; exact hb)
    · intro b x hb; cases hb
  · have hth : (s.see t { s.view t with head := i }).th t = .popCas a x := ht
    refine h.move ?_ hle (h.src.views t) (by rw [ht]; rfl) (not_idle_of ht (by simp)) (by simp)
      (by rw [ht]; exact fun _ h => h) (by rw [ht]; exact fun _ h => h.elim) (by intro v u j hj; cases hj)
    refine hI.goto t _ (by rw [hth]; rfl) (by rw [hth]; rfl) (fun _ => hI.pinned (by rw [hth]; rfl)) ?_ ?_ ?_
    · intro b hb; cases hb
    · intro b hb; cases hb
    · intro b x hb; cases hb

theorem Sim.pushCas {s : State n V} {k σ role H ops adds cur} (h : Sim s k σ role H ops adds cur)
    {t : Fin n} {a : Addr} {x : Option Addr} (ht : s.th t = .pushCas a x) {i : Nat} {m : Msg (Option Addr) n}
    (hm : s.head[i]? = some m) (hi : (s.view t).head ≤ i) (hx : m.val = x) (hlen : i + 1 = s.head.length) :
    Good (({ s with head := s.head ++ [Msg.mk (some a) (release .release { s.view t with head := i + 1 } m)] }.see t
          { s.view t with head := i + 1 }).goto t .pushAdd) H := by
  have hik : i = k := by have := h.inv.hlen; omega
  subst hik
  have hti := not_idle_of ht (by simp)
  have hle : (s.view t).le { s.view t with head := i + 1 } := view_head_le (Nat.le_succ_of_le hi)
  have hmh := h.inv.mhead i m hm
  obtain ⟨op, hop, hpend⟩ : ∃ op, H[cur t]? = some (.call t op) ∧ Pend s.mem (s.th t) op := by
    rcases (h.lin.busy t hti).phase with ⟨op, h1, h2, _⟩ | ⟨x, _, _, _, h3, _⟩
    · exact ⟨op, h1, h2⟩
    · rw [ht] at h3; exact h3.elim
  obtain ⟨c, hc, hopc⟩ : ∃ c, s.mem a = some c ∧ op = .push c.value := by rw [ht] at hpend; exact hpend
  have hI := h.inv.link_node ht hm hx hc (w := release .release { s.view t with head := i + 1 } m)
    (le_release _ _ _) (View.le_trans hle (release_release _ _))
    (release_head_le _ (Nat.le_refl _) (Nat.le_succ_of_le hmh)) hi
  have hI' := hI.see t { s.view t with head := i + 1 } hle (Nat.le_refl _)
  have ho : Others s (({ s with head := s.head ++
      [Msg.mk (some a) (release .release { s.view t with head := i + 1 } m)] }.see t
          { s.view t with head := i + 1 }).goto t .pushAdd) t := by
    refine Others.of (fun x hx => goto_ne hx) (fun x hx => see_ne hx) ?_ (fun _ _ _ _ c hc => ⟨c, hc, rfl⟩)
    show (s.view t).le ((s.see t _).view t)
    rw [see_eq]; exact hle
  refine ⟨i + 1, _, _, _, adds, cur, hI',
    h.lin.effect t ho rfl rfl .unit hti hop hpend (i + 1) (Nat.le_succ_of_le hi) ?_ (by rw [goto_eq]; simp)
      (by rw [goto_eq]; rfl) (Nat.le_succ i) (Nat.le_refl _)
      (stk_extend h.lin _ _ rfl (by rw [hopc]; rfl))
      (by rw [goto_eq, ht, extend_new]; simp [Local.debt]),
    h.src.silent t ho (fun x hx => see_ne hx) (Nat.le_refl _) ?_ ?_ rfl (fun a c hc => ⟨c, hc, rfl, rfl⟩) ?_⟩
  · show i + 1 ≤ ((s.see t _).view t).head
    rw [see_eq]
  · show ((s.see t _).view t).Past H s.len.length
    rw [see_eq]; exact h.src.views t
  · intro m' hm'
    rcases List.mem_append.1 hm' with h1 | h1
    · exact Or.inl h1
    · rw [List.mem_singleton.1 h1]
      right
      have hp : View.Past H s.len.length { s.view t with head := i + 1 } := h.src.views t
      exact past_release .release hp (h.src.heads m (List.mem_of_getElem? hm))
  · intro v u j hj
    rw [goto_eq] at hj; cases hj

theorem Sim.popCas {s : State n V} {k σ role H ops adds cur} (h : Sim s k σ role H ops adds cur) (o : MemOrd)
    {t : Fin n} {a : Addr} {x : Option Addr} (ht : s.th t = .popCas a x) {i : Nat} {m : Msg (Option Addr) n}
    (hm : s.head[i]? = some m) (hi : (s.view t).head ≤ i) (hx : m.val = some a) (hlen : i + 1 = s.head.length) :
    Good (({ s with head := s.head ++ [Msg.mk x (release o { s.view t with head := i + 1 } m)] }.see t
          { s.view t with head := i + 1 }).goto t (.popSub a)) H := by
  have hik : i = k := by have := h.inv.hlen; omega
  subst hik
  have hti := not_idle_of ht (by simp)
  have hle : (s.view t).le { s.view t with head := i + 1 } := view_head_le (Nat.le_succ_of_le hi)
  have hmh := h.inv.mhead i m hm
  obtain ⟨op, hop, hpend⟩ : ∃ op, H[cur t]? = some (.call t op) ∧ Pend s.mem (s.th t) op := by
    rcases (h.lin.busy t hti).phase with ⟨op, h1, h2, _⟩ | ⟨x, _, _, _, h3, _⟩
    · exact ⟨op, h1, h2⟩
    · rw [ht] at h3; exact h3.elim
  have hopp : op = .pop := by rw [ht] at hpend; exact hpend
  obtain ⟨e, l, hσ, hea, ⟨c, hc, hce⟩, hI⟩ := h.inv.unlink_node ht hm hx
    (w := release o { s.view t with head := i + 1 } m) (le_release _ _ _)
    (release_head_le _ (Nat.le_refl _) (Nat.le_succ_of_le hmh))
  have hI' := hI { s.view t with head := i + 1 } hle rfl
  have ho : Others s (({ s with head := s.head ++ [Msg.mk x (release o { s.view t with head := i + 1 } m)] }.see t
          { s.view t with head := i + 1 }).goto t (.popSub a)) t := by
    refine Others.of (fun x hx => goto_ne hx) (fun x hx => see_ne hx) ?_ (fun _ _ _ _ c hc => ⟨c, hc, rfl⟩)
    show (s.view t).le ((s.see t _).view t)
    rw [see_eq]; exact hle
  refine ⟨i + 1, _, _, _, adds, cur, hI',
    h.lin.effect t ho rfl rfl (.popped (some c.value)) hti hop hpend (i + 1) (Nat.le_succ_of_le hi) ?_
      (by rw [goto_eq]; simp) (by rw [goto_eq]; exact ⟨c, hc, rfl⟩) (Nat.le_succ i) (Nat.le_refl _)
      (stk_extend h.lin _ _ rfl (by rw [hopp, hσ, hce]; rfl))
      (by rw [goto_eq, ht, extend_new, hσ]; simp [Local.debt]),
    h.src.silent t ho (fun x hx => see_ne hx) (Nat.le_refl _) ?_ ?_ rfl (fun a c hc => ⟨c, hc, rfl, rfl⟩) ?_⟩
  · show i + 1 ≤ ((s.see t _).view t).head
    rw [see_eq]
  · show ((s.see t _).view t).Past H s.len.length
    rw [see_eq]; exact h.src.views t
  · intro m' hm'
    rcases List.mem_append.1 hm' with h1 | h1
    · exact Or.inl h1
    · rw [List.mem_singleton.1 h1]
      right
      have hp : View.Past H s.len.length { s.view t with head := i + 1 } := h.src.views t
      exact past_release o hp (h.src.heads m (List.mem_of_getElem? hm))
  · intro v u j hj
    rw [goto_eq] at hj; cases hj

/-- The counter. -/
theorem Sim.addLen {s : State n V} {k σ role H ops adds cur} (h : Sim s k σ role H ops adds cur) (o : MemOrd)
    {t : Fin n} {L : Local n V}
    (hL : (s.th t = .pushAdd ∧ L = .pushRet) ∨ (∃ a, s.th t = .popSub a ∧ L = .popDefer a))
    {m : Msg Int n} (hm : s.len.getLast? = some m) {d : Int} (hd : (s.th t).debt = d) :
    Good (({ s with len := s.len ++ [Msg.mk (m.val + d) (release o { s.view t with len := s.len.length } m)] }.see t
      { s.view t with len := s.len.length }).goto t L) H := by
  have hvl := (h.src.views t).2
  have hle : (s.view t).le { s.view t with len := s.len.length } :=
    ⟨Nat.le_refl _, Nat.le_of_lt hvl, fun _ => Nat.le_refl _, fun _ => Nat.le_refl _⟩
  have hI := (h.inv.see t { s.view t with len := s.len.length } hle (h.inv.vhead t)).len
    (s.len ++ [Msg.mk (m.val + d) (release o { s.view t with len := s.len.length } m)])
  have ho : Others s (({ s with len := s.len ++
      [Msg.mk (m.val + d) (release o { s.view t with len := s.len.length } m)] }.see t
      { s.view t with len := s.len.length }).goto t L) t := by
    refine Others.of (fun x hx => goto_ne hx) (fun x hx => see_ne hx) ?_ (fun _ _ _ _ c hc => ⟨c, hc, rfl⟩)
    show (s.view t).le ((s.see t _).view t)
    rw [see_eq]; exact hle
  have hti : s.th t ≠ .idle := by
    rcases hL with ⟨h1, _⟩ | ⟨a, h1, _⟩ <;> rw [h1] <;> simp
  have hLi : L ≠ .idle := by
    rcases hL with ⟨_, h1⟩ | ⟨a, _, h1⟩ <;> rw [h1] <;> simp
  have hLd : L.debt = 0 := by
    rcases hL with ⟨_, h1⟩ | ⟨a, _, h1⟩ <;> rw [h1] <;> rfl
  refine ⟨k, σ, role, ops, _, cur, ?_,
    h.lin.add t ho rfl hm (by rw [hd]; rfl) (by rw [goto_eq]; exact hLd) ?_ hti (by rw [goto_eq]; exact hLi) ?_ ?_,
    h.src.silent t ho (fun x hx => see_ne hx) ?_ ?_ (fun m hm => Or.inl hm) rfl (fun a c hc => ⟨c, hc, rfl, rfl⟩) ?_⟩
  · have hth : ({ s.see t { s.view t with len := s.len.length } with len := s.len ++
      [Msg.mk (m.val + d) (release o { s.view t with len := s.len.length } m)] }).th t = s.th t := rfl
    rcases hL with ⟨h1, rfl⟩ | ⟨a, h1, rfl⟩
    · rw [h1] at hth
      refine hI.goto t _ (by rw [hth]; rfl) (by rw [hth]; rfl) (fun _ => hI.pinned (by rw [hth]; rfl)) ?_ ?_ ?_
      · intro b hb; cases hb
      · intro b hb; cases hb
      · intro b x hb; cases hb
    · rw [h1] at hth
      refine hI.goto t _ (by rw [hth]; rfl) (by rw [hth]; rfl) (fun _ => hI.pinned (by rw [hth]; rfl)) ?_ ?_ ?_
      · intro b hb; cases hb
      · intro b hb
        exact hI.know t b (by rw [hth]; exact hb)
      · intro b x hb; cases hb
  · show ((s.see t _).view t).len = s.len.length
    rw [see_eq]
  · intro r hr
    rw [goto_eq]
    rcases hL with ⟨h1, rfl⟩ | ⟨a, h1, rfl⟩ <;> rw [h1] at hr <;> exact hr
  · intro op hop
    rcases hL with ⟨h1, rfl⟩ | ⟨a, h1, rfl⟩ <;> rw [h1] at hop <;> exact hop
  · show s.len.length ≤ (s.len ++ [_]).length
    rw [List.length_append]; omega
  · show ((s.see t _).view t).Past H (s.len ++ [_]).length
    rw [see_eq, List.length_append]
    exact ⟨(h.src.views t).1, Nat.lt_succ_self _⟩
  · intro v u j hj
    rw [goto_eq] at hj
    rcases hL with ⟨_, rfl⟩ | ⟨a, _, rfl⟩ <;> cases hj

theorem Sim.defer {s : State n V} {k σ role H ops adds cur} (h : Sim s k σ role H ops adds cur)
    {t : Fin n} {a : Addr} (ht : s.th t = .popDefer a) :
    Good ({ s with retired := ⟨a, (s.view t).head, fun x => (s.th x).pinned⟩ :: s.retired }.goto t (.popRead a)) H := by
  have ho : Others s ({ s with retired := ⟨a, (s.view t).head, fun x => (s.th x).pinned⟩ :: s.retired }.goto t
      (.popRead a)) t :=
    Others.of (fun x hx => goto_ne hx) (fun x _ => rfl) (View.le_refl _) (fun _ _ _ _ c hc => ⟨c, hc, rfl⟩)
  have hti := not_idle_of ht (by simp)
  refine ⟨k, σ, _, ops, adds, cur, h.inv.defer ht,
    h.lin.silent t ho rfl rfl (by rw [goto_eq, ht]; rfl) (fun _ => by rw [goto_eq]; simp) ?_,
    h.src.silent t ho (fun x hx => rfl) (Nat.le_refl _) (h.src.views t) (fun m hm => Or.inl hm) rfl
      (fun a c hc => ⟨c, hc, rfl, rfl⟩) ?_⟩
  · intro _
    have hb := h.lin.busy t hti
    refine ⟨hb.quiet, ?_⟩
    rw [goto_eq]
    rw [ht] at hb
    rcases hb.phase with ⟨op, h1, h2, h3⟩ | ⟨x, hx, h1, h2, h3, h4⟩
    · exact h2.elim
    · exact Or.inr ⟨x, hx, h1, h2, h3, h4⟩
  · intro v u j hj
    rw [goto_eq] at hj; cases hj

/-- `reclaim` is not a step of any thread. -/
theorem Sim.reclaim {s : State n V} {k σ role H ops adds cur} (h : Sim s k σ role H ops adds cur) {a : Addr}
    {r : Retired n} (hf : s.retired.find? (fun r => r.addr = a ∧ r.ripe = true) = some r) :
    (∃ c, s.mem a = some c) ∧
    Good { s.write a none with gone := max s.gone r.unlink,
                               retired := s.retired.eraseP (fun r => r.addr = a ∧ r.ripe = true) } H := by
  obtain ⟨h1, h2, h3⟩ := h.inv.reclaim hf
  refine ⟨h1, k, σ, _, ops, adds, cur, h3, ?_, ?_⟩
  · refine { h.lin with busy := ?_ }
    intro t ht
    refine (h.lin.busy t ht).mono (View.le_refl _) ?_
    intro b hb c hc
    refine ⟨c, ?_, rfl⟩
    show (if b = a then none else s.mem b) = some c
    rw [if_neg]
    · exact hc
    · rintro rfl
      exact h2 t hb
  · refine { h.src with cells := ?_ }
    intro b c hc
    have hc : (if b = a then none else s.mem b) = some c := hc
    by_cases hba : b = a
    · rw [if_pos hba] at hc; cases hc
    · rw [if_neg hba] at hc
      exact h.src.cells b c hc

/-! ### Events -/

theorem clientStep_eq (s : State n V) (t : Fin n) : (s.clientStep t).view t =
    { s.view t with clock := fun x => if x = t then (s.view t).clock t + 1 else (s.view t).clock x } := see_eq

theorem past_clientStep {s : State n V} {H : Hist n V} {t : Fin n} (h : (s.view t).Past H s.len.length)
    (e : HEvent (Fin n) (StackOp V) (StackRes V)) (he : e.thread = t) :
    ((s.clientStep t).view t).Past (H ++ [e]) s.len.length := by
  rw [clientStep_eq]
  refine ⟨?_, h.2⟩
  intro u
  have h1 := h.1 u
  have h2 := h.1 t
  rw [events_append]
  show (if u = t then _ else _) ≤ _
  by_cases hu : u = t
  · subst hu
    have h1 : events [e] u = 1 := by simp [events, he]
    rw [if_pos rfl]
    omega
  · rw [if_neg hu]
    omega

theorem unpin_ne {s : State n V} {t x : Fin n} (hx : x ≠ t) : (s.unpin t).th x = s.th x := if_neg hx

/-- A return. -/
theorem Sim.ret {s : State n V} {k σ role H ops adds cur} (h : Sim s k σ role H ops adds cur) {t : Fin n}
    {res : StackRes V} (hL : (s.th t = .pushRet ∧ res = .unit) ∨
      (∃ r, s.th t = .popRet r ∧ res = .popped (r.map (·.1)))) :
    Good ((s.unpin t).clientStep t) (H ++ [.ret t res]) := by
  have hth : ((s.unpin t).clientStep t).th t = .idle := if_pos rfl
  have ho : Others s ((s.unpin t).clientStep t) t := by
    refine Others.of (fun x hx => unpin_ne hx) (fun x hx => see_ne hx) ?_ (fun _ _ _ _ c hc => ⟨c, hc, rfl⟩)
    exact clientStep_le (s.unpin t) t t
  have hI : Inv ((s.unpin t).clientStep t) k σ role := by
    refine (h.inv.unpin t ?_ ?_).clientStep t <;> rcases hL with ⟨h1, _⟩ | ⟨r, h1, _⟩ <;> rw [h1] <;> rfl
  refine ⟨k, σ, role, ops, adds, cur, hI,
    h.lin.event t ho (.ret t res) rfl rfl ?_ (Or.inl ⟨rfl, rfl⟩) (by intro u j hj; cases hj) cur (fun _ _ => rfl) ?_ ?_
      (fun hne => absurd hth hne),
    h.src.event t ho (.ret t res) rfl (fun x hx => see_ne hx) rfl (past_clientStep (s := s.unpin t) (h.src.views t) _ rfl) ?_
      rfl (fun w hw => Or.inl hw) (fun a c hc => Or.inl hc) (by intro v u j hj; rw [hth] at hj; cases hj)⟩
  · rw [hth]
    rcases hL with ⟨h1, _⟩ | ⟨r, h1, _⟩ <;> rw [h1] <;> rfl
  · intro u res' he
    injection he with _ he
    subst he
    rcases hL with ⟨h1, h2⟩ | ⟨r, h1, h2⟩
    · refine ⟨not_idle_of h1 (by simp), ?_⟩
      rw [h1, h2]; exact fun _ h => h
    · refine ⟨not_idle_of h1 (by simp), ?_⟩
      rw [h1, h2]; exact fun _ h => h
  · intro _
    refine ⟨⟨t, res, rfl⟩, ?_⟩
    intro op hop
    rcases hL with ⟨h1, h2⟩ | ⟨r, h1, h2⟩ <;> rw [h1] at hop <;> exact hop
  · rw [clientStep_eq]
    show _ ≤ (if t = t then _ else _)
    simp
    exact Nat.le_refl _

/-- A call begins. -/
theorem Lin.call_busy {s : State n V} {k σ H ops adds cur} (h : Lin s k σ H ops adds cur) {mem : Addr → Option (Cell n V)}
    (t : Fin n) (op : StackOp V) {L : Local n V} (hp : Pend mem L op) (w : View n) :
    Busy mem (H ++ [.call t op]) ops adds t L w H.length := by
  refine ⟨?_, Or.inl ⟨op, getElem?_snoc_eq _ _, hp, ?_, ?_⟩⟩
  · intro m e hm he
    have := getElem?_lt he
    rw [List.length_append, List.length_singleton] at this
    omega
  · intro x hx hp
    obtain ⟨_, h1⟩ := h.called x hx
    have := getElem?_lt h1
    omega
  · intro hmem
    obtain ⟨x, hx, h1⟩ := h.addOps _ hmem
    obtain ⟨_, h2⟩ := h.called x hx
    have := getElem?_lt h2
    omega

theorem Sim.pop {s : State n V} {k σ role H ops adds cur} (h : Sim s k σ role H ops adds cur) {t : Fin n}
    (ht : s.th t = .idle) (sees : Addr → Bool) :
    Good (((s.clientStep t).pin t sees).goto t .popLoad) (H ++ [.call t .pop]) := by
  have hI := h.inv.clientStep t
  obtain ⟨hI, hpin⟩ := hI.pin t sees ht
  have hpv := pin_view_le (s.clientStep t) t sees t
  have ho : Others s (((s.clientStep t).pin t sees).goto t .popLoad) t := by
    refine Others.of (fun x hx => goto_ne hx) (fun x hx => (see_ne hx).trans (see_ne hx)) ?_
      (fun _ _ _ _ c hc => ⟨c, hc, rfl⟩)
    exact View.le_trans (clientStep_le s t t) hpv
  refine ⟨k, σ, role, ops, adds, fun x => if x = t then H.length else cur x, ?_,
    h.lin.event t ho (.call t .pop) rfl rfl (by rw [goto_eq, ht]; rfl) (Or.inl ⟨rfl, rfl⟩) (by intro u j hj; cases hj)
      (fun x => if x = t then H.length else cur x) (fun _ hx => if_neg hx) (by intro u r hr; cases hr)
      (fun hne => absurd ht hne) ?_,
    h.src.event t ho (.call t .pop) rfl (fun x hx => (see_ne hx).trans (see_ne hx)) rfl ?_ ?_
      rfl (fun w hw => Or.inl hw) (fun a c hc => Or.inl hc) (by intro v u j hj; rw [goto_eq] at hj; cases hj)⟩
  · refine hI.goto t _ ?_ ?_ (fun _ => hpin) ?_ ?_ ?_
    · show _ = (s.th t).owned
      rw [ht]; rfl
    · show _ = (s.th t).limbo
      rw [ht]; rfl
    · intro b hb; cases hb
    · intro b hb; cases hb
    · intro b x hb; cases hb
  · intro _
    rw [goto_eq, if_pos rfl]
    refine h.lin.call_busy t .pop ?_ _
    exact rfl
  · show (((s.clientStep t).pin t sees).view t).Past _ _
    have := past_clientStep (h.src.views t) (.call t .pop) rfl
    unfold State.pin
    dsimp only
    rw [see_eq]
    exact this
  · show _ ≤ (((s.clientStep t).pin t sees).view t).clock t
    refine Nat.le_trans ?_ (hpv.2.2.2 t)
    rw [clientStep_eq]
    show _ ≤ (if t = t then _ else _)
    simp

theorem Sim.push {s : State n V} {k σ role H ops adds cur} (h : Sim s k σ role H ops adds cur) {t : Fin n}
    (ht : s.th t = .idle) {a : Addr} (ha : s.mem a = none) (v : V) (sees : Addr → Bool) :
    Good (((({ (s.clientStep t).write a (some ⟨v, s.stamp, [(s.stamp, none)], (t, ((s.clientStep t).view t).clock t)⟩)
      with stamp := s.stamp + 1 }).see t (((s.clientStep t).view t).at a s.stamp)).pin t sees).goto t (.pushLoad a))
      (H ++ [.call t (.push v)]) := by
  have hI := h.inv.clientStep t
  have hatle := view_at_le ((s.clientStep t).view t) a s.stamp
  have hI := hI.see t (((s.clientStep t).view t).at a s.stamp) hatle (hI.vhead t)
  obtain ⟨hI, hpin⟩ := hI.pin t sees ht
  have hpv := pin_view_le ((s.clientStep t).see t (((s.clientStep t).view t).at a s.stamp)) t sees t
  rw [see_eq] at hpv
  have hcl : (s.view t).clock t + 1 = ((s.clientStep t).view t).clock t := by
    rw [clientStep_eq]
    show _ = (if t = t then _ else _)
    rw [if_pos rfl]
  have hI := hI.alloc (c := ⟨v, s.stamp, [(s.stamp, none)], (t, ((s.clientStep t).view t).clock t)⟩) (t := t) (a := a) ht ha
    rfl rfl (List.pairwise_singleton _ _) ?_ hpin
  · have hmem : ∀ x, x ≠ t → ∀ b, (s.th x).knows = some b → b ≠ a := by
      rintro x _ b hb rfl
      obtain ⟨c, hc⟩ := h.inv.know_alloc hb
      rw [ha] at hc; cases hc
    have hvne : ∀ x, x ≠ t → ((((({ (s.clientStep t).write a
        (some ⟨v, s.stamp, [(s.stamp, none)], (t, ((s.clientStep t).view t).clock t)⟩)
        with stamp := s.stamp + 1 } : State n V).see t (((s.clientStep t).view t).at a s.stamp)).pin t sees).goto t
        (.pushLoad a)).view x) = s.view x :=
      fun x hx => (see_ne hx).trans ((see_ne hx).trans (see_ne hx))
    have ho : Others s ((((({ (s.clientStep t).write a
        (some ⟨v, s.stamp, [(s.stamp, none)], (t, ((s.clientStep t).view t).clock t)⟩)
        with stamp := s.stamp + 1 } : State n V).see t (((s.clientStep t).view t).at a s.stamp)).pin t sees).goto t
        (.pushLoad a))) t := by
      refine Others.of (fun x hx => goto_ne hx) hvne ?_ ?_
      · exact View.le_trans (clientStep_le s t t) (View.le_trans hatle hpv)
      · intro x hx b hb c hc
        refine ⟨c, ?_, rfl⟩
        show (if b = a then _ else s.mem b) = some c
        rw [if_neg (hmem x hx b hb)]
        exact hc
    refine ⟨k, σ, _, ops, adds, fun x => if x = t then H.length else cur x, hI,
      h.lin.event t ho (.call t (.push v)) rfl rfl (by rw [goto_eq, ht]; rfl) (Or.inl ⟨rfl, rfl⟩)
        (by intro u j hj; cases hj)
        (fun x => if x = t then H.length else cur x) (fun _ hx => if_neg hx) (by intro u r hr; cases hr)
        (fun hne => absurd ht hne) ?_,
      h.src.event t ho (.call t (.push v)) rfl hvne rfl ?_ ?_
        rfl (fun w hw => Or.inl hw) ?_ (by intro v u j hj; rw [goto_eq] at hj; cases hj)⟩
    · intro _
      rw [goto_eq, if_pos rfl]
      refine h.lin.call_busy t (.push v) ?_ _
      exact ⟨_, if_pos rfl, rfl⟩
    · have := past_clientStep (h.src.views t) (.call t (.push v)) rfl
      show View.Past _ _ (((s.clientStep t).see t (((s.clientStep t).view t).at a s.stamp)).pin t sees |>.view t)
      unfold State.pin
      dsimp only
      rw [see_eq, see_eq]
      exact this
    · refine Nat.le_trans ?_ (hpv.2.2.2 t)
      rw [hcl]
      exact hatle.2.2.2 t
    · intro b c hc
      have hc : (if b = a then some (⟨v, s.stamp, [(s.stamp, none)], (t, ((s.clientStep t).view t).clock t)⟩ : Cell n V)
        else s.mem b) = some c := hc
      by_cases hba : b = a
      · rw [if_pos hba] at hc
        injection hc with hc
        subst hc
        refine Or.inr ⟨H.length, getElem?_snoc_eq _ _, ?_⟩
        have h1 : (H ++ [HEvent.call t (StackOp.push v)]).take (H.length + 1) = H ++ [HEvent.call t (StackOp.push v)] :=
          List.take_of_length_le (by simp)
        rw [h1]
        show events (H ++ [.call t (.push v)]) t = ((s.clientStep t).view t).clock t
        rw [← hcl, events_append]
        have h2 : events [HEvent.call t (StackOp.push v)] t = 1 := by simp [events, HEvent.thread]
        have := h.src.own t
        have := (h.src.views t).1 t
        omega
      · rw [if_neg hba] at hc
        exact Or.inl hc
  · refine ⟨?_, ?_⟩
    · refine Nat.le_trans ?_ (hpv.2.2.1 a)
      show s.stamp ≤ (((s.clientStep t).view t).at a s.stamp).cell a
      simp [View.at]
    · refine Nat.le_trans ?_ (hpv.2.2.2 t)
      exact hatle.2.2.2 t

theorem Sim.send {s : State n V} {k σ role H ops adds cur} (h : Sim s k σ role H ops adds cur) {t : Fin n}
    (ht : s.th t = .idle) :
    Good { s.clientStep t with posts := s.posts ++ [(s.clientStep t).view t] } (H ++ [.send t]) := by
  have hI := h.inv.clientStep t
  have hI := hI.post ((s.clientStep t).view t) (hI.vhead t)
  have ho : Others s { s.clientStep t with posts := s.posts ++ [(s.clientStep t).view t] } t :=
    Others.of (fun x hx => rfl) (fun x hx => see_ne hx) (clientStep_le s t t) (fun _ _ _ _ c hc => ⟨c, hc, rfl⟩)
  have hp := past_clientStep (h.src.views t) (.send t) rfl
  refine ⟨k, σ, role, ops, adds, cur, hI,
    h.lin.event t ho (.send t) rfl rfl rfl (Or.inr ⟨rfl, rfl⟩) (by intro u j hj; cases hj) cur (fun _ _ => rfl)
      (by intro u r hr; cases hr) (fun hne => absurd ht hne) (fun hne => absurd ht hne),
    h.src.event t ho (.send t) rfl (fun x hx => see_ne hx) rfl hp ?_ rfl ?_ (fun a c hc => Or.inl hc)
      (by intro v u j hj; rw [show (s.th t) = _ from hj] at ht; cases ht)⟩
  · show _ ≤ ((s.clientStep t).view t).clock t
    rw [clientStep_eq]
    show _ ≤ (if t = t then _ else _)
    simp
  · intro w hw
    rcases List.mem_append.1 hw with hw | hw
    · exact Or.inl hw
    · rw [List.mem_singleton.1 hw]; exact Or.inr hp

theorem Sim.recv {s : State n V} {k σ role H ops adds cur} (h : Sim s k σ role H ops adds cur) {t : Fin n}
    (ht : s.th t = .idle) {j : Nat} {w : View n} (hj : s.posts[j]? = some w) :
    Good ((s.clientStep t).see t (((s.clientStep t).view t).join w)) (H ++ [.recv t j]) := by
  have hI := h.inv.clientStep t
  have hI := hI.see t (((s.clientStep t).view t).join w) (View.le_join_left _ _)
    (Nat.max_le.2 ⟨hI.vhead t, h.inv.phead w (List.mem_of_getElem? hj)⟩)
  have hle : (s.view t).le (((s.clientStep t).see t (((s.clientStep t).view t).join w)).view t) := by
    rw [see_eq]
    exact View.le_trans (clientStep_le s t t) (View.le_join_left _ _)
  have ho : Others s ((s.clientStep t).see t (((s.clientStep t).view t).join w)) t :=
    Others.of (fun x hx => rfl) (fun x hx => (see_ne hx).trans (see_ne hx)) hle (fun _ _ _ _ c hc => ⟨c, hc, rfl⟩)
  have hp := past_clientStep (h.src.views t) (.recv t j) rfl
  refine ⟨k, σ, role, ops, adds, cur, hI,
    h.lin.event t ho (.recv t j) rfl rfl rfl (Or.inl ⟨rfl, rfl⟩) ?_ cur (fun _ _ => rfl)
      (by intro u r hr; cases hr) (fun hne => absurd ht hne) (fun hne => absurd ht hne),
    h.src.event t ho (.recv t j) rfl (fun x hx => (see_ne hx).trans (see_ne hx)) rfl ?_ ?_ rfl (fun w hw => Or.inl hw)
      (fun a c hc => Or.inl hc) (by intro v u j hj; rw [show (s.th t) = _ from hj] at ht; cases ht)⟩
  · intro u j' he
    injection he with _ he
    subst he
    refine ⟨w, hj, ?_⟩
    rw [see_eq]
    exact View.le_join_right _ _
  · rw [see_eq]
    exact hp.join ((h.src.posts w (List.mem_of_getElem? hj)).mono _ (Nat.le_refl _))
  · rw [see_eq]
    refine Nat.le_trans ?_ ((View.le_join_left ((s.clientStep t).view t) w).2.2.2 t)
    rw [clientStep_eq]
    show _ ≤ (if t = t then _ else _)
    simp

/-! ### Every step -/

theorem good_tick {o : Orders} (hrel : o.pushCas = .release) (hacq : o.popLoad = .acquire) {s s' : State n V}
    {H evs : Hist n V} (hg : Good s H) {t : Fin n} {i : Nat} (h : tick o s t i = some (s', evs)) :
    Good s' (H ++ evs) := by
  obtain ⟨k, σ, role, ops, adds, cur, hs⟩ := hg
  have good : ∀ {s''}, Sim s'' k σ role H ops adds cur → Good s'' H := fun h => ⟨_, _, _, _, _, _, h⟩
  unfold tick at h
  cases ht : s.th t with
  | idle => rw [ht] at h; cases h
  | pushLoad a =>
    rw [ht] at h
    dsimp only at h
    cases hm : s.head[i]? with
    | none => rw [hm] at h; cases h
    | some m =>
      rw [hm] at h
      dsimp only at h
      split at h
      · injection h with h; injection h with h1 h2
        subst h1; subst h2
        rw [List.append_nil]
        exact good (hs.pushLoad _ ht hm)
      · cases h
  | pushStore a x =>
    obtain ⟨c, hc, hd⟩ := hs.inv.deref (t := t) (a := a) (by rw [ht]; rfl)
    rw [ht] at h
    dsimp only at h
    rw [hd] at h
    injection h with h; injection h with h1 h2
    subst h1; subst h2
    rw [List.append_nil]
    exact good (hs.pushStore ht hc)
  | pushCas a x =>
    rw [ht] at h
    dsimp only at h
    cases hcas : casHead o.pushCas s t i x (some a) .pushAdd (.pushLoad a) with
    | none => rw [hcas] at h; cases h
    | some s'' =>
      rw [hcas] at h
      injection h with h; injection h with h1 h2
      subst h1; subst h2
      rw [List.append_nil]
      obtain ⟨m, hm, hv, ⟨h1, h2, h3⟩ | ⟨h1, h3⟩⟩ := casHead_cases hcas
      · rw [h3, hrel]
        exact hs.pushCas ht hm hv h1 h2
      · rw [h3]
        exact good (hs.casFail hm hv (Or.inl ⟨a, x, ht, rfl⟩))
  | pushAdd =>
    rw [ht] at h
    dsimp only at h
    unfold Weak.addLen at h
    cases hm : s.len.getLast? with
    | none => rw [hm] at h; cases h
    | some m =>
      rw [hm] at h
      injection h with h; injection h with h1 h2
      subst h1; subst h2
      rw [List.append_nil]
      exact hs.addLen _ (Or.inl ⟨ht, rfl⟩) hm (by rw [ht]; rfl)
  | pushRet =>
    rw [ht] at h
    injection h with h; injection h with h1 h2
    subst h1; subst h2
    exact hs.ret (Or.inl ⟨ht, rfl⟩)
  | popLoad =>
    rw [ht] at h
    dsimp only at h
    cases hm : s.head[i]? with
    | none => rw [hm] at h; cases h
    | some m =>
      rw [hm] at h
      dsimp only at h
      split at h
      · rename_i hv
        cases hval : m.val with
        | none =>
          rw [hval] at h
          injection h with h; injection h with h1 h2
          subst h1; subst h2
          rw [List.append_nil]
          exact hs.popLoad_none _ ht hm hv hval
        | some a =>
          rw [hval] at h
          injection h with h; injection h with h1 h2
          subst h1; subst h2
          rw [List.append_nil, hacq]
          exact good (hs.popLoad_some ht hm hv hval)
      · cases h
  | popNext a =>
    obtain ⟨c, hc, hd⟩ := hs.inv.deref (t := t) (a := a) (by rw [ht]; rfl)
    rw [ht] at h
    dsimp only at h
    rw [hd] at h
    dsimp only at h
    cases hn : c.next[i]? with
    | none => rw [hn] at h; cases h
    | some p =>
      obtain ⟨ts, nx⟩ := p
      rw [hn] at h
      dsimp only at h
      split at h
      · rename_i hts
        injection h with h; injection h with h1 h2
        subst h1; subst h2
        rw [List.append_nil]
        exact good (hs.popNext ht hc hn hts)
      · cases h
  | popCas a x =>
    rw [ht] at h
    dsimp only at h
    cases hcas : casHead o.popCas s t i (some a) x (.popSub a) .popLoad with
    | none => rw [hcas] at h; cases h
    | some s'' =>
      rw [hcas] at h
      injection h with h; injection h with h1 h2
      subst h1; subst h2
      rw [List.append_nil]
      obtain ⟨m, hm, hv, ⟨h1, h2, h3⟩ | ⟨h1, h3⟩⟩ := casHead_cases hcas
      · rw [h3]
        exact hs.popCas _ ht hm hv h1 h2
      · rw [h3]
        exact good (hs.casFail hm hv (Or.inr ⟨a, x, ht, rfl⟩))
  | popSub a =>
    rw [ht] at h
    dsimp only at h
    unfold Weak.addLen at h
    cases hm : s.len.getLast? with
    | none => rw [hm] at h; cases h
    | some m =>
      rw [hm] at h
      injection h with h; injection h with h1 h2
      subst h1; subst h2
      rw [List.append_nil]
      exact hs.addLen _ (Or.inr ⟨a, ht, rfl⟩) hm (by rw [ht]; rfl)
  | popDefer a =>
    rw [ht] at h
    injection h with h; injection h with h1 h2
    subst h1; subst h2
    rw [List.append_nil]
    exact hs.defer ht
  | popRead a =>
    obtain ⟨c, hc, hd⟩ := hs.inv.deref (t := t) (a := a) (by rw [ht]; rfl)
    rw [ht] at h
    dsimp only at h
    rw [hd] at h
    injection h with h; injection h with h1 h2
    subst h1; subst h2
    rw [List.append_nil]
    exact good (hs.popRead ht hc)
  | popRet r =>
    rw [ht] at h
    injection h with h; injection h with h1 h2
    subst h1; subst h2
    exact hs.ret (Or.inr ⟨r, ht, rfl⟩)

theorem good_step {o : Orders} (hrel : o.pushCas = .release) (hacq : o.popLoad = .acquire) {s s' : State n V}
    {H evs : Hist n V} (hg : Good s H) {act : Action n V} (h : step o s act = some (s', evs)) : Good s' (H ++ evs) := by
  cases act with
  | push t v a sees =>
    obtain ⟨k, σ, role, ops, adds, cur, hs⟩ := hg
    dsimp only [step] at h
    cases ht : s.th t <;> rw [ht] at h <;> try cases h
    cases ha : s.mem a with
    | some c => rw [ha] at h; cases h
    | none =>
      rw [ha] at h
      injection h with h; injection h with h1 h2
      subst h1; subst h2
      exact hs.push ht ha v sees
  | pop t sees =>
    obtain ⟨k, σ, role, ops, adds, cur, hs⟩ := hg
    dsimp only [step] at h
    cases ht : s.th t <;> rw [ht] at h <;> try cases h
    exact hs.pop ht sees
  | tick t i => exact good_tick hrel hacq hg h
  | send t =>
    obtain ⟨k, σ, role, ops, adds, cur, hs⟩ := hg
    dsimp only [step] at h
    cases ht : s.th t <;> rw [ht] at h <;> try cases h
    exact hs.send ht
  | recv t j =>
    obtain ⟨k, σ, role, ops, adds, cur, hs⟩ := hg
    dsimp only [step] at h
    cases ht : s.th t <;> rw [ht] at h <;> try cases h
    cases hj : s.posts[j]? with
    | none => rw [hj] at h; cases h
    | some w =>
      rw [hj] at h
      injection h with h; injection h with h1 h2
      subst h1; subst h2
      exact hs.recv ht hj
  | reclaim a =>
    obtain ⟨k, σ, role, ops, adds, cur, hs⟩ := hg
    dsimp only [step] at h
    cases hf : s.retired.find? (fun r => r.addr = a ∧ r.ripe = true) with
    | none => rw [hf] at h; cases h
    | some r =>
      rw [hf] at h
      obtain ⟨⟨c, hc⟩, hgood⟩ := hs.reclaim hf
      dsimp only at h
      rw [hc] at h
      injection h with h; injection h with h1 h2
      subst h1; subst h2
      rw [List.append_nil]
      exact hgood

theorem good_exec {o : Orders} (hrel : o.pushCas = .release) (hacq : o.popLoad = .acquire) (as : List (Action n V)) :
    ∀ {s s' : State n V} {H evs : Hist n V}, Good s H → exec o s as = some (s', evs) → Good s' (H ++ evs) := by
  induction as with
  | nil =>
    intro s s' H evs hg h
    injection h with h; injection h with h1 h2
    subst h1; subst h2
    rw [List.append_nil]; exact hg
  | cons a as ih =>
    intro s s' H evs hg h
    unfold exec at h
    cases hst : step o s a with
    | none => rw [hst] at h; cases h
    | some p =>
      obtain ⟨s1, e1⟩ := p
      rw [hst] at h
      dsimp only at h
      cases hex : exec o s1 as with
      | none => rw [hex] at h; cases h
      | some q =>
        obtain ⟨s2, e2⟩ := q
        rw [hex] at h
        injection h with h; injection h with h1 h2
        subst h1; subst h2
        rw [← List.append_assoc]
        exact ih (good_step hrel hacq hg hst) hex

end Verif.Stack.Weak
