import Verif.Stack.WeakInv
import Verif.Lib.HB
import Mathlib.Algebra.BigOperators.Group.Finset.Basic
import Mathlib.Algebra.BigOperators.Fin
import Mathlib.Algebra.Order.Group.Int
import Mathlib.Tactic.Abel

/-! The order of the operations: by the write to `head` they make (a `try_pop` that finds nothing: by the write it
reads), and among those with the same write by time. -/

namespace Verif.Stack.Weak

open Verif.Spec

variable {n : Nat} {V : Type}

/-- The histories of the machine. -/
abbrev Hist (n : Nat) (V : Type) := List (HEvent (Fin n) (StackOp V) (StackRes V))

/-- An operation that has taken effect: the write to `head` it belongs to, and the length of the history then. -/
structure Rec (V : Type) extends OpRes (StackOp V) (StackRes V) where
  idx : Nat
  eff : Nat

/-- The values of a stack. -/
def vals (l : List (Elem V)) : List V := l.map Elem.value

/-- The stack before write number `i`. -/
def prev (σ : Nat → List (Elem V)) : Nat → List V
  | 0 => []
  | i + 1 => vals (σ i)

/-- The operations that belong to write number `i`. -/
def block (ops : List (Rec V)) (i : Nat) : List (OpRes (StackOp V) (StackRes V)) :=
  (ops.filter fun x => x.idx = i).map Rec.toOpRes

/-- The thread has called `op`, which has not taken effect. -/
def Pend (mem : Addr → Option (Cell n V)) : Local n V → StackOp V → Prop
  | .pushLoad a, op => ∃ c, mem a = some c ∧ op = .push c.value
  | .pushStore a _, op => ∃ c, mem a = some c ∧ op = .push c.value
  | .pushCas a _, op => ∃ c, mem a = some c ∧ op = .push c.value
  | .popLoad, op => op = .pop
  | .popNext _, op => op = .pop
  | .popCas _ _, op => op = .pop
  | _, _ => False

/-- The operation of the thread has taken effect with this result. -/
def Done (mem : Addr → Option (Cell n V)) : Local n V → StackRes V → Prop
  | .pushAdd, r => r = .unit
  | .pushRet, r => r = .unit
  | .popSub h, r => ∃ c, mem h = some c ∧ r = .popped (some c.value)
  | .popDefer h, r => ∃ c, mem h = some c ∧ r = .popped (some c.value)
  | .popRead h, r => ∃ c, mem h = some c ∧ r = .popped (some c.value)
  | .popRet o, r => r = .popped (o.map (·.1))
  | _, _ => False

/-- The view contains the writes of the operation called at `p`. -/
def Eff (ops : List (Rec V)) (adds : List Nat) (p : Nat) (w : View n) : Prop :=
  (∀ x ∈ ops, x.pos = p → x.idx ≤ w.head) ∧ ∀ j : Nat, adds[j]? = some p → j + 1 ≤ w.len

theorem Eff.mono {ops : List (Rec V)} {adds : List Nat} {p : Nat} {v w : View n} (h : Eff ops adds p v)
    (hv : v.le w) : Eff ops adds p w :=
  ⟨fun x hx hp => Nat.le_trans (h.1 x hx hp) hv.1, fun j hj => Nat.le_trans (h.2 j hj) hv.2.1⟩

/-- The thread has an operation in progress, called at `p`. -/
structure Busy (mem : Addr → Option (Cell n V)) (H : Hist n V) (ops : List (Rec V)) (adds : List Nat) (t : Fin n)
    (L : Local n V) (w : View n) (p : Nat) : Prop where
  quiet : ∀ (m : Nat) e, p < m → H[m]? = some e → e.thread ≠ t
  phase : (∃ op, H[p]? = some (.call t op) ∧ Pend mem L op ∧ (∀ x ∈ ops, x.pos ≠ p) ∧ p ∉ adds) ∨
    (∃ x ∈ ops, x.pos = p ∧ H[p]? = some (.call t x.op) ∧ Done mem L x.res ∧ Eff ops adds p w)

/-- The counter lags behind by this much because of a thread. -/
def Local.debt : Local n V → Int
  | .pushAdd => 1
  | .popSub _ => -1
  | _ => 0

/-- The relation between the machine, the history and the operations that have taken effect, in the order in which
they did; `adds` are the operations (positions of their calls) that made the writes to `len`, `cur` the positions of
the last calls. -/
structure Lin (s : State n V) (k : Nat) (σ : Nat → List (Elem V)) (H : Hist n V) (ops : List (Rec V))
    (adds : List Nat) (cur : Fin n → Nat) : Prop where
  stk : ∀ i, i ≤ k → Executes (lifo V) (prev σ i) (block ops i) (vals (σ i))
  idxk : ∀ x ∈ ops, x.idx ≤ k
  called : ∀ x ∈ ops, ∃ t, H[x.pos]? = some (.call t x.op)
  nodup : (ops.map (fun x => x.pos)).Nodup
  effs : ops.Pairwise fun x y => x.eff ≤ y.eff
  poseff : ∀ x ∈ ops, x.pos < x.eff ∧ x.eff ≤ H.length
  retEff : ∀ x ∈ ops, ∀ r res, Returns H x.pos r res → x.eff ≤ r
  returned : ∀ (r : Nat) t res, H[r]? = some (.ret t res) → ∃ x ∈ ops, x.res = res ∧ Returns H x.pos r res
  busy : ∀ t, s.th t ≠ .idle → Busy s.mem H ops adds t (s.th t) (s.view t) (cur t)
  knownT : ∀ t p r res, Returns H p r res → Known H t r → Eff ops adds p (s.view t)
  knownP : ∀ (j : Nat) w, s.posts[j]? = some w → ∀ p r res, Returns H p r res → KnownPost H j r → Eff ops adds p w
  plen : s.posts.length = H.countP HEvent.isSend
  ord : ∀ x ∈ ops, ∀ y ∈ ops, ∀ r res, Returns H x.pos r res → HB H r y.pos → x.idx ≤ y.idx
  fin : ∀ x ∈ ops, (∃ r res, Returns H x.pos r res) ∨ ∃ t, s.th t ≠ .idle ∧ cur t = x.pos
  addOps : ∀ p ∈ adds, ∃ x ∈ ops, x.pos = p
  lenLen : s.len.length = adds.length + 1
  count : ∀ m, s.len.getLast? = some m → m.val + ∑ t, (s.th t).debt = (σ k).length

theorem lin_init : Lin (init n V) 0 (fun _ => []) [] [] [] (fun _ => 0) := by
  constructor <;> simp [init, Local.debt, prev, vals, block]
  · exact .nil _
  · intro t p r res h
    have := returns_lt h
    simp at this

theorem Pend.mono {mem mem' : Addr → Option (Cell n V)} {L : Local n V} {op : StackOp V} (h : Pend mem L op)
    (hm : ∀ a, L.knows = some a → ∀ c, mem a = some c → ∃ c', mem' a = some c' ∧ c'.value = c.value) :
    Pend mem' L op := by
  cases L <;> first
    | exact h
    | (obtain ⟨c, h1, h2⟩ := h
       obtain ⟨c', h3, h4⟩ := hm _ rfl c h1
       exact ⟨c', h3, by rw [h4]; exact h2⟩)

theorem Done.mono {mem mem' : Addr → Option (Cell n V)} {L : Local n V} {r : StackRes V} (h : Done mem L r)
    (hm : ∀ a, L.knows = some a → ∀ c, mem a = some c → ∃ c', mem' a = some c' ∧ c'.value = c.value) :
    Done mem' L r := by
  cases L <;> first
    | exact h
    | (obtain ⟨c, h1, h2⟩ := h
       obtain ⟨c', h3, h4⟩ := hm _ rfl c h1
       exact ⟨c', h3, by rw [h4]; exact h2⟩)

theorem Busy.mono {mem mem' : Addr → Option (Cell n V)} {H : Hist n V} {ops adds} {t : Fin n} {L : Local n V}
    {w w' : View n} {p : Nat} (h : Busy mem H ops adds t L w p) (hw : w.le w')
    (hm : ∀ a, L.knows = some a → ∀ c, mem a = some c → ∃ c', mem' a = some c' ∧ c'.value = c.value) :
    Busy mem' H ops adds t L w' p := by
  refine ⟨h.quiet, ?_⟩
  rcases h.phase with ⟨op, h1, h2, h3⟩ | ⟨x, hx, h1, h2, h3, h4⟩
  · exact Or.inl ⟨op, h1, h2.mono hm, h3⟩
  · exact Or.inr ⟨x, hx, h1, h2, h3.mono hm, h4.mono hw⟩

/-- What a step of thread `t` (if any) does to the other threads. -/
structure Others (s s' : State n V) (t : Fin n) : Prop where
  th : ∀ x, x ≠ t → s'.th x = s.th x
  view : ∀ x, (s.view x).le (s'.view x)
  vals : ∀ x, x ≠ t → ∀ a, (s.th x).knows = some a → ∀ c, s.mem a = some c →
    ∃ c', s'.mem a = some c' ∧ c'.value = c.value

theorem sum_debt {s s' : State n V} {t : Fin n} (h : ∀ x, x ≠ t → s'.th x = s.th x) :
    ∑ x, (s'.th x).debt = ∑ x, (s.th x).debt + ((s'.th t).debt - (s.th t).debt) := by
  rw [← Finset.add_sum_erase Finset.univ _ (Finset.mem_univ t),
    ← Finset.add_sum_erase Finset.univ (fun x => (s.th x).debt) (Finset.mem_univ t)]
  have : ∑ x ∈ Finset.univ.erase t, (s'.th x).debt = ∑ x ∈ Finset.univ.erase t, (s.th x).debt := by
    refine Finset.sum_congr rfl fun x hx => ?_
    rw [h x (Finset.ne_of_mem_erase hx)]
  rw [this]
  abel

/-- A step without event and without effect. -/
theorem Lin.silent {s s' : State n V} {k σ H ops adds cur} (h : Lin s k σ H ops adds cur) (t : Fin n)
    (ho : Others s s' t) (hp : s'.posts = s.posts) (hl : s'.len = s.len)
    (hd : (s'.th t).debt = (s.th t).debt) (hi : s.th t ≠ .idle → s'.th t ≠ .idle)
    (hb : s'.th t ≠ .idle → Busy s'.mem H ops adds t (s'.th t) (s'.view t) (cur t)) :
    Lin s' k σ H ops adds cur := by
  refine { h with busy := ?_, knownT := ?_, knownP := ?_, plen := ?_, fin := ?_, lenLen := ?_, count := ?_ }
  · intro x hx
    by_cases hxt : x = t
    · subst hxt; exact hb hx
    · rw [ho.th x hxt] at hx ⊢
      exact (h.busy x hx).mono (ho.view x) (ho.vals x hxt)
  · intro x p r res h1 h2
    exact (h.knownT x p r res h1 h2).mono (ho.view x)
  · rw [hp]; exact h.knownP
  · rw [hp]; exact h.plen
  · intro x hx
    refine (h.fin x hx).imp id ?_
    rintro ⟨u, hu, huc⟩
    refine ⟨u, ?_, huc⟩
    by_cases hut : u = t
    · subst hut; exact hi hu
    · rw [ho.th u hut]; exact hu
  · rw [hl]; exact h.lenLen
  · rw [hl]
    intro m hm
    rw [sum_debt ho.th, hd]
    have := h.count m hm
    omega

theorem block_snoc (ops : List (Rec V)) (x : Rec V) (i : Nat) :
    block (ops ++ [x]) i = if x.idx = i then block ops i ++ [x.toOpRes] else block ops i := by
  unfold block
  rw [List.filter_append, List.map_append]
  split
  · rename_i h; simp [h]
  · rename_i h; simp [h]

theorem block_empty {ops : List (Rec V)} {k i : Nat} (h : ∀ x ∈ ops, x.idx ≤ k) (hi : k < i) : block ops i = [] := by
  unfold block
  rw [List.map_eq_nil_iff, List.filter_eq_nil_iff]
  intro x hx
  have := h x hx
  simp
  omega

theorem Executes.snoc {S Op Res : Type} {O : SeqObj S Op Res} {σ σ' : S} {L : List (OpRes Op Res)} {x : OpRes Op Res}
    (h : Executes O σ L σ') (hx : (O.apply σ' x.op).2 = x.res) : Executes O σ (L ++ [x]) (O.apply σ' x.op).1 := by
  induction h with
  | nil σ => exact .cons hx (.nil _)
  | cons h1 _ ih => exact .cons h1 (ih hx)

theorem Executes.append {S Op Res : Type} {O : SeqObj S Op Res} {σ σ' σ'' : S} {L L' : List (OpRes Op Res)}
    (h : Executes O σ L σ') (h' : Executes O σ' L' σ'') : Executes O σ (L ++ L') σ'' := by
  induction h with
  | nil σ => exact h'
  | cons h1 _ ih => exact .cons h1 (ih h')

/-- The part common to the steps at which an operation takes effect. -/
theorem Lin.effect {s s' : State n V} {k σ H ops adds cur} (h : Lin s k σ H ops adds cur) (t : Fin n)
    (ho : Others s s' t) (hp : s'.posts = s.posts) (hl : s'.len = s.len) {op : StackOp V} (res : StackRes V)
    (ht : s.th t ≠ .idle) (hop : H[cur t]? = some (.call t op)) (hpend : Pend s.mem (s.th t) op)
    (idx : Nat) (hlo : (s.view t).head ≤ idx) (hhi : idx ≤ (s'.view t).head)
    (hi : s'.th t ≠ .idle) (hdone : Done s'.mem (s'.th t) res) {k' : Nat} {σ' : Nat → List (Elem V)} (hk : k ≤ k')
    (hik : idx ≤ k')
    (hstk : ∀ i, i ≤ k' → Executes (lifo V) (prev σ' i) (block (ops ++ [⟨⟨cur t, op, res⟩, idx, H.length⟩]) i) (vals (σ' i)))
    (hc : ((σ' k').length : Int) = (σ k).length + ((s'.th t).debt - (s.th t).debt)) :
    Lin s' k' σ' H (ops ++ [⟨⟨cur t, op, res⟩, idx, H.length⟩]) adds cur := by
  have hbt := h.busy t ht
  have hnew : (∀ x ∈ ops, x.pos ≠ cur t) ∧ cur t ∉ adds := by
    rcases hbt.phase with ⟨_, _, _, h3⟩ | ⟨x, _, _, _, h3, _⟩
    · exact h3
    · exfalso
      revert hpend h3
      cases s.th t <;> simp [Pend, Done]
  have hnret : ∀ r res, ¬ Returns H (cur t) r res := by
    rintro r res ⟨h1, u, op', h2, h3, _⟩
    rw [hop] at h2
    injection h2 with h2
    injection h2 with h2 h2'
    subst h2
    exact hbt.quiet r _ h1 h3 rfl
  have heff : ∀ p w, p ≠ cur t → Eff ops adds p w → Eff (n := n) (ops ++ [⟨⟨cur t, op, res⟩, idx, H.length⟩]) adds p w := by
    intro p w hpc he
    refine ⟨?_, he.2⟩
    intro x hx hxp
    rcases List.mem_append.1 hx with hx | hx
    · exact he.1 x hx hxp
    · rw [List.mem_singleton] at hx
      subst hx
      exact absurd hxp.symm hpc
  have hcurlt : cur t < H.length := getElem?_lt hop
  refine { stk := hstk, idxk := ?_, called := ?_, nodup := ?_, effs := ?_, poseff := ?_, retEff := ?_, returned := ?_,
           busy := ?_, knownT := ?_, knownP := ?_, plen := by rw [hp]; exact h.plen, ord := ?_, fin := ?_, addOps := ?_,
           lenLen := by rw [hl]; exact h.lenLen, count := ?_ }
  · intro x hx
    rcases List.mem_append.1 hx with hx | hx
    · exact Nat.le_trans (h.idxk x hx) hk
    · rw [List.mem_singleton.1 hx]; exact hik
  · intro x hx
    rcases List.mem_append.1 hx with hx | hx
    · exact h.called x hx
    · rw [List.mem_singleton.1 hx]; exact ⟨t, hop⟩
  · rw [List.map_append, List.nodup_append]
    refine ⟨h.nodup, by simp, ?_⟩
    intro a ha b hb
    obtain ⟨x, hx, rfl⟩ := List.mem_map.1 ha
    rw [List.map_singleton, List.mem_singleton] at hb
    rw [hb]
    exact hnew.1 x hx
  · rw [List.pairwise_append]
    refine ⟨h.effs, List.pairwise_singleton _ _, ?_⟩
    intro x hx y hy
    rw [List.mem_singleton] at hy
    subst hy
    exact (h.poseff x hx).2
  · intro x hx
    rcases List.mem_append.1 hx with hx | hx
    · exact h.poseff x hx
    · rw [List.mem_singleton.1 hx]; exact ⟨hcurlt, Nat.le_refl _⟩
  · intro x hx r res' hr
    rcases List.mem_append.1 hx with hx | hx
    · exact h.retEff x hx r res' hr
    · rw [List.mem_singleton.1 hx] at hr
      exact absurd hr (hnret _ _)
  · intro r u res' hr
    obtain ⟨x, hx, h1, h2⟩ := h.returned r u res' hr
    exact ⟨x, List.mem_append_left _ hx, h1, h2⟩
  · intro x hx
    by_cases hxt : x = t
    · subst hxt
      refine ⟨hbt.quiet, Or.inr ⟨_, List.mem_append_right _ (List.mem_singleton.2 rfl), rfl, hop, hdone, ?_, ?_⟩⟩
      · intro y hy hyp
        rcases List.mem_append.1 hy with hy | hy
        · exact absurd hyp (hnew.1 y hy)
        · rw [List.mem_singleton.1 hy]; exact hhi
      · intro j hj
        exact absurd (List.mem_of_getElem? hj) hnew.2
    · rw [ho.th x hxt] at hx ⊢
      have hbx := (h.busy x hx).mono (ho.view x) (ho.vals x hxt)
      have hne : cur x ≠ cur t := by
        intro hc
        have : ∃ op', H[cur x]? = some (.call x op') := by
          rcases hbx.phase with ⟨op', h1, _⟩ | ⟨y, _, _, h1, _⟩
          · exact ⟨op', h1⟩
          · exact ⟨_, h1⟩
        obtain ⟨op', h1⟩ := this
        rw [hc, hop] at h1
        injection h1 with h1
        injection h1 with h1
        exact hxt h1.symm
      refine ⟨hbx.quiet, ?_⟩
      rcases hbx.phase with ⟨op', h1, h2, h3, h4⟩ | ⟨y, hy, h1, h2, h3, h4⟩
      · refine Or.inl ⟨op', h1, h2, ?_, h4⟩
        intro y hy
        rcases List.mem_append.1 hy with hy | hy
        · exact h3 y hy
        · rw [List.mem_singleton.1 hy]; exact hne.symm
      · exact Or.inr ⟨y, List.mem_append_left _ hy, h1, h2, h3, heff _ _ hne h4⟩
  · intro x p r res' h1 h2
    have hpc : p ≠ cur t := by rintro rfl; exact hnret _ _ h1
    exact heff _ _ hpc ((h.knownT x p r res' h1 h2).mono (ho.view x))
  · rw [hp]
    intro j w hj p r res' h1 h2
    have hpc : p ≠ cur t := by rintro rfl; exact hnret _ _ h1
    exact heff _ _ hpc (h.knownP j w hj p r res' h1 h2)
  · intro x hx y hy r res' hr hhb
    rcases List.mem_append.1 hx with hx | hx
    · rcases List.mem_append.1 hy with hy | hy
      · exact h.ord x hx y hy r res' hr hhb
      · rw [List.mem_singleton] at hy
        subst hy
        have := (h.knownT t x.pos r res' hr (hb_known hhb hop rfl)).1 x hx rfl
        exact Nat.le_trans this hlo
    · rw [List.mem_singleton.1 hx] at hr
      exact absurd hr (hnret _ _)
  · intro x hx
    rcases List.mem_append.1 hx with hx | hx
    · refine (h.fin x hx).imp id ?_
      rintro ⟨u, hu, huc⟩
      refine ⟨u, ?_, huc⟩
      by_cases hut : u = t
      · subst hut; exact hi
      · rw [ho.th u hut]; exact hu
    · rw [List.mem_singleton.1 hx]
      exact Or.inr ⟨t, hi, rfl⟩
  · intro p hpa
    obtain ⟨x, hx, h1⟩ := h.addOps p hpa
    exact ⟨x, List.mem_append_left _ hx, h1⟩
  · rw [hl]
    intro m hm
    rw [sum_debt ho.th, hc]
    have := h.count m hm
    omega

/-- The change of the counter. -/
theorem Lin.add {s s' : State n V} {k σ H ops adds cur} (h : Lin s k σ H ops adds cur) (t : Fin n)
    (ho : Others s s' t) (hp : s'.posts = s.posts) {m : Msg Int n} (hm : s.len.getLast? = some m) {w : View n}
    (hl : s'.len = s.len ++ [Msg.mk (m.val + (s.th t).debt) w]) (hd : (s'.th t).debt = 0)
    (hv : (s'.view t).len = s.len.length) (ht : s.th t ≠ .idle) (hi : s'.th t ≠ .idle)
    (hdone : ∀ r, Done s.mem (s.th t) r → Done s'.mem (s'.th t) r) (hnp : ∀ op, ¬ Pend s.mem (s.th t) op) :
    Lin s' k σ H ops (adds ++ [cur t]) cur := by
  have hbt := h.busy t ht
  obtain ⟨x0, hx0, hx0p, hop, hx0d, hx0e⟩ : ∃ x ∈ ops, x.pos = cur t ∧ H[cur t]? = some (.call t x.op) ∧
      Done s.mem (s.th t) x.res ∧ Eff ops adds (cur t) (s.view t) := by
    rcases hbt.phase with ⟨op, _, h2, _⟩ | h1
    · exact absurd h2 (hnp op)
    · exact h1
  have hnret : ∀ r res, ¬ Returns H (cur t) r res := by
    rintro r res ⟨h1, u, op', h2, h3, _⟩
    rw [hop] at h2
    injection h2 with h2
    injection h2 with h2 h2'
    subst h2
    exact hbt.quiet r _ h1 h3 rfl
  have heff : ∀ p w, p ≠ cur t → Eff ops adds p w → Eff (n := n) ops (adds ++ [cur t]) p w := by
    intro p w hpc he
    refine ⟨he.1, ?_⟩
    intro j hj
    rcases getElem?_snoc hj with hj | ⟨_, hj⟩
    · exact he.2 j hj
    · exact absurd hj hpc
  refine { h with busy := ?_, knownT := ?_, knownP := ?_, plen := by rw [hp]; exact h.plen, fin := ?_, addOps := ?_,
                  lenLen := ?_, count := ?_ }
  · intro x hx
    by_cases hxt : x = t
    · subst hxt
      refine ⟨hbt.quiet, Or.inr ⟨x0, hx0, hx0p, hop, hdone _ hx0d, ?_, ?_⟩⟩
      · exact (hx0e.mono (ho.view x)).1
      · intro j hj
        have := getElem?_lt hj
        rw [List.length_append, List.length_singleton] at this
        rw [hv, h.lenLen]
        omega
    · rw [ho.th x hxt] at hx ⊢
      have hbx := (h.busy x hx).mono (ho.view x) (ho.vals x hxt)
      have hne : cur x ≠ cur t := by
        intro hc
        have : ∃ op', H[cur x]? = some (.call x op') := by
          rcases hbx.phase with ⟨op', h1, _⟩ | ⟨y, _, _, h1, _⟩
          · exact ⟨op', h1⟩
          · exact ⟨_, h1⟩
        obtain ⟨op', h1⟩ := this
        rw [hc, hop] at h1
        injection h1 with h1
        injection h1 with h1
        exact hxt h1.symm
      refine ⟨hbx.quiet, ?_⟩
      rcases hbx.phase with ⟨op', h1, h2, h3, h4⟩ | ⟨y, hy, h1, h2, h3, h4⟩
      · refine Or.inl ⟨op', h1, h2, h3, ?_⟩
        intro hc
        rcases List.mem_append.1 hc with hc | hc
        · exact h4 hc
        · exact hne (List.mem_singleton.1 hc)
      · exact Or.inr ⟨y, hy, h1, h2, h3, heff _ _ hne h4⟩
  · intro x p r res' h1 h2
    have hpc : p ≠ cur t := by rintro rfl; exact hnret _ _ h1
    exact heff _ _ hpc ((h.knownT x p r res' h1 h2).mono (ho.view x))
  · rw [hp]
    intro j w hj p r res' h1 h2
    have hpc : p ≠ cur t := by rintro rfl; exact hnret _ _ h1
    exact heff _ _ hpc (h.knownP j w hj p r res' h1 h2)
  · intro x hx
    refine (h.fin x hx).imp id ?_
    rintro ⟨u, hu, huc⟩
    refine ⟨u, ?_, huc⟩
    by_cases hut : u = t
    · subst hut; exact hi
    · rw [ho.th u hut]; exact hu
  · intro p hpa
    rcases List.mem_append.1 hpa with hpa | hpa
    · exact h.addOps p hpa
    · rw [List.mem_singleton.1 hpa]; exact ⟨x0, hx0, hx0p⟩
  · rw [hl, List.length_append, List.length_append, h.lenLen]; rfl
  · rw [hl]
    intro m' hm'
    rw [List.getLast?_concat] at hm'
    injection hm' with hm'
    subst hm'
    rw [sum_debt ho.th, hd]
    have := h.count m hm
    show m.val + (s.th t).debt + _ = _
    omega

/-- A step with an event of thread `t`; `cur'` is the new position of the last call. -/
theorem Lin.event {s s' : State n V} {k σ H ops adds cur} (h : Lin s k σ H ops adds cur) (t : Fin n)
    (ho : Others s s' t) (e : HEvent (Fin n) (StackOp V) (StackRes V)) (he : e.thread = t)
    (hl : s'.len = s.len) (hd : (s'.th t).debt = (s.th t).debt)
    (hposts : (s'.posts = s.posts ∧ e.isSend = false) ∨ (s'.posts = s.posts ++ [s'.view t] ∧ e = .send t))
    (hrecv : ∀ u j, e = .recv u j → ∃ w, s.posts[j]? = some w ∧ w.le (s'.view t))
    (cur' : Fin n → Nat) (hcur : ∀ x, x ≠ t → cur' x = cur x)
    (hret : ∀ u res, e = .ret u res → s.th t ≠ .idle ∧ ∀ r, Done s.mem (s.th t) r → r = res)
    (hnp : s.th t ≠ .idle → (∃ u res, e = .ret u res) ∧ ∀ op, ¬ Pend s.mem (s.th t) op)
    (hb : s'.th t ≠ .idle → Busy s'.mem (H ++ [e]) ops adds t (s'.th t) (s'.view t) (cur' t)) :
    Lin s' k σ (H ++ [e]) ops adds cur' := by
  -- the operation that returns
  have hop : s.th t ≠ .idle → ∃ x ∈ ops, x.pos = cur t ∧ H[cur t]? = some (.call t x.op) ∧
      Done s.mem (s.th t) x.res ∧ Eff ops adds (cur t) (s.view t) := by
    intro ht
    rcases (h.busy t ht).phase with ⟨op, _, h2, _⟩ | h1
    · exact absurd h2 ((hnp ht).2 op)
    · exact h1
  have hlast : ∀ p r res, Returns (H ++ [e]) p r res → r < H.length ∨ (r = H.length ∧ s.th t ≠ .idle ∧ p = cur t) := by
    intro p r res hr
    by_cases hrl : r < H.length
    · exact Or.inl hrl
    · have := returns_lt hr
      rw [List.length_append, List.length_singleton] at this
      have : r = H.length := by omega
      subst this
      obtain ⟨h1, u, op, h2, h3, h4⟩ := hr
      rw [getElem?_snoc_eq] at h3
      injection h3 with h3
      have hti := (hret u res h3).1
      have hut : u = t := by rw [← he, h3]; rfl
      subst hut
      refine Or.inr ⟨rfl, hti, ?_⟩
      obtain ⟨x, _, _, hc, _⟩ := hop hti
      have hcl := getElem?_lt hc
      rcases Nat.lt_trichotomy p (cur u) with hlt | heq | hgt
      · exact absurd rfl (h4 (cur u) _ hlt hcl (getElem?_snoc_of hc))
      · exact heq
      · rw [getElem?_snoc_lt h1] at h2
        exact absurd rfl ((h.busy u hti).quiet p _ hgt h2)
  have hposlt : ∀ x ∈ ops, x.pos < H.length := by
    intro x hx
    obtain ⟨_, h1⟩ := h.called x hx
    exact getElem?_lt h1
  have hcurEff : s.th t ≠ .idle → Eff ops adds (cur t) (s'.view t) := by
    intro ht
    obtain ⟨_, _, _, _, _, h5⟩ := hop ht
    exact h5.mono (ho.view t)
  have hknow : ∀ p r res, Returns (H ++ [e]) p r res → Known (H ++ [e]) t r → Eff ops adds p (s'.view t) := by
    intro p r res h1 h2
    rcases hlast p r res h1 with hr | ⟨_, hti, hpc⟩
    · rw [returns_snoc hr] at h1
      rw [← he] at h2
      rcases known_snoc_self h2 with h2 | h2 | ⟨u, j, hu, h2⟩
      · omega
      · rw [he] at h2
        exact (h.knownT t p r res h1 h2).mono (ho.view t)
      · obtain ⟨w, hw, hwle⟩ := hrecv u j hu
        exact (h.knownP j w hw p r res h1 h2).mono hwle
    · rw [hpc]; exact hcurEff hti
  refine { stk := h.stk, idxk := h.idxk, called := ?_, nodup := h.nodup, effs := h.effs, poseff := ?_, retEff := ?_,
           returned := ?_, busy := ?_, knownT := ?_, knownP := ?_, plen := ?_, ord := ?_, fin := ?_, addOps := h.addOps,
           lenLen := by rw [hl]; exact h.lenLen, count := ?_ }
  · intro x hx
    obtain ⟨u, hu⟩ := h.called x hx
    exact ⟨u, getElem?_snoc_of hu⟩
  · intro x hx
    obtain ⟨h1, h2⟩ := h.poseff x hx
    exact ⟨h1, by rw [List.length_append]; omega⟩
  · intro x hx r res hr
    rcases hlast _ _ _ hr with hrl | ⟨hrl, _⟩
    · rw [returns_snoc hrl] at hr
      exact h.retEff x hx r res hr
    · rw [hrl]; exact (h.poseff x hx).2
  · intro r u res hr
    rcases getElem?_snoc hr with hr | ⟨hr, hre⟩
    · obtain ⟨x, hx, h1, h2⟩ := h.returned r u res hr
      exact ⟨x, hx, h1, (returns_snoc (getElem?_lt hr)).2 h2⟩
    · subst hr
      have hti := hret u res hre.symm
      have hut : u = t := by rw [← he, ← hre]; rfl
      subst hut
      obtain ⟨x, hx, h1, h2, h3, _⟩ := hop hti.1
      have hres := hti.2 _ h3
      refine ⟨x, hx, hres, hposlt x hx, u, x.op, ?_, ?_, ?_⟩
      · rw [h1]; exact getElem?_snoc_of h2
      · rw [getElem?_snoc_eq, ← hre]
      · intro m f hm hm' hf
        rw [getElem?_snoc_lt hm'] at hf
        rw [h1] at hm
        exact (h.busy u hti.1).quiet m f hm hf
  · intro x hx
    by_cases hxt : x = t
    · subst hxt; exact hb hx
    · rw [ho.th x hxt] at hx ⊢
      rw [hcur x hxt]
      have hbx := (h.busy x hx).mono (ho.view x) (ho.vals x hxt)
      refine ⟨?_, ?_⟩
      · intro m f hm hf
        rcases getElem?_snoc hf with hf | ⟨_, hf⟩
        · exact hbx.quiet m f hm hf
        · rw [hf, he]; exact Ne.symm hxt
      · rcases hbx.phase with ⟨op', h1, h2⟩ | ⟨y, hy, h1, h2, h3⟩
        · exact Or.inl ⟨op', getElem?_snoc_of h1, h2⟩
        · exact Or.inr ⟨y, hy, h1, getElem?_snoc_of h2, h3⟩
  · intro x p r res h1 h2
    by_cases hxt : x = t
    · subst hxt; exact hknow p r res h1 h2
    · have h2 := known_snoc_other (by rw [he]; exact Ne.symm hxt) h2
      rw [returns_snoc (known_lt h2)] at h1
      exact (h.knownT x p r res h1 h2).mono (ho.view x)
  · intro j w hj p r res h1 h2
    rcases hposts with ⟨hpe, hse⟩ | ⟨hpe, hse⟩
    · rw [hpe] at hj
      rcases knownPost_snoc h2 with h2 | ⟨⟨u, hu⟩, _⟩
      · rw [returns_snoc (knownPost_lt h2)] at h1
        exact h.knownP j w hj p r res h1 h2
      · rw [hu] at hse; cases hse
    · rw [hpe] at hj
      rcases knownPost_snoc h2 with h2 | ⟨_, hjc, h2⟩
      · have hjl := knownPost_lt_count h2
        rw [← h.plen] at hjl
        rw [getElem?_snoc_lt hjl] at hj
        rw [returns_snoc (knownPost_lt h2)] at h1
        exact h.knownP j w hj p r res h1 h2
      · rw [hjc, ← h.plen, getElem?_snoc_eq] at hj
        injection hj with hj
        subst hj
        rcases h2 with h2 | h2
        · rcases hlast p r res h1 with hr | ⟨_, hti, hpc⟩
          · omega
          · rw [hpc]; exact hcurEff hti
        · rw [he] at h2
          rw [returns_snoc (known_lt h2)] at h1
          exact (h.knownT t p r res h1 h2).mono (ho.view t)
  · rw [List.countP_append]
    rcases hposts with ⟨hpe, hse⟩ | ⟨hpe, hse⟩
    · rw [hpe, h.plen]; simp [hse]
    · rw [hpe, List.length_append, h.plen, hse]; simp [HEvent.isSend]
  · intro x hx y hy r res hr hhb
    have hyl := hposlt y hy
    have hhb := hb_snoc hyl hhb
    rw [returns_snoc (Nat.lt_trans hhb.lt hyl)] at hr
    exact h.ord x hx y hy r res hr hhb
  · intro x hx
    rcases h.fin x hx with ⟨r, res, hr⟩ | ⟨u, hu, huc⟩
    · exact Or.inl ⟨r, res, (returns_snoc (returns_lt hr)).2 hr⟩
    · by_cases hut : u = t
      · subst hut
        obtain ⟨⟨u', res, hre⟩, _⟩ := hnp hu
        have hti := hret u' res hre
        obtain ⟨y, hy, h1, h2, h3, _⟩ := hop hu
        refine Or.inl ⟨H.length, res, hposlt x hx, u, y.op, ?_, ?_, ?_⟩
        · rw [← huc]; exact getElem?_snoc_of h2
        · rw [getElem?_snoc_eq, hre]
          have : u' = u := by rw [← he, hre]; rfl
          rw [this]
        · intro m f hm hm' hf
          rw [getElem?_snoc_lt hm'] at hf
          rw [← huc] at hm
          exact (h.busy u hu).quiet m f hm hf
      · exact Or.inr ⟨u, by rw [ho.th u hut]; exact hu, by rw [hcur u hut]; exact huc⟩
  · rw [hl]
    intro m hm
    rw [sum_debt ho.th, hd]
    have := h.count m hm
    omega

end Verif.Stack.Weak
