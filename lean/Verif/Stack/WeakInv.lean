import Verif.Stack.WeakModel
import Verif.Stack.Lemmas
import Mathlib.Data.List.Nodup

/-! The invariant of the machine. -/

namespace Verif.Stack.Weak

open Verif.Spec

variable {n : Nat} {V : Type}

/-! ### Views -/

/-- `w` knows at least as much as `v`. -/
def View.le (v w : View n) : Prop :=
  v.head ≤ w.head ∧ v.len ≤ w.len ∧ (∀ a, v.cell a ≤ w.cell a) ∧ ∀ t, v.clock t ≤ w.clock t

theorem View.le_refl (v : View n) : v.le v := ⟨Nat.le_refl _, Nat.le_refl _, fun _ => Nat.le_refl _, fun _ => Nat.le_refl _⟩

theorem View.le_trans {u v w : View n} (h : u.le v) (h' : v.le w) : u.le w :=
  ⟨Nat.le_trans h.1 h'.1, Nat.le_trans h.2.1 h'.2.1, fun a => Nat.le_trans (h.2.2.1 a) (h'.2.2.1 a),
    fun t => Nat.le_trans (h.2.2.2 t) (h'.2.2.2 t)⟩

theorem View.le_join_left (v w : View n) : v.le (v.join w) := by
  refine ⟨?_, ?_, fun a => ?_, fun t => ?_⟩ <;> simp only [View.join] <;> omega

theorem View.le_join_right (v w : View n) : w.le (v.join w) := by
  refine ⟨?_, ?_, fun a => ?_, fun t => ?_⟩ <;> simp only [View.join] <;> omega

theorem le_readHead (o : MemOrd) (w : View n) (i : Nat) (m : Msg (Option Addr) n) : w.le (readHead o w i m) := by
  have h : w.le { w with head := max w.head i } :=
    ⟨Nat.le_max_left _ _, Nat.le_refl _, fun _ => Nat.le_refl _, fun _ => Nat.le_refl _⟩
  unfold readHead
  dsimp only
  split
  · exact View.le_trans h (View.le_join_left _ _)
  · exact h

theorem readHead_acquire (w : View n) (i : Nat) (m : Msg (Option Addr) n) :
    m.view.le (readHead .acquire w i m) := by
  unfold readHead
  dsimp only
  rw [if_pos rfl]
  exact View.le_join_right _ _

theorem readHead_head_ge (o : MemOrd) (w : View n) (i : Nat) (m : Msg (Option Addr) n) :
    i ≤ (readHead o w i m).head := by
  unfold readHead
  dsimp only
  split <;> simp only [View.join] <;> omega

theorem readHead_head_le (o : MemOrd) {w : View n} {i k : Nat} {m : Msg (Option Addr) n} (hw : w.head ≤ k)
    (hi : i ≤ k) (hm : m.view.head ≤ k) : (readHead o w i m).head ≤ k := by
  unfold readHead
  dsimp only
  split <;> simp only [View.join] <;> omega

theorem le_release {α : Type} (o : MemOrd) (w : View n) (m : Msg α n) : m.view.le (release o w m) := by
  unfold release
  split
  · exact View.le_join_left _ _
  · exact View.le_refl _

theorem release_release {α : Type} (w : View n) (m : Msg α n) : w.le (release .release w m) := by
  unfold release
  rw [if_pos rfl]
  exact View.le_join_right _ _

theorem release_head_le {α : Type} (o : MemOrd) {w : View n} {m : Msg α n} {k : Nat} (hw : w.head ≤ k)
    (hm : m.view.head ≤ k) : (release o w m).head ≤ k := by
  unfold release
  split
  · simp only [View.join]; omega
  · exact hm

/-! ### Cells -/

/-- The last value written to `next`. -/
def Cell.lastVal (c : Cell n V) : Option Addr :=
  match c.next with
  | [] => none
  | (_, v) :: _ => v

/-- Everything written to the cell, and the call that made it, is in the view. -/
def Cell.Seen (c : Cell n V) (a : Addr) (w : View n) : Prop :=
  c.lastTs ≤ w.cell a ∧ c.src.2 ≤ w.clock c.src.1

theorem Cell.Seen.mono {c : Cell n V} {a : Addr} {v w : View n} (h : c.Seen a v) (hv : v.le w) : c.Seen a w :=
  ⟨Nat.le_trans h.1 (hv.2.2.1 a), Nat.le_trans h.2 (hv.2.2.2 _)⟩

/-- The stamps of a cell are in order. -/
structure Cell.Ok (c : Cell n V) (stamp : Nat) : Prop where
  birth : c.birth ≤ c.lastTs
  last : c.lastTs < stamp
  sorted : (c.next.map (·.1)).Pairwise (· > ·)

theorem Cell.Ok.mono {c : Cell n V} {k k' : Nat} (h : c.Ok k) (hk : k ≤ k') : c.Ok k' :=
  ⟨h.1, Nat.lt_of_lt_of_le h.2 hk, h.3⟩

theorem Cell.Ok.read {c : Cell n V} {k i ts : Nat} {nx : Option Addr} (h : c.Ok k)
    (hi : c.next[i]? = some (ts, nx)) (hts : c.lastTs ≤ ts) : nx = c.lastVal ∧ ts = c.lastTs := by
  unfold Cell.lastTs at hts
  unfold Cell.lastVal Cell.lastTs
  have hs := h.sorted
  cases hn : c.next with
  | nil => rw [hn] at hi; simp at hi
  | cons p l =>
    obtain ⟨ts0, v0⟩ := p
    rw [hn] at hi hts hs
    cases i with
    | zero => simp at hi; simp [hi.1, hi.2]
    | succ i =>
      rw [List.getElem?_cons_succ] at hi
      rw [List.map_cons, List.pairwise_cons] at hs
      have := hs.1 ts (List.mem_map.2 ⟨(ts, nx), List.mem_of_getElem? hi, rfl⟩)
      dsimp only at hts
      omega

/-! ### Threads -/

/-- The new node of a thread that has not yet linked it. -/
def Local.owned : Local n V → Option Addr
  | .pushLoad a => some a
  | .pushStore a _ => some a
  | .pushCas a _ => some a
  | _ => none

/-- The node a thread has unlinked and not yet retired. -/
def Local.limbo : Local n V → Option Addr
  | .popSub a => some a
  | .popDefer a => some a
  | _ => none

/-- The node a thread has read from the head and will still dereference. -/
def Local.held : Local n V → Option Addr
  | .popNext h => some h
  | .popCas h _ => some h
  | .popRead h => some h
  | _ => none

/-- The node a thread knows everything about. -/
def Local.knows : Local n V → Option Addr
  | .pushLoad a => some a
  | .pushStore a _ => some a
  | .pushCas a _ => some a
  | .popNext h => some h
  | .popCas h _ => some h
  | .popSub h => some h
  | .popDefer h => some h
  | .popRead h => some h
  | _ => none

/-- A node together with the `next` the thread relies on. -/
def Local.link : Local n V → Option (Addr × Option Addr)
  | .pushCas a h => some (a, h)
  | .popCas h nx => some (h, nx)
  | _ => none

theorem knows_cases {L : Local n V} {a : Addr} (h : L.knows = some a) :
    L.owned = some a ∨ L.limbo = some a ∨ L.held = some a := by
  cases L <;> simp_all [Local.knows, Local.owned, Local.limbo, Local.held]

theorem owned_knows {L : Local n V} {a : Addr} (h : L.owned = some a) : L.knows = some a := by
  cases L <;> simp_all [Local.knows, Local.owned]

theorem held_knows {L : Local n V} {a : Addr} (h : L.held = some a) : L.knows = some a := by
  cases L <;> simp_all [Local.knows, Local.held]

theorem link_knows {L : Local n V} {a : Addr} {x : Option Addr} (h : L.link = some (a, x)) : L.knows = some a := by
  cases L <;> simp_all [Local.knows, Local.link]

theorem held_pinned {L : Local n V} {a : Addr} (h : L.held = some a) : L.pinned = true := by
  cases L <;> simp_all [Local.held, Local.pinned]

/-! ### The invariant -/

/-- A node as it was linked into the stack. -/
structure Elem (V : Type) where
  addr : Addr
  birth : Nat
  value : V

/-- The address of the top. -/
def top (l : List (Elem V)) : Option Addr := l.head?.map Elem.addr

/-- The `next` fields follow the list. -/
def Linked (mem : Addr → Option (Cell n V)) : List (Elem V) → Prop
  | [] => True
  | e :: l => (∀ c, mem e.addr = some c → c.lastVal = top l) ∧ Linked mem l

theorem Linked.congr {mem mem' : Addr → Option (Cell n V)} {l : List (Elem V)} (h : Linked mem l)
    (he : ∀ e ∈ l, mem' e.addr = mem e.addr) : Linked mem' l := by
  induction l with
  | nil => trivial
  | cons e l ih =>
    refine ⟨?_, ih h.2 fun x hx => he x (by simp [hx])⟩
    rw [he e (by simp)]
    exact h.1

/-- Since write number `j` of the head, the present node at `a` has not been in the stack. -/
def Out (mem : Addr → Option (Cell n V)) (k : Nat) (σ : Nat → List (Elem V)) (a : Addr) (j : Nat) : Prop :=
  ∀ i, j ≤ i → i ≤ k → ∀ e ∈ σ i, e.addr = a → ∀ c, mem a = some c → c.birth ≠ e.birth

/-- The node `a` cannot be reclaimed before `t` drops its guard. -/
def Prot (retired : List (Retired n)) (role : Addr → Role n) (t : Fin n) (a : Addr) : Prop :=
  role a = .linked ∨ (∃ t', role a = .limbo t') ∨
    (role a = .retired ∧ ∀ r ∈ retired, r.addr = a → r.waits t = true)

/-- The invariant: `σ i` is the stack after write number `i` of the head, `k` the number of the last write. -/
structure Inv (s : State n V) (k : Nat) (σ : Nat → List (Elem V)) (role : Addr → Role n) : Prop where
  hlen : s.head.length = k + 1
  hval : ∀ i m, s.head[i]? = some m → m.val = top (σ i)
  cover : ∀ i m, s.head[i]? = some m → ∀ e ∈ σ i, ∀ c, s.mem e.addr = some c → c.birth = e.birth →
    c.value = e.value ∧ c.Seen e.addr m.view ∧ ∀ t, role e.addr ≠ .priv t
  alive : ∀ i, s.gone ≤ i → i ≤ k → ∀ e ∈ σ i, ∃ c, s.mem e.addr = some c ∧ c.birth = e.birth
  gonek : s.gone ≤ k
  chain : Linked s.mem (σ k)
  nodup : ((σ k).map Elem.addr).Nodup
  rfree : ∀ a, role a = .free ↔ s.mem a = none
  rlinked : ∀ a, role a = .linked ↔ a ∈ (σ k).map Elem.addr
  rpriv : ∀ a t, role a = .priv t ↔ (s.th t).owned = some a
  rlimbo : ∀ a t, role a = .limbo t ↔ (s.th t).limbo = some a
  rret : ∀ a, role a = .retired ↔ a ∈ s.retired.map Retired.addr
  retNodup : (s.retired.map Retired.addr).Nodup
  ulimbo : ∀ t a, (s.th t).limbo = some a → Out s.mem k σ a (s.view t).head
  uret : ∀ r ∈ s.retired, r.unlink ≤ k ∧ Out s.mem k σ r.addr r.unlink
  pinR : ∀ t, (s.th t).pinned = true → ∀ r ∈ s.retired, r.waits t = true ∨ r.unlink ≤ (s.view t).head
  pinG : ∀ t, (s.th t).pinned = true → s.gone ≤ (s.view t).head
  prot : ∀ t a, (s.th t).held = some a → Prot s.retired role t a
  know : ∀ t a, (s.th t).knows = some a → ∀ c, s.mem a = some c → c.Seen a (s.view t)
  link : ∀ t a x, (s.th t).link = some (a, x) → ∀ c, s.mem a = some c → c.lastVal = x
  cells : ∀ a c, s.mem a = some c → c.Ok s.stamp
  eb : ∀ i, i ≤ k → ∀ e ∈ σ i, e.birth < s.stamp
  vhead : ∀ t, (s.view t).head ≤ k
  mhead : ∀ (i : Nat) (m : Msg (Option Addr) n), s.head[i]? = some m → m.view.head ≤ i
  phead : ∀ w ∈ s.posts, w.head ≤ k
  noFault : s.fault = false

theorem inv_init : Inv (init n V) 0 (fun _ => []) (fun _ => .free) := by
  constructor <;>
    simp [init, Local.owned, Local.limbo, Local.held, Local.knows, Local.link, Local.pinned, Linked, View.bot, top]
  all_goals
    intro i m hm
    have hm := List.mem_of_getElem? hm
    rw [List.mem_singleton] at hm
    rw [hm]
  exact Nat.zero_le _

theorem getElem?_le {α : Type} {l : List α} {k i : Nat} {m : α} (hl : l.length = k + 1) (h : l[i]? = some m) : i ≤ k := by
  have := (List.getElem?_eq_some_iff.1 h).1
  omega

theorem Inv.prot_alloc {s : State n V} {k σ role} (h : Inv s k σ role) {t : Fin n} {a : Addr}
    (hp : Prot s.retired role t a) : ∃ c, s.mem a = some c := by
  cases hm : s.mem a with
  | some c => exact ⟨c, rfl⟩
  | none =>
    have := (h.rfree a).2 hm
    unfold Prot at hp
    rw [this] at hp
    simp at hp

theorem Inv.owned_alloc {s : State n V} {k σ role} (h : Inv s k σ role) {t : Fin n} {a : Addr}
    (ho : (s.th t).owned = some a) : ∃ c, s.mem a = some c := by
  cases hm : s.mem a with
  | some c => exact ⟨c, rfl⟩
  | none =>
    have := (h.rfree a).2 hm
    rw [(h.rpriv a t).2 ho] at this
    cases this

theorem Inv.limbo_alloc {s : State n V} {k σ role} (h : Inv s k σ role) {t : Fin n} {a : Addr}
    (ho : (s.th t).limbo = some a) : ∃ c, s.mem a = some c := by
  cases hm : s.mem a with
  | some c => exact ⟨c, rfl⟩
  | none =>
    have := (h.rfree a).2 hm
    rw [(h.rlimbo a t).2 ho] at this
    cases this

theorem Inv.know_alloc {s : State n V} {k σ role} (h : Inv s k σ role) {t : Fin n} {a : Addr}
    (hk : (s.th t).knows = some a) : ∃ c, s.mem a = some c := by
  rcases knows_cases hk with hc | hc | hc
  · exact h.owned_alloc hc
  · exact h.limbo_alloc hc
  · exact h.prot_alloc (h.prot t a hc)

/-- Dereferencing a node the thread knows succeeds. -/
theorem Inv.deref {s : State n V} {k σ role} (h : Inv s k σ role) {t : Fin n} {a : Addr}
    (hk : (s.th t).knows = some a) : ∃ c, s.mem a = some c ∧ s.deref t a = some c := by
  obtain ⟨c, hc⟩ := h.know_alloc hk
  refine ⟨c, hc, ?_⟩
  have h1 := (h.cells a c hc).birth
  have h2 := (h.know t a hk c hc).1
  unfold State.deref
  rw [hc]
  exact if_pos (Nat.le_trans h1 h2)

/-- If the thread owns `a`, no other thread knows it. -/
theorem Inv.priv_knows {s : State n V} {k σ role} (h : Inv s k σ role) {t x : Fin n} {a : Addr}
    (hr : role a = .priv t) (hk : (s.th x).knows = some a) : x = t := by
  rcases knows_cases hk with hc | hc | hc
  · have := (h.rpriv a x).2 hc
    rw [hr] at this
    injection this with this
    exact this.symm
  · have := (h.rlimbo a x).2 hc
    rw [hr] at this; cases this
  · have := h.prot x a hc
    unfold Prot at this
    rw [hr] at this
    simp at this

/-! ### Steps that only touch one thread -/

theorem Inv.see {s : State n V} {k σ role} (h : Inv s k σ role) (t : Fin n) (w : View n)
    (hw : (s.view t).le w) (hk : w.head ≤ k) : Inv (s.see t w) k σ role := by
  have hv : ∀ x, (s.view x).le ((s.see t w).view x) := by
    intro x
    simp only [State.see]
    split
    · rename_i hx; subst hx; exact hw
    · exact View.le_refl _
  refine { h with ulimbo := ?_, pinR := ?_, pinG := ?_, know := ?_, vhead := ?_ }
  · intro x a hx i hi
    exact h.ulimbo x a hx i (Nat.le_trans (hv x).1 hi)
  · intro x hx r hr
    rcases h.pinR x hx r hr with h1 | h1
    · exact Or.inl h1
    · exact Or.inr (Nat.le_trans h1 (hv x).1)
  · intro x hx
    exact Nat.le_trans (h.pinG x hx) (hv x).1
  · intro x a hx c hc
    exact (h.know x a hx c hc).mono (hv x)
  · intro x
    simp only [State.see]
    split
    · exact hk
    · exact h.vhead x

/-- A step of one thread that neither acquires nor gives up a node. -/
theorem Inv.goto {s : State n V} {k σ role} (h : Inv s k σ role) (t : Fin n) (L : Local n V)
    (ho : L.owned = (s.th t).owned) (hl : L.limbo = (s.th t).limbo)
    (hpin : L.pinned = true → (∀ r ∈ s.retired, r.waits t = true ∨ r.unlink ≤ (s.view t).head) ∧
      s.gone ≤ (s.view t).head)
    (hp : ∀ a, L.held = some a → Prot s.retired role t a)
    (hn : ∀ a, L.knows = some a → ∀ c, s.mem a = some c → c.Seen a (s.view t))
    (hs : ∀ a x, L.link = some (a, x) → ∀ c, s.mem a = some c → c.lastVal = x) : Inv (s.goto t L) k σ role := by
  have key : ∀ P : Fin n → Local n V → Prop, P t L → (∀ x, P x (s.th x)) → ∀ x, P x ((s.goto t L).th x) := by
    intro P h1 h2 x
    simp only [State.goto]
    split
    · rename_i hx; subst hx; exact h1
    · exact h2 x
  refine { h with rpriv := ?_, rlimbo := ?_, ulimbo := ?_, pinR := ?_, pinG := ?_, prot := ?_, know := ?_, link := ?_ }
  · intro a
    exact key (fun x M => role a = .priv x ↔ M.owned = some a) (by rw [ho]; exact h.rpriv a t) (h.rpriv a)
  · intro a
    exact key (fun x M => role a = .limbo x ↔ M.limbo = some a) (by rw [hl]; exact h.rlimbo a t) (h.rlimbo a)
  · exact key (fun x M => ∀ a, M.limbo = some a → Out s.mem k σ a (s.view x).head)
      (by rw [hl]; exact h.ulimbo t) h.ulimbo
  · exact key (fun x M => M.pinned = true → ∀ r ∈ s.retired, r.waits x = true ∨ r.unlink ≤ (s.view x).head)
      (fun hx => (hpin hx).1) h.pinR
  · exact key (fun x M => M.pinned = true → s.gone ≤ (s.view x).head) (fun hx => (hpin hx).2) h.pinG
  · exact key (fun x M => ∀ a, M.held = some a → Prot s.retired role x a) hp h.prot
  · exact key (fun x M => ∀ a, M.knows = some a → ∀ c, s.mem a = some c → c.Seen a (s.view x)) hn h.know
  · exact key (fun x M => ∀ a y, M.link = some (a, y) → ∀ c, s.mem a = some c → c.lastVal = y) hs h.link

/-- The counter and the messages of the client do not matter. -/
theorem Inv.len {s : State n V} {k σ role} (h : Inv s k σ role) (l : List (Msg Int n)) :
    Inv { s with len := l } k σ role := { h with }

theorem Inv.post {s : State n V} {k σ role} (h : Inv s k σ role) (w : View n) (hw : w.head ≤ k) :
    Inv { s with posts := s.posts ++ [w] } k σ role := by
  refine { h with phead := ?_ }
  intro x hx
  rcases List.mem_append.1 hx with hx | hx
  · exact h.phead x hx
  · rw [List.mem_singleton.1 hx]; exact hw

theorem clientStep_le (s : State n V) (t x : Fin n) : (s.view x).le ((s.clientStep t).view x) := by
  simp only [State.clientStep, State.see]
  split
  · rename_i hx
    subst hx
    refine ⟨Nat.le_refl _, Nat.le_refl _, fun _ => Nat.le_refl _, fun u => ?_⟩
    dsimp only
    split
    · rename_i hu; rw [hu]; omega
    · exact Nat.le_refl _
  · exact View.le_refl _

theorem Inv.clientStep {s : State n V} {k σ role} (h : Inv s k σ role) (t : Fin n) :
    Inv (s.clientStep t) k σ role := by
  refine h.see t _ ?_ (h.vhead t)
  have := clientStep_le s t t
  simpa only [State.clientStep, State.see, if_true] using this

theorem Inv.unpin {s : State n V} {k σ role} (h : Inv s k σ role) (t : Fin n)
    (ho : (s.th t).owned = none) (hl : (s.th t).limbo = none) : Inv (s.unpin t) k σ role := by
  have hg := h.goto t .idle (by rw [ho]; rfl) (by rw [hl]; rfl) (by simp [Local.pinned])
    (by simp [Local.held]) (by simp [Local.knows]) (by simp [Local.link])
  have hmap : (s.unpin t).retired.map Retired.addr = s.retired.map Retired.addr := by
    simp [State.unpin, List.map_map, Function.comp_def]
  have hmem : ∀ r ∈ (s.unpin t).retired, ∃ q ∈ s.retired, r.addr = q.addr ∧ r.unlink = q.unlink ∧
      ∀ x, x ≠ t → r.waits x = q.waits x := by
    intro r hr
    simp only [State.unpin] at hr
    obtain ⟨q, hq, rfl⟩ := List.mem_map.1 hr
    exact ⟨q, hq, rfl, rfl, fun x hx => by simp [hx]⟩
  have hth : ∀ x, ((s.unpin t).th x) = ((s.goto t .idle).th x) := fun x => rfl
  have hidle : ((s.goto t .idle).th t) = .idle := by simp [State.goto]
  refine { hg with rret := ?_, retNodup := ?_, uret := ?_, pinR := ?_, prot := ?_ }
  · intro a; rw [hmap]; exact h.rret a
  · rw [hmap]; exact h.retNodup
  · intro r hr
    obtain ⟨q, hq, h1, h2, _⟩ := hmem r hr
    rw [h1, h2]
    exact h.uret q hq
  · intro x hx r hr
    obtain ⟨q, hq, _, h2, h3⟩ := hmem r hr
    have hxt : x ≠ t := by
      rintro rfl
      rw [hth, hidle] at hx
      cases hx
    rw [h3 x hxt, h2]
    exact hg.pinR x hx q hq
  · intro x a hx
    have hxt : x ≠ t := by
      rintro rfl
      rw [hth, hidle] at hx
      cases hx
    rcases hg.prot x a hx with h1 | h1 | ⟨h1, h1'⟩
    · exact Or.inl h1
    · exact Or.inr (Or.inl h1)
    · refine Or.inr (Or.inr ⟨h1, fun r hr hra => ?_⟩)
      obtain ⟨q, hq, h2, _, h3⟩ := hmem r hr
      rw [h3 x hxt]
      exact h1' q hq (h2 ▸ hra)

theorem foldl_max_ge (l : List (Retired n)) (b : Nat) : b ≤ l.foldl (fun h r => max h r.unlink) b ∧
    ∀ r ∈ l, r.unlink ≤ l.foldl (fun h r => max h r.unlink) b := by
  induction l generalizing b with
  | nil => simp
  | cons x l ih =>
    obtain ⟨h1, h2⟩ := ih (max b x.unlink)
    rw [List.foldl_cons]
    refine ⟨by omega, ?_⟩
    intro r hr
    rcases List.mem_cons.1 hr with rfl | hr
    · omega
    · exact h2 r hr

theorem foldl_max_le (l : List (Retired n)) {b k : Nat} (hb : b ≤ k) (hl : ∀ r ∈ l, r.unlink ≤ k) :
    l.foldl (fun h r => max h r.unlink) b ≤ k := by
  induction l generalizing b with
  | nil => exact hb
  | cons x l ih =>
    rw [List.foldl_cons]
    exact ih (by have := hl x (by simp); omega) fun r hr => hl r (by simp [hr])

theorem pin_view_le (s : State n V) (t : Fin n) (sees : Addr → Bool) (x : Fin n) :
    (s.view x).le ((s.pin t sees).view x) := by
  simp only [State.pin, State.see]
  split
  · rename_i hx
    subst hx
    refine ⟨?_, Nat.le_refl _, fun _ => Nat.le_refl _, fun _ => Nat.le_refl _⟩
    dsimp only
    have := (foldl_max_ge (s.retired.filter fun r => sees r.addr) (max (s.view x).head s.gone)).1
    omega
  · exact View.le_refl _

theorem Inv.pin {s : State n V} {k σ role} (h : Inv s k σ role) (t : Fin n) (sees : Addr → Bool)
    (hi : s.th t = .idle) : Inv (s.pin t sees) k σ role ∧
      (∀ r ∈ (s.pin t sees).retired, r.waits t = true ∨ r.unlink ≤ ((s.pin t sees).view t).head) ∧
      (s.pin t sees).gone ≤ ((s.pin t sees).view t).head := by
  have hge := foldl_max_ge (s.retired.filter fun r => sees r.addr) (max (s.view t).head s.gone)
  have hle : (s.retired.filter fun r => sees r.addr).foldl (fun h r => max h r.unlink) (max (s.view t).head s.gone) ≤ k := by
    refine foldl_max_le _ ?_ fun r hr => ?_
    · have := h.vhead t; have := h.gonek; omega
    · exact (h.uret r (List.mem_filter.1 hr).1).1
  have hpv := pin_view_le s t sees t
  have hs := h.see t ((s.pin t sees).view t) hpv (by simpa [State.pin, State.see] using hle)
  have hview : ∀ x, (s.pin t sees).view x = (s.see t ((s.pin t sees).view t)).view x := by
    intro x
    simp only [State.see]
    split
    · rename_i hx; subst hx; rfl
    · rename_i hx; simp [State.pin, State.see, hx]
  have hmap : (s.pin t sees).retired.map Retired.addr = s.retired.map Retired.addr := by
    simp only [State.pin, List.map_map]
    refine List.map_congr_left fun r _ => ?_
    simp only [Function.comp]
    split <;> rfl
  have hmem : ∀ r ∈ (s.pin t sees).retired, ∃ q ∈ s.retired, r.addr = q.addr ∧ r.unlink = q.unlink ∧
      (∀ x, x ≠ t → r.waits x = q.waits x) ∧ (r.waits t = true ∨ sees q.addr = true) := by
    intro r hr
    simp only [State.pin] at hr
    obtain ⟨q, hq, rfl⟩ := List.mem_map.1 hr
    refine ⟨q, hq, ?_⟩
    split
    · rename_i hs; exact ⟨rfl, rfl, fun _ _ => rfl, Or.inr hs⟩
    · exact ⟨rfl, rfl, fun x hx => by simp [hx], Or.inl (by simp)⟩
  have hnt : ∀ x, ((s.pin t sees).th x) = s.th x := fun _ => rfl
  refine ⟨?_, ?_, ?_⟩
  · refine { h with rret := ?_, retNodup := ?_, uret := ?_, ulimbo := ?_, pinR := ?_, pinG := ?_, prot := ?_, know := ?_, vhead := ?_ }
    · intro a; rw [hmap]; exact h.rret a
    · rw [hmap]; exact h.retNodup
    · intro x a hx
      rw [hview x]
      exact hs.ulimbo x a hx
    · intro r hr
      obtain ⟨q, hq, h1, h2, _⟩ := hmem r hr
      rw [h1, h2]
      exact h.uret q hq
    · intro x hx r hr
      obtain ⟨q, hq, _, h2, h3, _⟩ := hmem r hr
      have hxt : x ≠ t := by rintro rfl; rw [hnt, hi] at hx; cases hx
      rw [hview x, h3 x hxt, h2]
      exact hs.pinR x hx q hq
    · intro x hx
      rw [hview x]
      exact hs.pinG x hx
    · intro x a hx
      have hxt : x ≠ t := by rintro rfl; rw [hnt, hi] at hx; cases hx
      rcases h.prot x a hx with h1 | h1 | ⟨h1, h1'⟩
      · exact Or.inl h1
      · exact Or.inr (Or.inl h1)
      · refine Or.inr (Or.inr ⟨h1, fun r hr hra => ?_⟩)
        obtain ⟨q, hq, h2, _, h3, _⟩ := hmem r hr
        rw [h3 x hxt]
        exact h1' q hq (h2 ▸ hra)
    · intro x a hx c hc
      rw [hview x]
      exact hs.know x a hx c hc
    · intro x
      rw [hview x]
      exact hs.vhead x
  · intro r hr
    obtain ⟨q, hq, h1, h2, _, h3⟩ := hmem r hr
    rcases h3 with h3 | h3
    · exact Or.inl h3
    · refine Or.inr ?_
      rw [h2]
      have := hge.2 q (List.mem_filter.2 ⟨hq, h3⟩)
      simpa [State.pin, State.see] using this
  · have := hge.1
    simp only [State.pin, State.see, if_true]
    omega

/-! ### The steps that move nodes -/

theorem goto_all {s : State n V} {t : Fin n} {L : Local n V} (P : Fin n → Local n V → Prop) (h1 : P t L)
    (h2 : ∀ x, x ≠ t → P x (s.th x)) : ∀ x, P x ((s.goto t L).th x) := by
  intro x
  simp only [State.goto]
  split
  · rename_i hx; subst hx; exact h1
  · rename_i hx; exact h2 x hx

theorem Inv.alloc {s : State n V} {k σ role} (h : Inv s k σ role) {t : Fin n} {a : Addr} (ht : s.th t = .idle)
    (ha : s.mem a = none) {c : Cell n V} (hb : c.birth = s.stamp) (hl : c.lastTs = s.stamp)
    (hso : (c.next.map (·.1)).Pairwise (· > ·)) (hsee : c.Seen a (s.view t))
    (hpin : (∀ r ∈ s.retired, r.waits t = true ∨ r.unlink ≤ (s.view t).head) ∧ s.gone ≤ (s.view t).head) :
    Inv ({ s.write a (some c) with stamp := s.stamp + 1 }.goto t (.pushLoad a)) k σ
      (fun x => if x = a then .priv t else role x) := by
  have hf : role a = .free := (h.rfree a).2 ha
  have hal : a ∉ (σ k).map Elem.addr := by rw [← h.rlinked, hf]; simp
  have key : ∀ P : Fin n → Local n V → Prop, P t (.pushLoad a) → (∀ x, x ≠ t → P x (s.th x)) →
      ∀ x, P x (({ s.write a (some c) with stamp := s.stamp + 1 }.goto t (.pushLoad a)).th x) := by
    intro P h1 h2
    exact goto_all (s := { s.write a (some c) with stamp := s.stamp + 1 }) P h1 h2
  have hmem : ∀ x, ({ s.write a (some c) with stamp := s.stamp + 1 }.goto t (.pushLoad a)).mem x =
    if x = a then some c else s.mem x := fun _ => rfl
  have hold : ∀ x c', x ≠ a → ({ s.write a (some c) with stamp := s.stamp + 1 }.goto t (.pushLoad a)).mem x = some c' →
      s.mem x = some c' := by
    intro x c' hx hc
    rw [hmem, if_neg hx] at hc
    exact hc
  have hkn : ∀ x b, (s.th x).knows = some b → b ≠ a := by
    rintro x b hx rfl
    obtain ⟨c, hc⟩ := h.know_alloc hx
    rw [ha] at hc
    cases hc
  have hpr : ∀ x b, Prot s.retired role x b → Prot s.retired (fun x => if x = a then .priv t else role x) x b := by
    intro x b hp
    have hne : b ≠ a := by rintro rfl; unfold Prot at hp; rw [hf] at hp; simp at hp
    unfold Prot at hp ⊢
    simpa [hne] using hp
  have hout : ∀ b j, b ≠ a → Out s.mem k σ b j →
      Out ({ s.write a (some c) with stamp := s.stamp + 1 }.goto t (.pushLoad a)).mem k σ b j := by
    intro b j hb' ho i hi hik e he hea c' hc'
    exact ho i hi hik e he hea c' (hold _ _ hb' hc')
  refine { hlen := h.hlen, hval := h.hval, cover := ?_, alive := ?_, gonek := h.gonek, chain := ?_, nodup := h.nodup,
           rfree := ?_, rlinked := ?_, rpriv := ?_, rlimbo := ?_, rret := ?_, retNodup := h.retNodup, ulimbo := ?_,
           uret := ?_, pinR := ?_, pinG := ?_, prot := ?_, know := ?_, link := ?_, cells := ?_, eb := ?_,
           vhead := h.vhead, mhead := h.mhead, phead := h.phead, noFault := h.noFault }
  · intro i m hm e he c' hc' hbirth
    by_cases hx : e.addr = a
    · rw [hmem, if_pos hx] at hc'
      cases hc'
      have := h.eb i (getElem?_le h.hlen hm) e he
      omega
    · obtain ⟨h1, h2, h3⟩ := h.cover i m hm e he c' (hold _ _ hx hc') hbirth
      refine ⟨h1, h2, fun u => ?_⟩
      rw [if_neg hx]
      exact h3 u
  · intro i hi hik e he
    obtain ⟨c', h1, h2⟩ := h.alive i hi hik e he
    have hx : e.addr ≠ a := by intro hx; rw [hx, ha] at h1; cases h1
    exact ⟨c', by rw [hmem, if_neg hx]; exact h1, h2⟩
  · refine h.chain.congr fun e he => ?_
    have hx : e.addr ≠ a := fun hx => hal (hx ▸ List.mem_map_of_mem he)
    rw [hmem, if_neg hx]
  · intro x
    rw [hmem]
    by_cases hx : x = a
    · simp [hx]
    · simp [hx, h.rfree]
  · intro x
    by_cases hx : x = a
    · simp only [hx, if_true, reduceCtorEq, false_iff]; exact hal
    · simp only [hx, if_false]; exact h.rlinked x
  · intro x
    by_cases hx : x = a
    · subst hx
      refine key (fun u M => (if x = x then Role.priv t else role x) = .priv u ↔ M.owned = some x) ?_ ?_
      · simp [Local.owned]
      · intro u hu
        have hne : ¬ (s.th u).owned = some x := by rw [← h.rpriv, hf]; simp
        simp [hne, Ne.symm hu]
    · refine key (fun u M => (if x = a then Role.priv t else role x) = .priv u ↔ M.owned = some x) ?_ ?_
      · have := h.rpriv x t
        rw [ht] at this
        simpa [Local.owned, hx, Ne.symm hx] using this
      · intro u hu
        simpa [hx] using h.rpriv x u
  · intro x
    by_cases hx : x = a
    · subst hx
      refine key (fun u M => (if x = x then Role.priv t else role x) = .limbo u ↔ M.limbo = some x) ?_ ?_
      · simp [Local.limbo]
      · intro u hu
        have hne : ¬ (s.th u).limbo = some x := by rw [← h.rlimbo, hf]; simp
        simp [hne]
    · refine key (fun u M => (if x = a then Role.priv t else role x) = .limbo u ↔ M.limbo = some x) ?_ ?_
      · have := h.rlimbo x t
        rw [ht] at this
        simpa [Local.limbo, hx] using this
      · intro u hu
        simpa [hx] using h.rlimbo x u
  · intro x
    by_cases hx : x = a
    · have hne : ¬ x ∈ s.retired.map Retired.addr := by rw [← h.rret, hx, hf]; simp
      simp only [hx, if_true, reduceCtorEq, false_iff]
      rw [← hx]
      exact hne
    · simp only [hx, if_false]; exact h.rret x
  · refine key (fun u M => ∀ b, M.limbo = some b → Out _ k σ b (s.view u).head) (by simp [Local.limbo]) ?_
    intro u _ b hb
    refine hout b _ ?_ (h.ulimbo u b hb)
    rintro rfl
    rw [← h.rlimbo, hf] at hb
    cases hb
  · intro r hr
    obtain ⟨h1, h2⟩ := h.uret r hr
    refine ⟨h1, hout _ _ ?_ h2⟩
    intro hra
    have : role a = .retired := (h.rret a).2 (List.mem_map.2 ⟨r, hr, hra⟩)
    rw [hf] at this
    cases this
  · exact key (fun u M => M.pinned = true → ∀ r ∈ s.retired, r.waits u = true ∨ r.unlink ≤ (s.view u).head)
      (fun _ => hpin.1) fun u _ => h.pinR u
  · exact key (fun u M => M.pinned = true → s.gone ≤ (s.view u).head) (fun _ => hpin.2) fun u _ => h.pinG u
  · exact key (fun u M => ∀ b, M.held = some b → Prot s.retired (fun x => if x = a then .priv t else role x) u b)
      (by simp [Local.held]) fun u _ b hb => hpr u b (h.prot u b hb)
  · refine key (fun u M => ∀ b, M.knows = some b → ∀ c' : Cell n V, (if b = a then some c else s.mem b) = some c' → c'.Seen b (s.view u)) ?_ ?_
    · intro b hb c' hc'
      simp only [Local.knows, Option.some.injEq] at hb
      subst hb
      rw [if_pos rfl] at hc'
      cases hc'
      exact hsee
    · intro u _ b hb c' hc'
      exact h.know u b hb c' (hold _ _ (hkn u b hb) hc')
  · refine key (fun u M => ∀ b y, M.link = some (b, y) → ∀ c' : Cell n V, (if b = a then some c else s.mem b) = some c' → c'.lastVal = y) (by simp [Local.link]) ?_
    intro u _ b y hb c' hc'
    exact h.link u b y hb c' (hold _ _ (hkn u b (link_knows hb)) hc')
  · intro x c' hc'
    by_cases hx : x = a
    · rw [hmem, if_pos hx] at hc'
      cases hc'
      exact ⟨by omega, by show c.lastTs < s.stamp + 1; omega, hso⟩
    · exact (h.cells x c' (hold _ _ hx hc')).mono (Nat.le_succ _)
  · intro i hi e he
    exact Nat.lt_succ_of_lt (h.eb i hi e he)

/-- The owner of an unlinked node writes its `next`. -/
theorem Inv.store {s : State n V} {k σ role} (h : Inv s k σ role) {t : Fin n} {a : Addr} {x : Option Addr}
    (ht : (s.th t).owned = some a) {c c' : Cell n V} (hc : s.mem a = some c) (hb : c'.birth = c.birth)
    (hok : c'.Ok (s.stamp + 1)) (hval : c'.lastVal = x) (hsee : c'.Seen a (s.view t))
    (hpt : (s.th t).pinned = true) :
    Inv ({ s.write a (some c') with stamp := s.stamp + 1 }.goto t (.pushCas a x)) k σ role := by
  have hp : role a = .priv t := (h.rpriv a t).2 ht
  have hal : a ∉ (σ k).map Elem.addr := by rw [← h.rlinked, hp]; simp
  have key : ∀ P : Fin n → Local n V → Prop, P t (.pushCas a x) → (∀ x, x ≠ t → P x (s.th x)) →
      ∀ y, P y (({ s.write a (some c') with stamp := s.stamp + 1 }.goto t (.pushCas a x)).th y) := by
    intro P h1 h2
    exact goto_all (s := { s.write a (some c') with stamp := s.stamp + 1 }) P h1 h2
  have hmem : ∀ y, ({ s.write a (some c') with stamp := s.stamp + 1 }.goto t (.pushCas a x)).mem y =
    if y = a then some c' else s.mem y := fun _ => rfl
  have hold : ∀ y d, y ≠ a → ({ s.write a (some c') with stamp := s.stamp + 1 }.goto t (.pushCas a x)).mem y = some d →
      s.mem y = some d := by
    intro y d hy hd
    rw [hmem, if_neg hy] at hd
    exact hd
  have hkn : ∀ u b, u ≠ t → (s.th u).knows = some b → b ≠ a := by
    rintro u b hu hb rfl
    exact hu (h.priv_knows hp hb)
  have hout : ∀ b j, b ≠ a → Out s.mem k σ b j →
      Out ({ s.write a (some c') with stamp := s.stamp + 1 }.goto t (.pushCas a x)).mem k σ b j := by
    intro b j hb' ho i hi hik e he hea d hd
    exact ho i hi hik e he hea d (hold _ _ hb' hd)
  have hlim : (s.th t).limbo = none := by
    revert ht; cases s.th t <;> simp [Local.owned, Local.limbo]
  refine { hlen := h.hlen, hval := h.hval, cover := ?_, alive := ?_, gonek := h.gonek, chain := ?_, nodup := h.nodup,
           rfree := ?_, rlinked := h.rlinked, rpriv := ?_, rlimbo := ?_, rret := h.rret, retNodup := h.retNodup,
           ulimbo := ?_, uret := ?_, pinR := ?_, pinG := ?_, prot := ?_, know := ?_, link := ?_, cells := ?_, eb := ?_,
           vhead := h.vhead, mhead := h.mhead, phead := h.phead, noFault := h.noFault }
  · intro i m hm e he d hd hbirth
    by_cases hx : e.addr = a
    · rw [hmem, if_pos hx] at hd
      cases hd
      have := (h.cover i m hm e he c (by rw [hx]; exact hc) (by rw [← hb]; exact hbirth)).2.2 t
      rw [hx] at this
      exact absurd hp this
    · exact h.cover i m hm e he d (hold _ _ hx hd) hbirth
  · intro i hi hik e he
    obtain ⟨d, h1, h2⟩ := h.alive i hi hik e he
    by_cases hx : e.addr = a
    · refine ⟨c', by rw [hmem, if_pos hx], ?_⟩
      rw [hx, hc] at h1
      cases h1
      rw [hb, h2]
    · exact ⟨d, by rw [hmem, if_neg hx]; exact h1, h2⟩
  · refine h.chain.congr fun e he => ?_
    have hx : e.addr ≠ a := fun hx => hal (hx ▸ List.mem_map_of_mem he)
    rw [hmem, if_neg hx]
  · intro y
    rw [hmem]
    by_cases hy : y = a
    · subst hy
      have : role y = .free ↔ s.mem y = none := h.rfree y
      rw [hc] at this
      simpa using this
    · simp [hy, h.rfree]
  · intro b
    refine key (fun u M => role b = .priv u ↔ M.owned = some b) ?_ fun u _ => h.rpriv b u
    have := h.rpriv b t
    rw [ht] at this
    exact this
  · intro b
    refine key (fun u M => role b = .limbo u ↔ M.limbo = some b) ?_ fun u _ => h.rlimbo b u
    have := h.rlimbo b t
    rw [hlim] at this
    exact this
  · refine key (fun u M => ∀ b, M.limbo = some b → Out _ k σ b (s.view u).head) (by simp [Local.limbo]) ?_
    intro u _ b hb
    refine hout b _ ?_ (h.ulimbo u b hb)
    rintro rfl
    rw [← h.rlimbo, hp] at hb
    cases hb
  · intro r hr
    obtain ⟨h1, h2⟩ := h.uret r hr
    refine ⟨h1, hout _ _ ?_ h2⟩
    intro hra
    have : role a = .retired := (h.rret a).2 (List.mem_map.2 ⟨r, hr, hra⟩)
    rw [hp] at this
    cases this
  · exact key (fun u M => M.pinned = true → ∀ r ∈ s.retired, r.waits u = true ∨ r.unlink ≤ (s.view u).head)
      (fun _ => h.pinR t hpt) fun u _ => h.pinR u
  · exact key (fun u M => M.pinned = true → s.gone ≤ (s.view u).head) (fun _ => h.pinG t hpt) fun u _ => h.pinG u
  · exact key (fun u M => ∀ b, M.held = some b → Prot s.retired role u b)
      (by simp [Local.held]) fun u _ b hb => h.prot u b hb
  · refine key (fun u M => ∀ b, M.knows = some b → ∀ d : Cell n V, (if b = a then some c' else s.mem b) = some d → d.Seen b (s.view u)) ?_ ?_
    · intro b hb d hd
      simp only [Local.knows, Option.some.injEq] at hb
      subst hb
      rw [if_pos rfl] at hd
      cases hd
      exact hsee
    · intro u hu b hb d hd
      exact h.know u b hb d (hold _ _ (hkn u b hu hb) hd)
  · refine key (fun u M => ∀ b y, M.link = some (b, y) → ∀ d : Cell n V, (if b = a then some c' else s.mem b) = some d → d.lastVal = y) ?_ ?_
    · intro b y hb d hd
      simp only [Local.link, Option.some.injEq, Prod.mk.injEq] at hb
      obtain ⟨rfl, rfl⟩ := hb
      rw [if_pos rfl] at hd
      cases hd
      exact hval
    · intro u hu b y hb d hd
      exact h.link u b y hb d (hold _ _ (hkn u b hu (link_knows hb)) hd)
  · intro y d hd
    by_cases hy : y = a
    · rw [hmem, if_pos hy] at hd
      cases hd
      exact hok
    · exact (h.cells y d (hold _ _ hy hd)).mono (Nat.le_succ _)
  · intro i hi e he
    exact Nat.lt_succ_of_lt (h.eb i hi e he)

/-- The history of stacks with one more. -/
def extend (k : Nat) (σ : Nat → List (Elem V)) (l : List (Elem V)) : Nat → List (Elem V) :=
  fun i => if i = k + 1 then l else σ i

theorem extend_new (k : Nat) (σ : Nat → List (Elem V)) (l : List (Elem V)) : extend k σ l (k + 1) = l := if_pos rfl

theorem extend_old {k i : Nat} (σ : Nat → List (Elem V)) (l : List (Elem V)) (hi : i ≤ k) : extend k σ l i = σ i :=
  if_neg (by omega)

theorem getElem?_append_cases {α : Type} {l : List α} {k i : Nat} {x m : α} (hl : l.length = k + 1)
    (h : (l ++ [x])[i]? = some m) : (i ≤ k ∧ l[i]? = some m) ∨ (i = k + 1 ∧ m = x) := by
  by_cases hi : i < l.length
  · rw [List.getElem?_append_left hi] at h
    exact Or.inl ⟨by omega, h⟩
  · rw [List.getElem?_append_right (by omega)] at h
    have h2 := (List.getElem?_eq_some_iff.1 h).1
    simp at h2
    have : i - l.length = 0 := by omega
    rw [this] at h
    simp at h
    exact Or.inr ⟨by omega, h.symm⟩

/-- The compare-and-swap of `push` succeeds. -/
theorem Inv.link_node {s : State n V} {k σ role} (h : Inv s k σ role) {t : Fin n} {a : Addr} {x : Option Addr}
    (ht : s.th t = .pushCas a x) {m : Msg (Option Addr) n} (hm : s.head[k]? = some m) (hx : m.val = x)
    {c : Cell n V} (hc : s.mem a = some c) {w : View n} (hwl : m.view.le w) (hwt : (s.view t).le w)
    (hwk : w.head ≤ k + 1) (hv : (s.view t).head ≤ k) :
    Inv ({ s with head := s.head ++ [Msg.mk (some a) w] }.goto t .pushAdd) (k + 1)
      (extend k σ (⟨a, c.birth, c.value⟩ :: σ k)) (fun y => if y = a then .linked else role y) := by
  have hown : (s.th t).owned = some a := by rw [ht]; rfl
  have hp : role a = .priv t := (h.rpriv a t).2 hown
  have hpt : (s.th t).pinned = true := by rw [ht]; rfl
  have hal : a ∉ (σ k).map Elem.addr := by rw [← h.rlinked, hp]; simp
  have key : ∀ P : Fin n → Local n V → Prop, P t .pushAdd → (∀ x, x ≠ t → P x (s.th x)) →
      ∀ y, P y (({ s with head := s.head ++ [Msg.mk (some a) w] }.goto t .pushAdd).th y) := by
    intro P h1 h2
    exact goto_all (s := { s with head := s.head ++ [Msg.mk (some a) w] }) P h1 h2
  have hrne : ∀ y : Addr, (∀ u, role y ≠ .priv u) → y ≠ a := by
    rintro y hy rfl
    exact hy t hp
  have hout : ∀ b j, b ≠ a → j ≤ k → Out s.mem k σ b j →
      Out s.mem (k + 1) (extend k σ (⟨a, c.birth, c.value⟩ :: σ k)) b j := by
    intro b j hb hj ho i hi hik e he hea d hd
    by_cases hik' : i ≤ k
    · rw [extend_old _ _ hik'] at he
      exact ho i hi hik' e he hea d hd
    · have : i = k + 1 := by omega
      subst this
      rw [extend_new] at he
      rcases List.mem_cons.1 he with rfl | he
      · exact absurd hea.symm hb
      · exact ho k hj (Nat.le_refl _) e he hea d hd
  have hpr : ∀ y b, Prot s.retired role y b → Prot s.retired (fun y => if y = a then .linked else role y) y b := by
    intro y b hpb
    by_cases hb : b = a
    · exact Or.inl (by simp [hb])
    · unfold Prot at hpb ⊢
      simpa [hb] using hpb
  refine { hlen := ?_, hval := ?_, cover := ?_, alive := ?_, gonek := Nat.le_succ_of_le h.gonek, chain := ?_, nodup := ?_,
           rfree := ?_, rlinked := ?_, rpriv := ?_, rlimbo := ?_, rret := ?_, retNodup := h.retNodup, ulimbo := ?_,
           uret := ?_, pinR := ?_, pinG := ?_, prot := ?_, know := ?_, link := ?_, cells := h.cells, eb := ?_,
           vhead := fun u => Nat.le_succ_of_le (h.vhead u), mhead := ?_, phead := fun v hv => Nat.le_succ_of_le (h.phead v hv),
           noFault := h.noFault }
  · simp [State.goto, h.hlen]
  · intro i m' hm'
    rcases getElem?_append_cases h.hlen hm' with ⟨hi, hm'⟩ | ⟨hi, hm'⟩
    · rw [extend_old _ _ hi]; exact h.hval i m' hm'
    · rw [hi, hm', extend_new]; rfl
  · intro i m' hm' e he d hd hbirth
    rcases getElem?_append_cases h.hlen hm' with ⟨hi, hm2⟩ | ⟨hi, hm2⟩
    · rw [extend_old _ _ hi] at he
      obtain ⟨h1, h2, h3⟩ := h.cover i m' hm2 e he d hd hbirth
      refine ⟨h1, h2, fun u => ?_⟩
      rw [if_neg (hrne _ h3)]
      exact h3 u
    · subst hi hm2
      rw [extend_new] at he
      rcases List.mem_cons.1 he with rfl | he
      · have hd' : s.mem a = some d := hd
        rw [hc] at hd'
        cases hd'
        refine ⟨rfl, (h.know t a (owned_knows hown) c hc).mono hwt, fun u => ?_⟩
        simp
      · obtain ⟨h1, h2, h3⟩ := h.cover k m hm e he d hd hbirth
        refine ⟨h1, h2.mono hwl, fun u => ?_⟩
        rw [if_neg (hrne _ h3)]
        exact h3 u
  · intro i hi hik e he
    by_cases hik' : i ≤ k
    · rw [extend_old _ _ hik'] at he
      exact h.alive i hi hik' e he
    · have : i = k + 1 := by omega
      subst this
      rw [extend_new] at he
      rcases List.mem_cons.1 he with rfl | he
      · exact ⟨c, hc, rfl⟩
      · exact h.alive k h.gonek (Nat.le_refl _) e he
  · rw [extend_new]
    refine ⟨?_, h.chain⟩
    intro d hd
    rw [h.link t a x (by rw [ht]; rfl) d hd, ← hx, h.hval k m hm]
  · rw [extend_new, List.map_cons, List.nodup_cons]
    exact ⟨hal, h.nodup⟩
  · intro y
    by_cases hy : y = a
    · subst hy
      show _ ↔ s.mem y = none
      simp [hc]
    · simp only [hy, if_false]; exact h.rfree y
  · intro y
    rw [extend_new, List.map_cons, List.mem_cons]
    by_cases hy : y = a
    · simp [hy]
    · simp only [hy, if_false, false_or]; exact h.rlinked y
  · intro b
    refine key (fun u M => (if b = a then Role.linked else role b) = .priv u ↔ M.owned = some b) ?_ ?_
    · by_cases hb : b = a
      · simp [hb, Local.owned]
      · have := h.rpriv b t
        rw [hown] at this
        simpa [hb, Ne.symm hb, Local.owned] using this
    · intro u hu
      by_cases hb : b = a
      · have := h.rpriv a u
        rw [hp] at this
        simpa [hb, Ne.symm hu] using this
      · simpa [hb] using h.rpriv b u
  · intro b
    refine key (fun u M => (if b = a then Role.linked else role b) = .limbo u ↔ M.limbo = some b) ?_ ?_
    · by_cases hb : b = a
      · simp [hb, Local.limbo]
      · have := h.rlimbo b t
        rw [ht] at this
        simpa [hb, Local.limbo] using this
    · intro u hu
      by_cases hb : b = a
      · have := h.rlimbo a u
        rw [hp] at this
        simpa [hb] using this
      · simpa [hb] using h.rlimbo b u
  · intro b
    by_cases hb : b = a
    · have hn : ¬ a ∈ s.retired.map Retired.addr := by rw [← h.rret, hp]; simp
      simp only [hb, if_true, reduceCtorEq, false_iff]
      exact hn
    · simp only [hb, if_false]; exact h.rret b
  · refine key (fun u M => ∀ b, M.limbo = some b → Out s.mem _ _ b (s.view u).head) (by simp [Local.limbo]) ?_
    intro u _ b hb
    refine hout b _ ?_ (h.vhead u) (h.ulimbo u b hb)
    rintro rfl
    rw [← h.rlimbo, hp] at hb
    cases hb
  · intro r hr
    obtain ⟨h1, h2⟩ := h.uret r hr
    refine ⟨Nat.le_succ_of_le h1, hout _ _ ?_ h1 h2⟩
    intro hra
    have : role a = .retired := (h.rret a).2 (List.mem_map.2 ⟨r, hr, hra⟩)
    rw [hp] at this
    cases this
  · exact key (fun u M => M.pinned = true → ∀ r ∈ s.retired, r.waits u = true ∨ r.unlink ≤ (s.view u).head)
      (fun _ => h.pinR t hpt) fun u _ => h.pinR u
  · exact key (fun u M => M.pinned = true → s.gone ≤ (s.view u).head) (fun _ => h.pinG t hpt) fun u _ => h.pinG u
  · exact key (fun u M => ∀ b, M.held = some b → Prot s.retired _ u b)
      (by simp [Local.held]) fun u _ b hb => hpr u b (h.prot u b hb)
  · exact key (fun u M => ∀ b, M.knows = some b → ∀ d : Cell n V, s.mem b = some d → d.Seen b (s.view u))
      (by simp [Local.knows]) fun u _ => h.know u
  · exact key (fun u M => ∀ b y, M.link = some (b, y) → ∀ d : Cell n V, s.mem b = some d → d.lastVal = y)
      (by simp [Local.link]) fun u _ => h.link u
  · intro i hi e he
    by_cases hik' : i ≤ k
    · rw [extend_old _ _ hik'] at he
      exact h.eb i hik' e he
    · have : i = k + 1 := by omega
      subst this
      rw [extend_new] at he
      rcases List.mem_cons.1 he with rfl | he
      · have := h.cells a c hc
        exact Nat.lt_of_le_of_lt this.birth this.last
      · exact h.eb k (Nat.le_refl _) e he
  · intro i m' hm'
    rcases getElem?_append_cases h.hlen hm' with ⟨hi, hm'⟩ | ⟨hi, hm'⟩
    · exact h.mhead i m' hm'
    · rw [hi, hm']; exact hwk

/-- The compare-and-swap of `try_pop` succeeds. -/
theorem Inv.unlink_node {s : State n V} {k σ role} (h : Inv s k σ role) {t : Fin n} {a : Addr} {x : Option Addr}
    (ht : s.th t = .popCas a x) {m : Msg (Option Addr) n} (hm : s.head[k]? = some m) (hx : m.val = some a)
    {w : View n} (hwl : m.view.le w) (hwk : w.head ≤ k + 1) :
    ∃ e l, σ k = e :: l ∧ e.addr = a ∧ (∃ c, s.mem a = some c ∧ c.value = e.value) ∧
    ∀ v, (s.view t).le v → v.head = k + 1 →
    Inv (({ s with head := s.head ++ [Msg.mk x w] }.see t v).goto t (.popSub a)) (k + 1)
      (extend k σ l) (fun y => if y = a then .limbo t else role y) := by
  have hval := h.hval k m hm
  rw [hx] at hval
  cases hσ : σ k with
  | nil => rw [hσ] at hval; cases hval
  | cons e l =>
  rw [hσ] at hval
  have hea : e.addr = a := by
    simp only [top, List.head?_cons, Option.map_some, Option.some.injEq] at hval
    exact hval.symm
  have heσ : e ∈ σ k := by rw [hσ]; simp
  obtain ⟨c, hc, hcb⟩ := h.alive k h.gonek (Nat.le_refl _) e heσ
  have hcv := (h.cover k m hm e heσ c hc hcb).1
  rw [hea] at hc
  refine ⟨e, l, rfl, hea, ⟨c, hc, hcv⟩, ?_⟩
  intro v hv hvk
  have hlink : c.lastVal = x := h.link t a x (by rw [ht]; rfl) c hc
  have hch := h.chain
  rw [hσ] at hch
  have hxl : x = top l := by rw [← hlink]; exact hch.1 c (by rw [hea]; exact hc)
  have hnd := h.nodup
  rw [hσ, List.map_cons, List.nodup_cons, hea] at hnd
  have hp : role a = .linked := (h.rlinked a).2 (by rw [hσ, List.map_cons, hea]; simp)
  have hown : (s.th t).owned = none := by rw [ht]; rfl
  have hlim : (s.th t).limbo = none := by rw [ht]; rfl
  have hpt : (s.th t).pinned = true := by rw [ht]; rfl
  have hsub : ∀ e' ∈ l, e' ∈ σ k := fun e' he' => by rw [hσ]; simp [he']
  have hle : ∀ u, (s.view u).le (if u = t then v else s.view u) := by
    intro u
    split
    · rename_i hu; subst hu; exact hv
    · exact View.le_refl _
  have key : ∀ P : Fin n → Local n V → Prop, P t (.popSub a) → (∀ x, x ≠ t → P x (s.th x)) →
      ∀ y, P y ((({ s with head := s.head ++ [Msg.mk x w] }.see t v).goto t (.popSub a)).th y) := by
    intro P h1 h2
    exact goto_all (s := { s with head := s.head ++ [Msg.mk x w] }.see t v) P h1 h2
  have hout : ∀ b j, j ≤ k → Out s.mem k σ b j → Out s.mem (k + 1) (extend k σ l) b j := by
    intro b j hj ho i hi hik e' he hea d hd
    by_cases hik' : i ≤ k
    · rw [extend_old _ _ hik'] at he
      exact ho i hi hik' e' he hea d hd
    · have : i = k + 1 := by omega
      subst this
      rw [extend_new] at he
      exact ho k hj (Nat.le_refl _) e' (hsub e' he) hea d hd
  have hpr : ∀ y b, Prot s.retired role y b → Prot s.retired (fun y => if y = a then .limbo t else role y) y b := by
    intro y b hpb
    by_cases hb : b = a
    · exact Or.inr (Or.inl ⟨t, by simp [hb]⟩)
    · unfold Prot at hpb ⊢
      simpa [hb] using hpb
  refine { hlen := ?_, hval := ?_, cover := ?_, alive := ?_, gonek := Nat.le_succ_of_le h.gonek, chain := ?_, nodup := ?_,
           rfree := ?_, rlinked := ?_, rpriv := ?_, rlimbo := ?_, rret := ?_, retNodup := h.retNodup, ulimbo := ?_,
           uret := ?_, pinR := ?_, pinG := ?_, prot := ?_, know := ?_, link := ?_, cells := h.cells, eb := ?_,
           vhead := ?_, mhead := ?_, phead := fun v hv => Nat.le_succ_of_le (h.phead v hv), noFault := h.noFault }
  · simp [State.goto, State.see, h.hlen]
  · intro i m' hm'
    rcases getElem?_append_cases h.hlen hm' with ⟨hi, hm'⟩ | ⟨hi, hm'⟩
    · rw [extend_old _ _ hi]; exact h.hval i m' hm'
    · rw [hi, hm', extend_new]; exact hxl
  · intro i m' hm' e' he d hd hbirth
    have hfin : ∀ u, (∀ u, role e'.addr ≠ .priv u) → (if e'.addr = a then Role.limbo t else role e'.addr) ≠ .priv u := by
      intro u hu
      split
      · simp
      · exact hu u
    rcases getElem?_append_cases h.hlen hm' with ⟨hi, hm2⟩ | ⟨hi, hm2⟩
    · rw [extend_old _ _ hi] at he
      obtain ⟨h1, h2, h3⟩ := h.cover i m' hm2 e' he d hd hbirth
      exact ⟨h1, h2, fun u => hfin u h3⟩
    · subst hi hm2
      rw [extend_new] at he
      obtain ⟨h1, h2, h3⟩ := h.cover k m hm e' (hsub e' he) d hd hbirth
      exact ⟨h1, h2.mono hwl, fun u => hfin u h3⟩
  · intro i hi hik e' he
    by_cases hik' : i ≤ k
    · rw [extend_old _ _ hik'] at he
      exact h.alive i hi hik' e' he
    · have : i = k + 1 := by omega
      subst this
      rw [extend_new] at he
      exact h.alive k h.gonek (Nat.le_refl _) e' (hsub e' he)
  · rw [extend_new]; exact hch.2
  · rw [extend_new]; exact hnd.2
  · intro y
    by_cases hy : y = a
    · subst hy
      show _ ↔ s.mem y = none
      simp [hc]
    · simp only [hy, if_false]; exact h.rfree y
  · intro y
    rw [extend_new]
    by_cases hy : y = a
    · subst hy
      simp only [if_true, reduceCtorEq, false_iff]
      exact hnd.1
    · simp only [hy, if_false]
      rw [h.rlinked, hσ, List.map_cons, List.mem_cons, hea]
      simp [hy]
  · intro b
    refine key (fun u M => (if b = a then Role.limbo t else role b) = .priv u ↔ M.owned = some b) ?_ ?_
    · by_cases hb : b = a
      · simp [hb, Local.owned]
      · have := h.rpriv b t
        rw [hown] at this
        simpa [hb, Local.owned] using this
    · intro u hu
      by_cases hb : b = a
      · have := h.rpriv a u
        rw [hp] at this
        simpa [hb] using this
      · simpa [hb] using h.rpriv b u
  · intro b
    refine key (fun u M => (if b = a then Role.limbo t else role b) = .limbo u ↔ M.limbo = some b) ?_ ?_
    · by_cases hb : b = a
      · simp [hb, Local.limbo]
      · have := h.rlimbo b t
        rw [hlim] at this
        simpa [hb, Ne.symm hb, Local.limbo] using this
    · intro u hu
      by_cases hb : b = a
      · have := h.rlimbo a u
        rw [hp] at this
        simpa [hb, Ne.symm hu] using this
      · simpa [hb] using h.rlimbo b u
  · intro b
    by_cases hb : b = a
    · have hn : ¬ a ∈ s.retired.map Retired.addr := by rw [← h.rret, hp]; simp
      simp only [hb, if_true, reduceCtorEq, false_iff]
      exact hn
    · simp only [hb, if_false]; exact h.rret b
  · refine key (fun u M => ∀ b, M.limbo = some b → Out s.mem _ _ b (if u = t then v else s.view u).head) ?_ ?_
    · intro b hb i hi hik e' he hea' d hd
      simp only [Local.limbo, Option.some.injEq] at hb
      rw [if_pos rfl, hvk] at hi
      have : i = k + 1 := by omega
      subst this
      rw [extend_new] at he
      refine absurd (List.mem_map_of_mem (f := Elem.addr) he) ?_
      rw [hea', ← hb]
      exact hnd.1
    · intro u hu b hb
      rw [if_neg hu]
      exact hout b _ (h.vhead u) (h.ulimbo u b hb)
  · intro r hr
    obtain ⟨h1, h2⟩ := h.uret r hr
    exact ⟨Nat.le_succ_of_le h1, hout _ _ h1 h2⟩
  · refine key (fun u M => M.pinned = true → ∀ r ∈ s.retired, r.waits u = true ∨ r.unlink ≤ (if u = t then v else s.view u).head) ?_ ?_
    · intro _ r hr
      rw [if_pos rfl]
      exact (h.pinR t hpt r hr).imp id fun hh => Nat.le_trans hh hv.1
    · intro u hu hpu r hr
      exact (h.pinR u hpu r hr).imp id fun hh => Nat.le_trans hh (hle u).1
  · refine key (fun u M => M.pinned = true → s.gone ≤ (if u = t then v else s.view u).head) ?_ ?_
    · intro _
      rw [if_pos rfl]
      exact Nat.le_trans (h.pinG t hpt) hv.1
    · intro u hu hpu
      exact Nat.le_trans (h.pinG u hpu) (hle u).1
  · exact key (fun u M => ∀ b, M.held = some b → Prot s.retired _ u b)
      (by simp [Local.held]) fun u _ b hb => hpr u b (h.prot u b hb)
  · refine key (fun u M => ∀ b, M.knows = some b → ∀ d : Cell n V, s.mem b = some d → d.Seen b (if u = t then v else s.view u)) ?_ ?_
    · intro b hb d hd
      simp only [Local.knows, Option.some.injEq] at hb
      subst hb
      rw [if_pos rfl]
      exact (h.know t a (by rw [ht]; rfl) d hd).mono hv
    · intro u _ b hb d hd
      exact (h.know u b hb d hd).mono (hle u)
  · exact key (fun u M => ∀ b y, M.link = some (b, y) → ∀ d : Cell n V, s.mem b = some d → d.lastVal = y)
      (by simp [Local.link]) fun u _ => h.link u
  · intro i hi e' he
    by_cases hik' : i ≤ k
    · rw [extend_old _ _ hik'] at he
      exact h.eb i hik' e' he
    · have : i = k + 1 := by omega
      subst this
      rw [extend_new] at he
      exact h.eb k (Nat.le_refl _) e' (hsub e' he)
  · intro u
    show (if u = t then v else s.view u).head ≤ k + 1
    split
    · omega
    · exact Nat.le_succ_of_le (h.vhead u)
  · intro i m' hm'
    rcases getElem?_append_cases h.hlen hm' with ⟨hi, hm'⟩ | ⟨hi, hm'⟩
    · exact h.mhead i m' hm'
    · rw [hi, hm']; exact hwk

/-- `guard.defer` of the unlinked node. -/
theorem Inv.defer {s : State n V} {k σ role} (h : Inv s k σ role) {t : Fin n} {a : Addr} (ht : s.th t = .popDefer a) :
    Inv ({ s with retired := ⟨a, (s.view t).head, fun x => (s.th x).pinned⟩ :: s.retired }.goto t (.popRead a)) k σ
      (fun y => if y = a then .retired else role y) := by
  have hlim : (s.th t).limbo = some a := by rw [ht]; rfl
  have hp : role a = .limbo t := (h.rlimbo a t).2 hlim
  have hown : (s.th t).owned = none := by rw [ht]; rfl
  have hpt : (s.th t).pinned = true := by rw [ht]; rfl
  have hnr : a ∉ s.retired.map Retired.addr := by rw [← h.rret, hp]; simp
  obtain ⟨c, hc⟩ := h.limbo_alloc hlim
  have key : ∀ P : Fin n → Local n V → Prop, P t (.popRead a) → (∀ x, x ≠ t → P x (s.th x)) →
      ∀ y, P y (({ s with retired := ⟨a, (s.view t).head, fun x => (s.th x).pinned⟩ :: s.retired }.goto t (.popRead a)).th y) := by
    intro P h1 h2
    exact goto_all (s := { s with retired := ⟨a, (s.view t).head, fun x => (s.th x).pinned⟩ :: s.retired }) P h1 h2
  have hpr : ∀ u b, (s.th u).pinned = true → (Prot s.retired role u b ∨ b = a) →
      Prot (⟨a, (s.view t).head, fun x => (s.th x).pinned⟩ :: s.retired) (fun y => if y = a then .retired else role y) u b := by
    intro u b hu hpb
    by_cases hb : b = a
    · subst hb
      refine Or.inr (Or.inr ⟨by simp, fun r hr hra => ?_⟩)
      rcases List.mem_cons.1 hr with rfl | hr
      · exact hu
      · exact absurd (List.mem_map.2 ⟨r, hr, hra⟩) hnr
    · rcases hpb with (h1 | ⟨t', h1⟩ | ⟨h1, h2⟩) | h1
      · exact Or.inl (by simpa [hb] using h1)
      · exact Or.inr (Or.inl ⟨t', by simpa [hb] using h1⟩)
      · refine Or.inr (Or.inr ⟨by simpa [hb] using h1, fun r hr hra => ?_⟩)
        rcases List.mem_cons.1 hr with rfl | hr
        · exact absurd hra.symm hb
        · exact h2 r hr hra
      · exact absurd h1 hb
  refine { hlen := h.hlen, hval := h.hval, cover := ?_, alive := h.alive, gonek := h.gonek, chain := h.chain, nodup := h.nodup,
           rfree := ?_, rlinked := ?_, rpriv := ?_, rlimbo := ?_, rret := ?_, retNodup := ?_, ulimbo := ?_,
           uret := ?_, pinR := ?_, pinG := ?_, prot := ?_, know := ?_, link := ?_, cells := h.cells, eb := h.eb,
           vhead := h.vhead, mhead := h.mhead, phead := h.phead, noFault := h.noFault }
  · intro i m hm e he d hd hbirth
    obtain ⟨h1, h2, h3⟩ := h.cover i m hm e he d hd hbirth
    refine ⟨h1, h2, fun u => ?_⟩
    split
    · simp
    · exact h3 u
  · intro y
    by_cases hy : y = a
    · subst hy
      show _ ↔ s.mem y = none
      simp [hc]
    · simp only [hy, if_false]; exact h.rfree y
  · intro y
    by_cases hy : y = a
    · have := h.rlinked a
      rw [hp] at this
      simpa [hy] using this
    · simp only [hy, if_false]; exact h.rlinked y
  · intro b
    refine key (fun u M => (if b = a then Role.retired else role b) = .priv u ↔ M.owned = some b) ?_ ?_
    · by_cases hb : b = a
      · simp [hb, Local.owned]
      · have := h.rpriv b t
        rw [hown] at this
        simpa [hb, Local.owned] using this
    · intro u hu
      by_cases hb : b = a
      · have := h.rpriv a u
        rw [hp] at this
        simpa [hb] using this
      · simpa [hb] using h.rpriv b u
  · intro b
    refine key (fun u M => (if b = a then Role.retired else role b) = .limbo u ↔ M.limbo = some b) ?_ ?_
    · by_cases hb : b = a
      · simp [hb, Local.limbo]
      · have := h.rlimbo b t
        rw [hlim] at this
        simpa [hb, Ne.symm hb, Local.limbo] using this
    · intro u hu
      by_cases hb : b = a
      · have := h.rlimbo a u
        rw [hp] at this
        simpa [hb, Ne.symm hu] using this
      · simpa [hb] using h.rlimbo b u
  · intro b
    show _ ↔ b ∈ (a :: s.retired.map Retired.addr)
    by_cases hb : b = a
    · simp [hb]
    · rw [List.mem_cons]
      simp only [hb, if_false, false_or]; exact h.rret b
  · show (a :: s.retired.map Retired.addr).Nodup
    exact List.nodup_cons.2 ⟨hnr, h.retNodup⟩
  · exact key (fun u M => ∀ b, M.limbo = some b → Out s.mem k σ b (s.view u).head) (by simp [Local.limbo])
      fun u _ => h.ulimbo u
  · intro r hr
    rcases List.mem_cons.1 hr with rfl | hr
    · exact ⟨h.vhead t, h.ulimbo t a hlim⟩
    · exact h.uret r hr
  · refine key (fun u M => M.pinned = true → ∀ r ∈ (⟨a, (s.view t).head, fun x => (s.th x).pinned⟩ :: s.retired : List (Retired n)),
      r.waits u = true ∨ r.unlink ≤ (s.view u).head) ?_ ?_
    · intro _ r hr
      rcases List.mem_cons.1 hr with rfl | hr
      · exact Or.inl hpt
      · exact h.pinR t hpt r hr
    · intro u _ hu r hr
      rcases List.mem_cons.1 hr with rfl | hr
      · exact Or.inl hu
      · exact h.pinR u hu r hr
  · exact key (fun u M => M.pinned = true → s.gone ≤ (s.view u).head) (fun _ => h.pinG t hpt) fun u _ => h.pinG u
  · refine key (fun u M => ∀ b, M.held = some b → Prot _ _ u b) ?_ ?_
    · intro b hb
      simp only [Local.held, Option.some.injEq] at hb
      exact hpr t b hpt (Or.inr hb.symm)
    · intro u _ b hb
      exact hpr u b (held_pinned hb) (Or.inl (h.prot u b hb))
  · refine key (fun u M => ∀ b, M.knows = some b → ∀ d : Cell n V, s.mem b = some d → d.Seen b (s.view u)) ?_ fun u _ => h.know u
    intro b hb d hd
    simp only [Local.knows, Option.some.injEq] at hb
    subst hb
    exact h.know t a (by rw [ht]; rfl) d hd
  · exact key (fun u M => ∀ b y, M.link = some (b, y) → ∀ d : Cell n V, s.mem b = some d → d.lastVal = y)
      (by simp [Local.link]) fun u _ => h.link u

theorem nodup_eraseP {l : List (Retired n)} {r : Retired n} (p : Retired n → Bool) (hn : (l.map Retired.addr).Nodup)
    (hf : l.find? p = some r) : ∀ q, q ∈ l.eraseP p ↔ q ∈ l ∧ q.addr ≠ r.addr := by
  induction l with
  | nil => simp at hf
  | cons x l ih =>
    rw [List.map_cons, List.nodup_cons] at hn
    rw [List.find?_cons] at hf
    intro q
    cases hp : p x with
    | true =>
      rw [hp] at hf
      cases hf
      rw [List.eraseP_cons_of_pos hp, List.mem_cons]
      constructor
      · intro hq
        refine ⟨Or.inr hq, fun he => hn.1 ?_⟩
        exact List.mem_map.2 ⟨q, hq, he⟩
      · rintro ⟨rfl | hq, h2⟩
        · exact absurd rfl h2
        · exact hq
    | false =>
      rw [hp] at hf
      have hr := List.mem_of_find?_eq_some hf
      rw [List.eraseP_cons_of_neg (by simp [hp]), List.mem_cons, List.mem_cons, ih hn.2 hf]
      constructor
      · rintro (rfl | hq)
        · exact ⟨Or.inl rfl, fun he => hn.1 (List.mem_map.2 ⟨r, hr, he.symm⟩)⟩
        · exact ⟨Or.inr hq.1, hq.2⟩
      · rintro ⟨rfl | hq, h2⟩
        · exact Or.inl rfl
        · exact Or.inr ⟨hq, h2⟩

/-- The collector frees a node. -/
theorem Inv.reclaim {s : State n V} {k σ role} (h : Inv s k σ role) {a : Addr} {r : Retired n}
    (hf : s.retired.find? (fun r => r.addr = a ∧ r.ripe = true) = some r) :
    (∃ c, s.mem a = some c) ∧ (∀ u, (s.th u).knows ≠ some a) ∧
    Inv { s.write a none with gone := max s.gone r.unlink,
                              retired := s.retired.eraseP (fun r => r.addr = a ∧ r.ripe = true) } k σ
      (fun y => if y = a then .free else role y) := by
  have hmem := List.mem_of_find?_eq_some hf
  have hpr := List.find?_some hf
  simp only [decide_eq_true_eq, Retired.ripe] at hpr
  obtain ⟨hra, hw⟩ := hpr
  have hrole : role a = .retired := (h.rret a).2 (List.mem_map.2 ⟨r, hmem, hra⟩)
  have halloc : ∃ c, s.mem a = some c := by
    cases hm : s.mem a with
    | some c => exact ⟨c, rfl⟩
    | none => rw [(h.rfree a).2 hm] at hrole; cases hrole
  have hkn : ∀ u b, (s.th u).knows = some b → b ≠ a := by
    rintro u b hb rfl
    rcases knows_cases hb with hc | hc | hc
    · rw [← h.rpriv, hrole] at hc; cases hc
    · rw [← h.rlimbo, hrole] at hc; cases hc
    · have := h.prot u b hc
      unfold Prot at this
      rw [hrole] at this
      simp only [reduceCtorEq, exists_false, true_and, false_or] at this
      have := this r hmem hra
      rw [hw u] at this
      cases this
  refine ⟨halloc, fun u hu => hkn u a hu rfl, ?_⟩
  have her := nodup_eraseP _ h.retNodup hf
  have hal : a ∉ (σ k).map Elem.addr := by rw [← h.rlinked, hrole]; simp
  have hold : ∀ y d, ((s.write a none).mem y = some d) → y ≠ a ∧ s.mem y = some d := by
    intro y d hd
    simp only [State.write] at hd
    split at hd
    · cases hd
    · rename_i hy; exact ⟨hy, hd⟩
  have hunl := h.uret r hmem
  rw [hra] at hunl
  have hout : ∀ b j, Out s.mem k σ b j → Out (s.write a none).mem k σ b j := by
    intro b j ho i hi hik e he hea d hd
    exact ho i hi hik e he hea d (hold _ _ hd).2
  have hprot : ∀ u b, b ≠ a → Prot s.retired role u b →
      Prot (s.retired.eraseP (fun r => r.addr = a ∧ r.ripe = true)) (fun y => if y = a then .free else role y) u b := by
    intro u b hb hp
    rcases hp with h1 | ⟨t', h1⟩ | ⟨h1, h2⟩
    · exact Or.inl (by simpa [hb] using h1)
    · exact Or.inr (Or.inl ⟨t', by simpa [hb] using h1⟩)
    · exact Or.inr (Or.inr ⟨by simpa [hb] using h1, fun q hq hqa => h2 q ((her q).1 hq).1 hqa⟩)
  refine { hlen := h.hlen, hval := h.hval, cover := ?_, alive := ?_, gonek := ?_, chain := ?_, nodup := h.nodup,
           rfree := ?_, rlinked := ?_, rpriv := ?_, rlimbo := ?_, rret := ?_, retNodup := ?_, ulimbo := ?_,
           uret := ?_, pinR := ?_, pinG := ?_, prot := ?_, know := ?_, link := ?_, cells := ?_, eb := h.eb,
           vhead := h.vhead, mhead := h.mhead, phead := h.phead, noFault := h.noFault }
  · intro i m hm e he d hd hbirth
    obtain ⟨hne, hd⟩ := hold _ _ hd
    obtain ⟨h1, h2, h3⟩ := h.cover i m hm e he d hd hbirth
    refine ⟨h1, h2, fun u => ?_⟩
    rw [if_neg hne]
    exact h3 u
  · intro i hi hik e he
    have hi : max s.gone r.unlink ≤ i := hi
    obtain ⟨d, h1, h2⟩ := h.alive i (by omega) hik e he
    have hne : e.addr ≠ a := by
      intro hea
      exact hunl.2 i (by omega) hik e he hea d (by rw [← hea]; exact h1) h2
    exact ⟨d, by simp only [State.write]; rw [if_neg hne]; exact h1, h2⟩
  · have := h.gonek
    have := hunl.1
    show max s.gone r.unlink ≤ k
    omega
  · refine h.chain.congr fun e he => ?_
    have hx : e.addr ≠ a := fun hx => hal (hx ▸ List.mem_map_of_mem he)
    simp only [State.write]
    rw [if_neg hx]
  · intro y
    show _ ↔ (if y = a then none else s.mem y) = none
    by_cases hy : y = a
    · simp [hy]
    · simp [hy, h.rfree]
  · intro y
    by_cases hy : y = a
    · simp only [hy, if_true, reduceCtorEq, false_iff]; exact hal
    · simp only [hy, if_false]; exact h.rlinked y
  · intro b u
    by_cases hb : b = a
    · have := h.rpriv a u
      rw [hrole] at this
      simpa [hb, State.write] using this
    · simpa [hb, State.write] using h.rpriv b u
  · intro b u
    by_cases hb : b = a
    · have := h.rlimbo a u
      rw [hrole] at this
      simpa [hb, State.write] using this
    · simpa [hb, State.write] using h.rlimbo b u
  · intro b
    by_cases hb : b = a
    · simp only [hb, if_true, reduceCtorEq, false_iff]
      intro hmm
      obtain ⟨q, hq, hqa⟩ := List.mem_map.1 hmm
      exact ((her q).1 hq).2 (by rw [hqa, hra])
    · simp only [hb, if_false]
      rw [h.rret]
      constructor
      · intro hmm
        obtain ⟨q, hq, hqa⟩ := List.mem_map.1 hmm
        exact List.mem_map.2 ⟨q, (her q).2 ⟨hq, by rw [hqa, hra]; exact hb⟩, hqa⟩
      · intro hmm
        obtain ⟨q, hq, hqa⟩ := List.mem_map.1 hmm
        exact List.mem_map.2 ⟨q, ((her q).1 hq).1, hqa⟩
  · exact h.retNodup.sublist (List.eraseP_sublist.map _)
  · intro u b hb
    exact hout _ _ (h.ulimbo u b hb)
  · intro q hq
    obtain ⟨h1, h2⟩ := h.uret q ((her q).1 hq).1
    exact ⟨h1, hout _ _ h2⟩
  · intro u hu q hq
    exact h.pinR u hu q ((her q).1 hq).1
  · intro u hu
    have h1 := h.pinG u hu
    have h2 := h.pinR u hu r hmem
    rw [hw u] at h2
    simp only [Bool.false_eq_true, false_or] at h2
    show max s.gone r.unlink ≤ (s.view u).head
    omega
  · intro u b hb
    exact hprot u b (hkn u b (held_knows hb)) (h.prot u b hb)
  · intro u b hb d hd
    exact h.know u b hb d (hold _ _ hd).2
  · intro u b y hb d hd
    exact h.link u b y hb d (hold _ _ hd).2
  · intro y d hd
    exact h.cells y d (hold _ _ hd).2

end Verif.Stack.Weak
