import Verif.Stack.Model

namespace Verif.Stack

open Verif.Spec

variable {n : Nat} {V : Type}

/-- `l` is the list of addresses reachable from `h`. -/
def Chain (mem : Addr → Option (Node V)) : Option Addr → List Addr → Prop
  | h, [] => h = none
  | h, a :: l => h = some a ∧ ∃ nd, mem a = some nd ∧ Chain mem nd.next l

theorem Chain.congr {mem mem' : Addr → Option (Node V)} {h : Option Addr} {l : List Addr}
    (hc : Chain mem h l) (he : ∀ a ∈ l, mem' a = mem a) : Chain mem' h l := by
  induction l generalizing h with
  | nil => exact hc
  | cons x l ih =>
    obtain ⟨h1, nd, h2, h3⟩ := hc
    exact ⟨h1, nd, by rw [he x (by simp)]; exact h2, ih h3 fun a ha => he a (by simp [ha])⟩

theorem Chain.none {mem : Addr → Option (Node V)} {l : List Addr} (hc : Chain mem none l) : l = [] := by
  cases l with
  | nil => rfl
  | cons a l => exact absurd hc.1 (by simp)

theorem Chain.some {mem : Addr → Option (Node V)} {h : Addr} {l : List Addr} (hc : Chain mem (some h) l) :
    ∃ l' nd, l = h :: l' ∧ mem h = Option.some nd ∧ Chain mem nd.next l' := by
  cases l with
  | nil => cases hc
  | cons a l =>
    obtain ⟨h1, nd, h2, h3⟩ := hc
    cases h1
    exact ⟨l, nd, rfl, h2, h3⟩

/-- The new node of a thread that has not yet linked it. -/
def Local.owned : Local V → Option Addr
  | .pushLoad a => some a
  | .pushStore a _ => some a
  | .pushCas a _ => some a
  | _ => none

/-- The node a thread has unlinked and not yet retired. -/
def Local.limbo : Local V → Option Addr
  | .popSub a => some a
  | .popDefer a => some a
  | _ => none

/-- The node a thread has read from the head and will still use. -/
def Local.held : Local V → Option Addr
  | .pushStore _ h => h
  | .pushCas _ h => h
  | .popNext h => some h
  | .popCas h _ => some h
  | .popRead h => some h
  | _ => none

/-- What a node is used for. -/
inductive Role (n : Nat) where
  | free
  | priv (t : Fin n)
  | linked
  | limbo (t : Fin n)
  | retired

/-- The node `a` cannot be reclaimed before `t` unpins. -/
def Prot (retired : List (Retired n)) (role : Addr → Role n) (t : Fin n) (a : Addr) : Prop :=
  role a = .linked ∨ (∃ t', role a = .limbo t') ∨
    (role a = .retired ∧ ∀ r ∈ retired, r.addr = a → r.waits t = true)

/-- The invariant. -/
structure Inv (s : State n V) (l : List Addr) (role : Addr → Role n) : Prop where
  chain : Chain s.mem s.head l
  nodup : l.Nodup
  rfree : ∀ a, role a = .free ↔ s.mem a = none
  rlinked : ∀ a, role a = .linked ↔ a ∈ l
  rpriv : ∀ a t, role a = .priv t ↔ (s.th t).owned = some a
  rlimbo : ∀ a t, role a = .limbo t ↔ (s.th t).limbo = some a
  rret : ∀ a, role a = .retired ↔ a ∈ s.retired.map Retired.addr
  retNodup : (s.retired.map Retired.addr).Nodup
  prot : ∀ t a, (s.th t).held = some a → Prot s.retired role t a
  nextRead : ∀ t h nx, s.th t = .popCas h nx → (s.mem h).map Node.next = some nx
  stored : ∀ t a h, s.th t = .pushCas a h → (s.mem a).map Node.next = some h
  noFault : s.fault = false

theorem inv_init : Inv (init n V) [] (fun _ => .free) := by
  refine ⟨rfl, List.nodup_nil, ?_, ?_, ?_, ?_, ?_, List.nodup_nil, ?_, ?_, ?_, rfl⟩ <;>
    simp [init, Local.owned, Local.limbo, Local.held]

theorem Inv.len {s : State n V} {l role} (h : Inv s l role) (k : Int) : Inv { s with len := k } l role :=
  ⟨h.1, h.2, h.3, h.4, h.5, h.6, h.7, h.8, h.9, h.10, h.11, h.12⟩

@[simp] theorem goto_th (s : State n V) (t x : Fin n) (L : Local V) :
    (s.goto t L).th x = if x = t then L else s.th x := rfl
@[simp] theorem goto_mem (s : State n V) (t : Fin n) (L : Local V) : (s.goto t L).mem = s.mem := rfl
@[simp] theorem goto_head (s : State n V) (t : Fin n) (L : Local V) : (s.goto t L).head = s.head := rfl
@[simp] theorem goto_retired (s : State n V) (t : Fin n) (L : Local V) :
    (s.goto t L).retired = s.retired := rfl
@[simp] theorem goto_fault (s : State n V) (t : Fin n) (L : Local V) : (s.goto t L).fault = s.fault := rfl
@[simp] theorem goto_len (s : State n V) (t : Fin n) (L : Local V) : (s.goto t L).len = s.len := rfl

/-- A step of one thread that neither acquires nor gives up a node. -/
theorem Inv.goto {s : State n V} {l role} (h : Inv s l role) (t : Fin n) (L : Local V)
    (ho : L.owned = (s.th t).owned) (hl : L.limbo = (s.th t).limbo)
    (hp : ∀ a, L.held = some a → Prot s.retired role t a)
    (hn : ∀ a nx, L = .popCas a nx → (s.mem a).map Node.next = some nx)
    (hs : ∀ a h, L = .pushCas a h → (s.mem a).map Node.next = some h) : Inv (s.goto t L) l role := by
  refine ⟨h.chain, h.nodup, h.rfree, h.rlinked, ?_, ?_, h.rret, h.retNodup, ?_, ?_, ?_, h.noFault⟩
  · intro a x; rw [h.rpriv, goto_th]; split
    · rename_i hx; subst hx; rw [ho]
    · rfl
  · intro a x; rw [h.rlimbo, goto_th]; split
    · rename_i hx; subst hx; rw [hl]
    · rfl
  · intro x a hx
    rw [goto_th] at hx
    split at hx
    · rename_i he; subst he; exact hp a hx
    · exact h.prot x a hx
  · intro x a nx hx
    rw [goto_th] at hx
    split at hx
    · exact hn a nx hx
    · exact h.nextRead x a nx hx
  · intro x a nx hx
    rw [goto_th] at hx
    split at hx
    · exact hs a nx hx
    · exact h.stored x a nx hx

theorem inv_push {s : State n V} {l role} (h : Inv s l role) {t : Fin n} {a : Addr} (ht : s.th t = .idle)
    (ha : s.mem a = none) (v : V) :
    Inv ((s.write a (some ⟨v, none⟩)).goto t (.pushLoad a)) l
      (fun x => if x = a then .priv t else role x) := by
  have hf : role a = .free := (h.rfree a).2 ha
  have hal : a ∉ l := by rw [← h.rlinked, hf]; simp
  refine ⟨?_, h.nodup, ?_, ?_, ?_, ?_, ?_, h.retNodup, ?_, ?_, ?_, h.noFault⟩
  · refine h.chain.congr fun x hx => ?_
    have : x ≠ a := fun he => hal (he ▸ hx)
    simp [State.write, this]
  · intro x
    by_cases hx : x = a
    · simp [hx, State.write]
    · simp [hx, State.write, h.rfree]
  · intro x
    by_cases hx : x = a
    · simp [hx, hal]
    · simp [hx, h.rlinked]
  · intro x u
    by_cases hx : x = a
    · subst hx
      by_cases hu : u = t
      · simp [hu, Local.owned]
      · have hne : ¬ (s.th u).owned = some x := by rw [← h.rpriv, hf]; simp
        have hu' : ¬ t = u := fun e => hu e.symm
        simp [hu, hu', State.write, hne]
    · have hx' : ¬ a = x := fun e => hx e.symm
      by_cases hu : u = t
      · subst hu
        simp [hx, hx', Local.owned, h.rpriv, ht]
      · simp [hx, hu, h.rpriv, State.write]
  · intro x u
    by_cases hx : x = a
    · subst hx
      have hne : ¬ (s.th u).limbo = some x := by rw [← h.rlimbo, hf]; simp
      by_cases hu : u = t
      · simp [hu, Local.limbo]
      · simp [hu, State.write, hne]
    · by_cases hu : u = t
      · subst hu; simp [hx, h.rlimbo, ht, Local.limbo]
      · simp [hx, hu, h.rlimbo, State.write]
  · intro x
    by_cases hx : x = a
    · subst hx
      have hne : ¬ x ∈ s.retired.map Retired.addr := by rw [← h.rret, hf]; simp
      simp only [if_true, reduceCtorEq, false_iff]; exact hne
    · simp only [hx, if_false]; exact h.rret x
  · intro u x hx
    rw [goto_th] at hx
    split at hx
    · simp [Local.held] at hx
    · have := h.prot u x hx
      have hne : x ≠ a := by rintro rfl; unfold Prot at this; rw [hf] at this; simp at this
      unfold Prot at this ⊢
      simpa [hne, State.write] using this
  · intro u x nx hx
    rw [goto_th] at hx
    split at hx
    · cases hx
    · have h1 := h.nextRead u x nx hx
      have hne : x ≠ a := by rintro rfl; rw [ha] at h1; cases h1
      simpa [State.write, hne] using h1
  · intro u x nx hx
    rw [goto_th] at hx
    split at hx
    · cases hx
    · have h1 := h.stored u x nx hx
      have hne : x ≠ a := by rintro rfl; rw [ha] at h1; cases h1
      simpa [State.write, hne] using h1

theorem inv_store {s : State n V} {l role} (h : Inv s l role) {t : Fin n} {a : Addr} {hd : Option Addr}
    (ht : s.th t = .pushStore a hd) {nd : Node V} (ha : s.mem a = some nd) :
    Inv ((s.write a (some ⟨nd.value, hd⟩)).goto t (.pushCas a hd)) l role := by
  have hf : role a = .priv t := (h.rpriv a t).2 (by rw [ht]; rfl)
  have hal : a ∉ l := by rw [← h.rlinked, hf]; simp
  refine ⟨?_, h.nodup, ?_, h.rlinked, ?_, ?_, h.rret, h.retNodup, ?_, ?_, ?_, h.noFault⟩
  · refine h.chain.congr fun x hx => ?_
    have : x ≠ a := fun he => hal (he ▸ hx)
    simp [State.write, this]
  · intro x
    rw [h.rfree]
    by_cases hx : x = a
    · simp [hx, State.write, ha]
    · simp [hx, State.write]
  · intro x u
    rw [h.rpriv]
    by_cases hu : u = t
    · subst hu; simp [ht, Local.owned]
    · simp [hu, State.write]
  · intro x u
    rw [h.rlimbo]
    by_cases hu : u = t
    · subst hu; simp [ht, Local.limbo]
    · simp [hu, State.write]
  · intro u x hx
    rw [goto_th] at hx
    split at hx
    · rename_i hu; subst hu
      exact h.prot u x (by rw [ht]; exact hx)
    · exact h.prot u x hx
  · intro u x nx hx
    rw [goto_th] at hx
    split at hx
    · cases hx
    · have h1 := h.nextRead u x nx hx
      have hne : x ≠ a := by
        rintro rfl
        have := h.prot u x (by rw [show s.th u = _ from hx]; rfl)
        unfold Prot at this; rw [hf] at this; simp at this
      simpa [State.write, hne] using h1
  · intro u x nx hx
    rw [goto_th] at hx
    split at hx
    · cases hx; simp [State.write]
    · have h1 := h.stored u x nx hx
      rename_i hu
      have hne : x ≠ a := by
        rintro rfl
        have := (h.rpriv x u).2 (by rw [show s.th u = _ from hx]; rfl)
        rw [hf] at this; cases this; exact hu rfl
      simpa [State.write, hne] using h1

theorem inv_pushCas {s : State n V} {l role} (h : Inv s l role) {t : Fin n} {a : Addr}
    (ht : s.th t = .pushCas a s.head) :
    Inv ({ s with head := some a }.goto t .pushAdd) (a :: l)
      (fun x => if x = a then .linked else role x) := by
  have hf : role a = .priv t := (h.rpriv a t).2 (by rw [ht]; rfl)
  have hal : a ∉ l := by rw [← h.rlinked, hf]; simp
  have hst := h.stored t a s.head ht
  cases hm : s.mem a with
  | none => rw [hm] at hst; cases hst
  | some nd =>
    rw [hm] at hst
    simp only [Option.map_some, Option.some.injEq] at hst
    refine ⟨⟨rfl, nd, hm, by rw [hst]; exact h.chain⟩, List.nodup_cons.2 ⟨hal, h.nodup⟩, ?_, ?_, ?_, ?_, ?_,
      h.retNodup, ?_, ?_, ?_, h.noFault⟩
    · intro x
      by_cases hx : x = a
      · simp [hx, hm]
      · simp [hx, h.rfree]
    · intro x
      by_cases hx : x = a
      · simp [hx]
      · simp [hx, h.rlinked]
    · intro x u
      by_cases hx : x = a
      · subst hx
        by_cases hu : u = t
        · simp [hu, Local.owned]
        · have hne : ¬ (s.th u).owned = some x := by
            rw [← h.rpriv, hf]; intro e; cases e; exact hu rfl
          simp [hu, hne]
      · have hx' : ¬ a = x := fun e => hx e.symm
        by_cases hu : u = t
        · subst hu; simp [hx, hx', h.rpriv, ht, Local.owned]
        · simp [hx, hu, h.rpriv]
    · intro x u
      by_cases hx : x = a
      · subst hx
        have hne : ¬ (s.th u).limbo = some x := by rw [← h.rlimbo, hf]; simp
        by_cases hu : u = t
        · simp [hu, Local.limbo]
        · simp [hu, hne]
      · by_cases hu : u = t
        · subst hu; simp [hx, h.rlimbo, ht, Local.limbo]
        · simp [hx, hu, h.rlimbo]
    · intro x
      by_cases hx : x = a
      · subst hx
        have hne : ¬ x ∈ s.retired.map Retired.addr := by rw [← h.rret, hf]; simp
        simp only [if_true, reduceCtorEq, false_iff]; exact hne
      · simp only [hx, if_false]; exact h.rret x
    · intro u x hx
      rw [goto_th] at hx
      split at hx
      · simp [Local.held] at hx
      · have := h.prot u x hx
        have hne : x ≠ a := by rintro rfl; unfold Prot at this; rw [hf] at this; simp at this
        unfold Prot at this ⊢
        simpa [hne] using this
    · intro u x nx hx
      rw [goto_th] at hx
      split at hx
      · cases hx
      · exact h.nextRead u x nx hx
    · intro u x nx hx
      rw [goto_th] at hx
      split at hx
      · cases hx
      · exact h.stored u x nx hx

theorem inv_popCas {s : State n V} {l role} (h : Inv s l role) {t : Fin n} {a : Addr} {nx : Option Addr}
    (ht : s.th t = .popCas a nx) (hh : s.head = some a) :
    ∃ l' nd, l = a :: l' ∧ s.mem a = some nd ∧ nd.next = nx ∧
      Inv ({ s with head := nx }.goto t (.popSub a)) l' (fun x => if x = a then .limbo t else role x) := by
  have hc := h.chain
  rw [hh] at hc
  obtain ⟨l', nd, rfl, hm, hc'⟩ := hc.some
  have hnx := h.nextRead t a nx ht
  rw [hm] at hnx
  simp only [Option.map_some, Option.some.injEq] at hnx
  have hf : role a = .linked := (h.rlinked a).2 (by simp)
  have hnd := List.nodup_cons.1 h.nodup
  refine ⟨l', nd, rfl, hm, hnx, ⟨by rw [← hnx]; exact hc', hnd.2, ?_, ?_, ?_, ?_, ?_,
      h.retNodup, ?_, ?_, ?_, h.noFault⟩⟩
  · intro x
    by_cases hx : x = a
    · simp [hx, hm]
    · simp [hx, h.rfree]
  · intro x
    by_cases hx : x = a
    · simp [hx, hnd.1]
    · simp [hx, h.rlinked]
  · intro x u
    by_cases hx : x = a
    · subst hx
      have hne : ¬ (s.th u).owned = some x := by rw [← h.rpriv, hf]; simp
      by_cases hu : u = t
      · simp [hu, Local.owned]
      · simp [hu, hne]
    · by_cases hu : u = t
      · subst hu; simp [hx, h.rpriv, ht, Local.owned]
      · simp [hx, hu, h.rpriv]
  · intro x u
    by_cases hx : x = a
    · subst hx
      have hne : ¬ (s.th u).limbo = some x := by rw [← h.rlimbo, hf]; simp
      by_cases hu : u = t
      · simp [hu, Local.limbo]
      · have hu' : ¬ t = u := fun e => hu e.symm
        simp [hu, hu', hne]
    · have hx' : ¬ a = x := fun e => hx e.symm
      by_cases hu : u = t
      · subst hu; simp [hx, hx', h.rlimbo, ht, Local.limbo]
      · simp [hx, hu, h.rlimbo]
  · intro x
    by_cases hx : x = a
    · subst hx
      have hne : ¬ x ∈ s.retired.map Retired.addr := by rw [← h.rret, hf]; simp
      simp only [if_true, reduceCtorEq, false_iff]; exact hne
    · simp only [hx, if_false]; exact h.rret x
  · intro u x hx
    rw [goto_th] at hx
    split at hx
    · simp [Local.held] at hx
    · have := h.prot u x hx
      unfold Prot at this ⊢
      by_cases hxa : x = a
      · simp [hxa]
      · simpa [hxa] using this
  · intro u x nx hx
    rw [goto_th] at hx
    split at hx
    · cases hx
    · exact h.nextRead u x nx hx
  · intro u x nx hx
    rw [goto_th] at hx
    split at hx
    · cases hx
    · exact h.stored u x nx hx

theorem held_pinned {L : Local V} {a : Addr} (h : L.held = some a) : L.pinned = true := by
  cases L <;> first | rfl | cases h

theorem inv_defer {s : State n V} {l role} (h : Inv s l role) {t : Fin n} {a : Addr}
    (ht : s.th t = .popDefer a) :
    Inv ({ s with retired := ⟨a, fun x => (s.th x).pinned⟩ :: s.retired }.goto t (.popRead a)) l
      (fun x => if x = a then .retired else role x) := by
  have hf : role a = .limbo t := (h.rlimbo a t).2 (by rw [ht]; rfl)
  have hnr : a ∉ s.retired.map Retired.addr := by rw [← h.rret, hf]; simp
  refine ⟨h.chain, h.nodup, ?_, ?_, ?_, ?_, ?_, List.nodup_cons.2 ⟨hnr, h.retNodup⟩, ?_, ?_, ?_, h.noFault⟩
  · intro x
    by_cases hx : x = a
    · have := h.rfree a; rw [hf] at this
      subst hx; simpa using this
    · simp [hx, h.rfree]
  · intro x
    by_cases hx : x = a
    · have := h.rlinked a; rw [hf] at this
      subst hx; simpa using this
    · simp [hx, h.rlinked]
  · intro x u
    by_cases hx : x = a
    · subst hx
      have hne : ¬ (s.th u).owned = some x := by rw [← h.rpriv, hf]; simp
      by_cases hu : u = t
      · simp [hu, Local.owned]
      · simp [hu, hne]
    · by_cases hu : u = t
      · subst hu; simp [hx, h.rpriv, ht, Local.owned]
      · simp [hx, hu, h.rpriv]
  · intro x u
    by_cases hx : x = a
    · subst hx
      by_cases hu : u = t
      · simp [hu, Local.limbo]
      · have hne : ¬ (s.th u).limbo = some x := by
          rw [← h.rlimbo, hf]; intro e; cases e; exact hu rfl
        simp [hu, hne]
    · have hx' : ¬ a = x := fun e => hx e.symm
      by_cases hu : u = t
      · subst hu; simp [hx, hx', h.rlimbo, ht, Local.limbo]
      · simp [hx, hu, h.rlimbo]
  · intro x
    by_cases hx : x = a
    · simp [hx]
    · have := h.rret x
      simp [hx, this]
  · have hprot : ∀ u, u ≠ t → ∀ x, (s.th u).held = some x →
        Prot (⟨a, fun x => (s.th x).pinned⟩ :: s.retired) (fun x => if x = a then .retired else role x) u x := by
      intro u _ x hx
      by_cases hxa : x = a
      · subst hxa
        refine Or.inr (Or.inr ⟨by simp, fun r hr hra => ?_⟩)
        rcases List.mem_cons.1 hr with rfl | hr
        · exact held_pinned hx
        · exact absurd (List.mem_map.2 ⟨r, hr, hra⟩) hnr
      · rcases h.prot u x hx with h1 | h1 | ⟨h1, h2⟩
        · exact Or.inl (by simp [hxa, h1])
        · exact Or.inr (Or.inl (by simpa [hxa] using h1))
        · refine Or.inr (Or.inr ⟨by simp [hxa, h1], fun r hr hra => ?_⟩)
          rcases List.mem_cons.1 hr with rfl | hr
          · exact absurd hra.symm hxa
          · exact h2 r hr hra
    intro u x hx
    rw [goto_th] at hx
    split at hx
    · rename_i hu
      subst hu
      simp only [Local.held, Option.some.injEq] at hx
      subst hx
      refine Or.inr (Or.inr ⟨by simp, fun r hr hra => ?_⟩)
      rcases List.mem_cons.1 hr with rfl | hr
      · simp [ht, Local.pinned]
      · exact absurd (List.mem_map.2 ⟨r, hr, hra⟩) hnr
    · rename_i hu
      exact hprot u hu x hx
  · intro u x nx hx
    rw [goto_th] at hx
    split at hx
    · cases hx
    · exact h.nextRead u x nx hx
  · intro u x nx hx
    rw [goto_th] at hx
    split at hx
    · cases hx
    · exact h.stored u x nx hx

theorem inv_unpin {s : State n V} {l role} (h : Inv s l role) {t : Fin n}
    (ho : (s.th t).owned = none) (hl : (s.th t).limbo = none) : Inv (s.unpin t) l role := by
  have h1 := h.goto t .idle (by rw [ho]; rfl) (by rw [hl]; rfl) (by intro a ha; cases ha)
    (by intro a nx e; cases e) (by intro a nx e; cases e)
  have hmap : (s.unpin t).retired.map Retired.addr = s.retired.map Retired.addr := by
    simp [State.unpin, Function.comp_def]
  refine ⟨h.chain, h.nodup, h.rfree, h.rlinked, h1.rpriv, h1.rlimbo, ?_, ?_, ?_, h1.nextRead, h1.stored,
    h.noFault⟩
  · intro a; rw [hmap]; exact h.rret a
  · rw [hmap]; exact h.retNodup
  · intro u a hu
    have hut : u ≠ t := by
      rintro rfl
      simp [State.unpin, Local.held] at hu
    have := h.prot u a (by simpa [State.unpin, hut] using hu)
    rcases this with h2 | h2 | ⟨h2, h3⟩
    · exact Or.inl h2
    · exact Or.inr (Or.inl h2)
    · refine Or.inr (Or.inr ⟨h2, fun r hr hra => ?_⟩)
      simp only [State.unpin, List.mem_map] at hr
      obtain ⟨r', hr', rfl⟩ := hr
      simp [hut, h3 r' hr' hra]

theorem inv_reclaim {s : State n V} {l role} (h : Inv s l role) {a : Addr} {r : Retired n}
    (hr : s.retired.find? (fun r => r.addr = a ∧ ∀ t, r.waits t = false) = some r) :
    ∃ nd, s.mem a = some nd ∧
    Inv { s.free a with retired := s.retired.eraseP (fun r => r.addr = a ∧ ∀ t, r.waits t = false) } l
      (fun x => if x = a then .free else role x) := by
  have hp := List.find?_some hr
  have hmem := List.mem_of_find?_eq_some hr
  simp only [decide_eq_true_eq] at hp
  obtain ⟨hra, hw⟩ := hp
  have hf : role a = .retired := (h.rret a).2 (List.mem_map.2 ⟨r, hmem, hra⟩)
  cases hm : s.mem a with
  | none => have := (h.rfree a).2 hm; rw [hf] at this; cases this
  | some nd =>
    refine ⟨nd, rfl, ?_⟩
    have hfree : s.free a = { s.write a none with dropped := nd.value :: s.dropped } := by
      simp [State.free, hm]
    rw [hfree]
    have hal : a ∉ l := by rw [← h.rlinked, hf]; simp
    obtain ⟨r₀, l₁, l₂, hpre, hp0, hl0, he0⟩ :=
      List.exists_of_eraseP (p := fun r : Retired n => decide (r.addr = a ∧ ∀ t, r.waits t = false)) hmem
        (by simp [hra, hw])
    simp only [decide_eq_true_eq] at hp0
    have hnd := h.retNodup
    rw [hl0] at hnd
    simp only [List.map_append, List.map_cons, hp0.1] at hnd
    have hnd' : a ∉ (l₁ ++ l₂).map Retired.addr ∧ ((l₁ ++ l₂).map Retired.addr).Nodup := by
      rw [List.map_append]
      exact List.nodup_cons.1 (List.perm_middle.nodup_iff.1 hnd)
    have hheld : ∀ u x, (s.th u).held = some x → x ≠ a := by
      rintro u x hx rfl
      rcases h.prot u x hx with h1 | ⟨t', h1⟩ | ⟨_, h1⟩
      · rw [hf] at h1; cases h1
      · rw [hf] at h1; cases h1
      · have := h1 r hmem hra
        rw [hw u] at this; cases this
    refine ⟨?_, h.nodup, ?_, ?_, ?_, ?_, ?_, ?_, ?_, ?_, ?_, h.noFault⟩
    · refine h.chain.congr fun x hx => ?_
      have : x ≠ a := fun he => hal (he ▸ hx)
      simp [State.write, this]
    · intro x
      by_cases hx : x = a
      · simp [hx, State.write]
      · simp [hx, h.rfree, State.write]
    · intro x
      by_cases hx : x = a
      · simp [hx, hal]
      · simp [hx, h.rlinked]
    · intro x u
      have := h.rpriv x u
      by_cases hx : x = a
      · subst hx; rw [hf] at this; simpa [State.write] using this
      · simpa [State.write, hx] using this
    · intro x u
      have := h.rlimbo x u
      by_cases hx : x = a
      · subst hx; rw [hf] at this; simpa [State.write] using this
      · simpa [State.write, hx] using this
    · intro x
      show _ ↔ x ∈ List.map Retired.addr (List.eraseP _ s.retired)
      rw [he0]
      by_cases hx : x = a
      · subst hx
        simp only [if_true, reduceCtorEq, false_iff]; exact hnd'.1
      · have := h.rret x
        rw [hl0] at this
        simpa [hx, hp0.1] using this
    · show (List.map Retired.addr (List.eraseP _ s.retired)).Nodup
      rw [he0]; exact hnd'.2
    · intro u x hx
      have hxa := hheld u x hx
      rcases h.prot u x hx with h1 | h1 | ⟨h1, h2⟩
      · exact Or.inl (by simp [hxa, h1])
      · exact Or.inr (Or.inl (by simpa [hxa] using h1))
      · refine Or.inr (Or.inr ⟨by simp [hxa, h1], fun r hr hra => h2 r ?_ hra⟩)
        exact List.mem_of_mem_eraseP hr
    · intro u x nx hx
      have h1 := h.nextRead u x nx hx
      have hne : x ≠ a := hheld u x (by rw [show s.th u = _ from hx]; rfl)
      simpa [State.write, hne] using h1
    · intro u x nx hx
      have h1 := h.stored u x nx hx
      have hne : x ≠ a := by
        rintro rfl
        have := (h.rpriv x u).2 (by rw [show s.th u = _ from hx]; rfl)
        rw [hf] at this; cases this
      simpa [State.write, hne] using h1

end Verif.Stack
