/- Properties C28 to C31: BpMap as an ordered map, its shape, its leaf chain and its pages. -/
import Verif.Bp.Sim

namespace Verif.Bp

open Verif.Spec

variable {K V : Type} [LinearOrder K]

/-! ### The map as a state machine -/

/-- One call on a `BpMap`.  The functions not modelled in `Verif/Bp/Model.lean`: map.rs:484-491 `contains_key`,
546-548 `len`, 567-569 `is_empty`, 591-597 `clear`.  `BpMap` has no `get_mut`, `floor`, `ceil`. -/
def step (p : Pager K V) : MapOp K V → Option (Pager K V × MapRes K V)
  | .insert k v => (insert p k v).map fun x => (x.1, .pair x.2)
  | .remove k => (remove p k).map fun x => (x.1, .pair x.2)
  | .get k => (get p k).map fun x => (p, .val x)
  | .containsKey k => (get p k).map fun x => (p, .bool x.isSome)
  | .min => (min p).map fun x => (p, .key x)
  | .max => (max p).map fun x => (p, .key x)
  | .len => some (p, .num p.md.len)
  | .isEmpty => some (p, .bool (p.md.len == 0))
  | .iter => (toList p).map fun x => (p, .list x)
  | .clear => p.clear.map fun p => (p, .unit)
  | .getMut _ _ => none
  | .floor _ => none
  | .ceil _ => none

/-- `BpMap` with the given degrees.  The draw of a call says whether the file is closed and opened again
(map.rs:142-147 `open`) right before the call. -/
abbrev bp (K V : Type) [LinearOrder K] (ld id : Nat) : MapImpl K V where
  State := Pager K V
  Draw := Bool
  empty := new ld id
  step p op reopen := step (if reopen then Pager.openFile p.disk else p) op

/-! ### Specification -/

/-- The calls that `BpMap` offers. -/
def Supported : MapOp K V → Prop
  | .getMut _ _ => False
  | .floor _ => False
  | .ceil _ => False
  | _ => True

/-- What a call does to the contents of a map. -/
def after : MapOp K V → AMap K V → AMap K V
  | .insert k v, m => m.set k (some v)
  | .remove k, m => m.set k none
  | .clear, _ => AMap.empty
  | _, m => m

/-- The contents of a map after a list of calls. -/
def contents (ops : List (MapOp K V)) : AMap K V := ops.foldl (fun m op => after op m) AMap.empty

/-- No `insert` in the list overwrites a key that is present. -/
def NoOverwrite (ops : List (MapOp K V)) : Prop := ∀ pre k v, pre ++ [.insert k v] <+: ops → contents pre k = none

/-- Number of used slots of an array. -/
def used {α : Type} (l : List (Option α)) : Nat := (l.filter Option.isSome).length

/-- Some leaf of the file is full and has the key in a slot after `leaf degree / 2 + 1`. -/
def Harmful (ld : Nat) (d : Disk K V) (k : K) : Prop :=
  ∃ (page : Nat) (n : LNode K V) (j : Nat) (v : V), d.pages[page]? = some (some (.leaf n)) ∧ used n.entries = ld ∧ n.entries[j]? = some (some (k, v)) ∧
    ld / 2 + 1 < j

/-- No `insert` of the history is called on a key that is in such a slot at that time. -/
def Harmless (ld id : Nat) (ops : List (MapOp K V × Bool)) : Prop :=
  ∀ pre k v b, pre ++ [(.insert k v, b)] <+: ops → ∀ p h, (bp K V ld id).run (new ld id) pre = some (p, h) →
    ¬ Harmful ld p.disk k

/-- The histories covered: calls of the API, and no harmful overwriting. -/
def Admissible (ld id : Nat) (ops : List (MapOp K V × Bool)) : Prop :=
  (∀ op ∈ ops.map (·.1), Supported op) ∧ Harmless ld id ops

/-- A covered history leads from a new map to `p`; the file may have been closed and reopened before any call. -/
def Reached (ld id : Nat) (p : Pager K V) : Prop :=
  ∃ ops h, Admissible ld id ops ∧ (bp K V ld id).run (new ld id) ops = some (p, h)

/-- The page is the root of a subtree of the file in which all leaves are at depth `h`, no node has more entries or
keys than its degree and every node other than the root of the whole tree is half full. -/
inductive Balanced (d : Disk K V) (ld id : Nat) : Bool → Nat → Nat → Prop where
  | leaf {root page n} : d.pages[page]? = some (some (.leaf n)) → used n.entries ≤ ld →
      (root = false → ld ≤ 2 * used n.entries) → Balanced d ld id root 0 page
  | node {root page n h} : d.pages[page]? = some (some (.internal n)) → used n.keys ≤ id →
      (root = false → (id + 1) / 2 ≤ used n.keys + 1) → (root = true → 1 ≤ used n.keys) →
      used n.keys < n.ptrs.length → (∀ i q, i ≤ used n.keys → n.ptrs[i]? = some q → Balanced d ld id false h q) →
      Balanced d ld id root (h + 1) page

/-- The pages met when following the `next` links from a leaf. -/
def follow (d : Disk K V) : Nat → Nat → Option (List Nat)
  | 0, _ => none
  | f + 1, page =>
    match d.pages[page]? with
    | some (some (.leaf n)) =>
      match n.next with
      | none => some [page]
      | some q => (follow d f q).map (page :: ·)
    | _ => none

/-- Concatenate the lists that `f` gives. -/
def collect {α : Type} (f : Nat → Option (List α)) : List Nat → Option (List α)
  | [] => some []
  | x :: l =>
    match f x, collect f l with
    | some a, some b => some (a ++ b)
    | _, _ => none

/-- The leaves below a page, children from left to right. -/
def leafPages (d : Disk K V) : Nat → Nat → Option (List Nat)
  | 0, _ => none
  | f + 1, page =>
    match d.pages[page]? with
    | some (some (.leaf _)) => some [page]
    | some (some (.internal n)) => collect (leafPages d f) (n.ptrs.take (n.len + 1))
    | _ => none

/-- The entries of a leaf. -/
def leafEntries (d : Disk K V) (page : Nat) : List (K × V) :=
  match d.pages[page]? with
  | some (some (.leaf n)) => n.entries.filterMap fun e => e
  | _ => []

/-- The page can be reached from the root through child pointers. -/
inductive InUse (d : Disk K V) (root : Nat) : Nat → Prop where
  | root : InUse d root root
  | child {page n i q} : InUse d root page → d.pages[page]? = some (some (.internal n)) → i ≤ n.len →
      n.ptrs[i]? = some q → InUse d root q

/-- `l` lists the free pages in the order of their links. -/
def FreeList (d : Disk K V) : Option Nat → List Nat → Prop
  | o, [] => o = none
  | o, f :: l => o = some f ∧ ∃ next, d.pages[f]? = some (some (.free next)) ∧ FreeList d next l

/-! ### Simulation -/

/-- The file holds a tree with these entries. -/
def Rel (ld id : Nat) (p : Pager K V) (l : List (K × V)) : Prop := ∃ n, ∃ t : BT K V n, Holds ld id p t ∧ t.toL = l

variable {ld id : Nat}

theorem rel_sorted {p : Pager K V} {l} (h : Rel ld id p l) : SL.Sorted l := by
  obtain ⟨n, t, h, rfl⟩ := h; exact ok_sorted h.ok

theorem rel_new : Rel ld id (new ld id : Pager K V) [] := ⟨0, _, holds_new ld id, rfl⟩

theorem rel_reopen {p : Pager K V} {l} (h : Rel ld id p l) : Rel ld id (Pager.openFile p.disk) l := by
  obtain ⟨n, t, h, rfl⟩ := h; exact ⟨n, t, holds_reopen h, rfl⟩

theorem linked_mem {n : Nat} {P : BT K V n → Option Nat → Prop} {cs : List (BT K V n)} {nxt} (h : Linked P cs nxt) :
    ∀ c ∈ cs, ∃ x, P c x := by
  induction cs with
  | nil => simp
  | cons c cs ih =>
    intro x hx
    rcases List.mem_cons.1 hx with rfl | hx
    · exact ⟨_, h.1⟩
    · exact ih h.2 x hx

omit [LinearOrder K] in
theorem used_pad {α : Type} {n : Nat} {l : List α} : used (pad n none (l.map some)) = l.length := by
  simp [used, pad, List.filter_append, List.filter_map, Function.comp_def]

/-- Every leaf page of the file belongs to the tree. -/
theorem leaf_page {p : Pager K V} {n : Nat} {t : BT K V n} (h : Holds ld id p t) {pg m}
    (hp : p.disk.pages[pg]? = some (some (.leaf m))) : pg ∈ t.pages := by
  obtain ⟨fl, h1, h2⟩ := h.wf.free
  have hlt : pg < p.md.pages := by
    rw [← h.wf.pages]; exact (List.getElem?_eq_some_iff.1 hp).1
  have hmem := h2.mem_iff.2 (List.mem_range.2 hlt)
  rcases List.mem_append.1 hmem with hm | hm
  · exact hm
  · exfalso
    clear h2 hmem
    generalize p.md.free = o at h1
    induction fl generalizing o with
    | nil => cases hm
    | cons f fl ih =>
      obtain ⟨_, nx, g2, g3⟩ := h1
      rcases List.mem_cons.1 hm with rfl | hm
      · rw [AtPage, hp] at g2; cases g2
      · exact ih hm _ g3

/-- A leaf of the tree holds entries of the map in order, and the search for one of them ends there. -/
theorem leaf_tree {p : Pager K V} (hid : 1 ≤ id) : ∀ {n : Nat} {t : BT K V n} {lo hi nxt}, RepT ld id p.disk t nxt → Ok ld id t lo hi →
    ∀ {pg m}, pg ∈ t.pages → p.disk.pages[pg]? = some (some (.leaf m)) →
    ∃ es nx, m = encLeaf ld es nx ∧ es.length ≤ ld ∧ SL.Sorted es ∧ (∀ e ∈ es, e ∈ t.toL) ∧
      ∀ e ∈ es, EntIn lo hi e.1 ∧ ∀ f st, n < f → ∃ path, searchNode p e.1 f t.pg st = some (pg, .leaf m, path) := by
  intro n
  induction n with
  | zero =>
    intro t lo hi nxt hr hok pg m hpg hm
    obtain ⟨q, es, rfl⟩ := t.leaf_cases
    simp at hpg
    subst hpg
    obtain ⟨h1, h2, h3⟩ := ok_leaf.1 hok
    have hp : p.disk.pages[pg]? = some (some (.leaf (encLeaf ld es nxt))) := hr.1
    rw [hp] at hm
    cases hm
    exact ⟨es, nxt, rfl, h3, h1, fun e he => he, fun e he => ⟨h2 e he, fun f st hf => ⟨st, searchNode_leaf hr hf⟩⟩⟩
  | succ n ih =>
    intro t lo hi nxt hr hok pg m hpg hm
    obtain ⟨q, ks, cs, rfl⟩ := t.node_cases
    obtain ⟨hlen, hord⟩ := ok_node.1 hok
    have hp : p.disk.pages[q]? = some (some (.internal (encInt id ks (cs.map BT.pg)))) := hr.1
    simp only [BT.pages_node, List.mem_cons, List.mem_flatMap] at hpg
    rcases hpg with rfl | ⟨c, hc, hpg⟩
    · rw [hp] at hm; cases hm
    obtain ⟨clo, chi, hcok⟩ := ordL_all hord c hc
    obtain ⟨x, hx⟩ := linked_mem (below_node.1 hr.2) c hc
    obtain ⟨es, nx, g1, g2, g3, g4, g5⟩ := ih hx hcok.2 hpg hm
    have hin : ∀ e ∈ es, e ∈ (BT.node q ks cs).toL := fun e he => by
      simp only [BT.toL_node, List.mem_flatMap]; exact ⟨c, hc, g4 e he⟩
    refine ⟨es, nx, g1, g2, g3, hin, fun e he => ?_⟩
    have hb : EntIn lo hi e.1 := ok_mem hok e (hin e he)
    refine ⟨hb, fun f st hf => ?_⟩
    obtain ⟨kl, kr, cl, c', cr, rfl, rfl, l1, l2, k1, k2, he'⟩ := descend hord hb
    obtain ⟨f, rfl⟩ : ∃ g, f = g + 1 := ⟨f - 1, by omega⟩
    rw [BT.pg_node, searchNode_node hid hr hlen l1 k1 k2]
    have hce : c = c' := by
      rcases List.mem_append.1 hc with hc | hc
      · exfalso
        obtain ⟨b, hb, hlt⟩ := ordL_left (okC_mem (ld := ld) (id := id)) l1 hord e (List.mem_flatMap.2 ⟨c, hc, g4 e he⟩)
        exact absurd (lt_of_lt_of_le hlt (he'.1 b hb)) (lt_irrefl _)
      · rcases List.mem_cons.1 hc with rfl | hc
        · rfl
        · exfalso
          have h'' : OrdL (OkC ld id) (kl ++ kr) ((cl ++ [c']) ++ cr) lo hi := by simpa using hord
          obtain ⟨b, hb, hlt⟩ := ordL_right (okC_mem (ld := ld) (id := id)) (by simp [l1]) h'' e
            (List.mem_flatMap.2 ⟨c, hc, g4 e he⟩)
          exact absurd (lt_of_lt_of_le (he'.2 b hb) hlt) (lt_irrefl _)
    subst hce
    exact (g5 e he).2 f _ (by omega)

/-- The leaf of a key that is in the file. -/
theorem leaf_holds (hid : 1 ≤ id) {p : Pager K V} {n : Nat} {t : BT K V n} (h : Holds ld id p t) {pg m}
    (hp : p.disk.pages[pg]? = some (some (.leaf m))) :
    ∃ es nx, m = encLeaf ld es nx ∧ es.length ≤ ld ∧ SL.Sorted es ∧ (∀ e ∈ es, e ∈ t.toL) ∧
      ∀ e ∈ es, ∃ path, search p e.1 = some (pg, .leaf m, path) := by
  obtain ⟨es, nx, h1, h2, h3, h4, h5⟩ := leaf_tree hid h.rep h.ok (leaf_page h hp) hp
  refine ⟨es, nx, h1, h2, h3, h4, fun e he => ?_⟩
  obtain ⟨path, g⟩ := (h5 e he).2 (p.disk.pages.length + 1) [] h.fuel
  exact ⟨path, by rw [search, h.root]; exact g⟩

theorem encLeaf_get {es : List (K × V)} {nx} {j : Nat} {e} (h : (encLeaf ld es nx).entries[j]? = some (some e)) : es[j]? = some e := by
  by_cases hj : j < es.length
  · simp only [encLeaf] at h
    rw [pad_get_lt (by simpa using hj)] at h
    simpa using h
  · simp only [encLeaf, pad] at h
    rw [List.getElem?_append_right (by simp; omega), List.getElem?_replicate] at h
    split at h <;> simp at h

theorem safe_of_not_harmful {d : Disk K V} {k : K} (h : ¬ Harmful ld d k) : Safe ld d k := by
  intro pg es nxt el o er hp hl he
  by_contra hc
  push Not at hc
  refine h ⟨pg, _, el.length, o, hp, ?_, ?_, hc.2⟩
  · simp only [encLeaf]; rw [used_pad]; omega
  · simp only [encLeaf]
    rw [pad_get_lt (by subst he; simp), he]
    simp

theorem safe_small {d : Disk K V} {k : K} (h : ld ≤ 4) : Safe ld d k := by
  intro pg es nxt el o er hp hl he
  subst he
  simp at hl ⊢
  omega

/-- A harmful key is a key of the map. -/
theorem harmful_find (hid : 1 ≤ id) {p : Pager K V} {l} (h : Rel ld id p l) {k} (hk : Harmful ld p.disk k) :
    5 ≤ ld ∧ SL.find k l ≠ none := by
  obtain ⟨n, t, h, rfl⟩ := h
  obtain ⟨pg, m, j, v, h1, h2, h3, h4⟩ := hk
  obtain ⟨es, nx, rfl, g2, g3, g4, g5⟩ := leaf_holds hid h h1
  have hj := encLeaf_get h3
  have hlt := (List.getElem?_eq_some_iff.1 hj).1
  refine ⟨by omega, fun hn => ?_⟩
  exact SL.find_eq_none.1 hn _ (g4 _ (List.mem_of_getElem? hj)) rfl

theorem step_rel (hld : 1 ≤ ld) (hid : 3 ≤ id) {p : Pager K V} {l} (h : Rel ld id p l) {op : MapOp K V} (hs : Supported op)
    (hov : ∀ k v, op = .insert k v → SL.find k l = none ∨ Safe ld p.disk k) :
    ∃ p', step p op = some (p', SL.res l op) ∧ Rel ld id p' (SL.next l op) := by
  have hrel := h
  obtain ⟨n, t, h, rfl⟩ := h
  cases op with
  | insert k v =>
    obtain ⟨p', m, t', e, h', e'⟩ := insert_holds (v := v) hld hid h (hov k v rfl)
    exact ⟨p', by simp [step, e, SL.res], m, t', h', e'⟩
  | remove k =>
    cases hf : SL.find k t.toL with
    | none =>
      refine ⟨p, by simp [step, remove_absent (by omega) h hf, SL.res, hf], n, t, h, ?_⟩
      rw [SL.next, SL.del_of_not_mem]
      exact SL.find_eq_none.1 hf
    | some o =>
      obtain ⟨p', m, t', e, h', e'⟩ := remove_present hld hid h hf (.inl rfl)
      exact ⟨p', by simp [step, e, SL.res, hf], m, t', h', e'⟩
  | get k => exact ⟨p, by simp [step, get_holds hld (by omega) h, SL.res, SL.abs], hrel⟩
  | containsKey k => exact ⟨p, by simp [step, get_holds hld (by omega) h, SL.res, SL.abs], hrel⟩
  | getMut k f => exact hs.elim
  | floor k => exact hs.elim
  | ceil k => exact hs.elim
  | min => exact ⟨p, by simp [step, min_holds hld h, SL.res], hrel⟩
  | max => exact ⟨p, by simp [step, max_holds hld h, SL.res], hrel⟩
  | len => exact ⟨p, by simp [step, h.len, SL.res], hrel⟩
  | isEmpty => exact ⟨p, by simp only [step, h.len, SL.res]; cases t.toL <;> rfl, hrel⟩
  | iter => exact ⟨p, by simp [step, toList_holds hld h, SL.res], hrel⟩
  | clear =>
    obtain ⟨p', e, h'⟩ := clear_holds h
    exact ⟨p', by simp [step, e, SL.res], 0, _, h', rfl⟩

theorem spec_after {op : MapOp K V} (hs : Supported op) {m m' : AMap K V} {r} (h : op.Spec m r m') : m' = after op m := by
  cases op <;> simp only [MapOp.Spec] at h <;> first | exact h.2 | exact hs.elim

theorem run_cons (I : MapImpl K V) {s s₁ : I.State} {op : MapOp K V} {d : I.Draw} {r : MapRes K V}
    (h : I.step s op d = some (s₁, r)) (ops : List (MapOp K V × I.Draw)) :
    I.run s ((op, d) :: ops) = (I.run s₁ ops).map fun (s₂, h) => (s₂, (op, r) :: h) := by
  simp only [MapImpl.run, h, Option.bind_eq_bind, Option.bind_some]
  cases I.run s₁ ops <;> rfl

theorem run_append (I : MapImpl K V) (s : I.State) (a b : List (MapOp K V × I.Draw)) :
    I.run s (a ++ b) = (I.run s a).bind fun x => (I.run x.1 b).map fun y => (y.1, x.2 ++ y.2) := by
  induction a generalizing s with
  | nil => simp [MapImpl.run]
  | cons o a ih =>
    obtain ⟨op, d⟩ := o
    rw [List.cons_append]
    cases hs : I.step s op d with
    | none => simp [MapImpl.run, hs]
    | some x =>
      obtain ⟨s₁, r⟩ := x
      rw [run_cons I hs, run_cons I hs, ih]
      cases I.run s₁ a with
      | none => rfl
      | some x => simp [Function.comp_def]

theorem run_ops {I : MapImpl K V} {s s' : I.State} {a : List (MapOp K V × I.Draw)} {h} (e : I.run s a = some (s', h)) :
    h.map (·.1) = a.map (·.1) := by
  induction a generalizing s h with
  | nil => cases e; rfl
  | cons o a ih =>
    obtain ⟨op, d⟩ := o
    cases hs : I.step s op d with
    | none => simp [MapImpl.run, hs] at e
    | some x =>
      obtain ⟨s₁, r⟩ := x
      rw [run_cons I hs] at e
      cases e1 : I.run s₁ a with
      | none => rw [e1] at e; cases e
      | some x => rw [e1] at e; cases e; simp [ih e1]

theorem history_append {m m' : AMap K V} {a b} (h : History m (a ++ b) m') :
    ∃ m₁, History m a m₁ ∧ History m₁ b m' := by
  induction a generalizing m with
  | nil => exact ⟨m, .nil m, h⟩
  | cons x a ih =>
    cases h with
    | cons h1 h2 =>
      obtain ⟨m₁, g1, g2⟩ := ih h2
      exact ⟨m₁, .cons h1 g1, g2⟩

theorem history_after {m m' : AMap K V} {a : List (MapOp K V × MapRes K V)} (hs : ∀ op ∈ a.map (·.1), Supported op)
    (h : History m a m') : m' = (a.map (·.1)).foldl (fun m op => after op m) m := by
  induction a generalizing m with
  | nil => cases h; rfl
  | cons x a ih =>
    cases h with
    | cons h1 h2 =>
      rw [ih (fun o ho => hs o (by simp at ho ⊢; exact .inr ho)) h2, spec_after (hs _ (by simp)) h1]
      rfl

theorem run_rel (hld : 1 ≤ ld) (hid : 3 ≤ id) (ops : List (MapOp K V × Bool)) {p : Pager K V} {l}
    (h : Rel ld id p l) (hs : ∀ op ∈ ops.map (·.1), Supported op)
    (hov : ∀ pre k v b, pre ++ [(.insert k v, b)] <+: ops →
      ((pre.map (·.1)).foldl (fun m op => after op m) (SL.abs l)) k = none ∨
      ∀ p' h, (bp K V ld id).run p pre = some (p', h) → Safe ld p'.disk k) :
    ∃ p' hist l', (bp K V ld id).run p ops = some (p', hist) ∧ hist.map (·.1) = ops.map (·.1) ∧
      History (SL.abs l) hist (SL.abs l') ∧ Rel ld id p' l' ∧
      SL.abs l' = (ops.map (·.1)).foldl (fun m op => after op m) (SL.abs l) := by
  induction ops generalizing p l with
  | nil => exact ⟨p, [], l, rfl, rfl, .nil _, h, rfl⟩
  | cons o ops ih =>
    obtain ⟨op, b⟩ := o
    have h0 : Rel ld id (if b then Pager.openFile p.disk else p) l := by
      cases b
      · exact h
      · exact rel_reopen h
    have hs0 : Supported op := hs op (by simp)
    obtain ⟨p₁, e, h1⟩ := step_rel hld hid h0 hs0 (by
      intro k v he
      rcases hov [] k v b (by simp [he]) with h | h
      · left
        simp only [List.map_nil, List.foldl_nil] at h
        rw [SL.find_eq_map, h]; rfl
      · right
        have := h p [] rfl
        cases b <;> exact this)
    have hspec := SL.step_spec (rel_sorted h) op
    have hnext := spec_after hs0 hspec
    obtain ⟨p', hist, l', e', g1, g2, g3, g4⟩ := ih h1 (fun o ho => hs o (by simp at ho ⊢; exact .inr ho)) (by
      intro pre k v b' hp
      rcases hov ((op, b) :: pre) k v b' (by simpa using hp) with h | h
      · left
        rw [List.map_cons, List.foldl_cons, ← hnext] at h
        exact h
      · right
        intro p' hist e'
        refine h p' ((op, SL.res l op) :: hist) ?_
        have : (bp K V ld id).step p op b = some (p₁, SL.res l op) := e
        exact (run_cons (bp K V ld id) this pre).trans (by rw [e']; rfl))
    refine ⟨p', (op, SL.res l op) :: hist, l', ?_, by simp [g1], .cons hspec g2, g3, ?_⟩
    · have : (bp K V ld id).step p op b = some (p₁, SL.res l op) := e
      exact (run_cons (bp K V ld id) this ops).trans (by rw [e']; rfl)
    · rw [g4, hnext]; rfl

theorem reached_rel (hld : 1 ≤ ld) (hid : 3 ≤ id) {p : Pager K V} (h : Reached ld id p) : ∃ l, Rel ld id p l := by
  obtain ⟨ops, hist, ⟨h1, h2⟩, e⟩ := h
  obtain ⟨p', hist', l', e', _, _, h3, _⟩ := run_rel hld hid ops rel_new h1
    fun pre k v b hp => .inr fun p h e => safe_of_not_harmful (h2 pre k v b hp p h e)
  rw [e'] at e; cases e
  exact ⟨l', h3⟩

/-! ### C28 -/

/-- **C28 (partial).**  A `BpMap` with leaf degree at least 1 and internal degree at least 3 behaves as an ordered
map on every history, also if the file is closed and reopened before some of the calls (`ops` has a flag for each
call), provided that no `insert` overwrites a key in one of the last slots of a full leaf.
Missing: such overwriting loses entries (`C28_exact`: the condition is exactly what is needed), and smaller degrees,
which `with_degrees` accepts, panic or lose entries (`C28_violated_small`). -/
theorem C28_bp_map_partial (hld : 1 ≤ ld) (hid : 3 ≤ id) (ops : List (MapOp K V × Bool)) (h : Admissible ld id ops) :
    ∃ p hist, (bp K V ld id).run (new ld id) ops = some (p, hist) ∧ hist.map (·.1) = ops.map (·.1) ∧
      History AMap.empty hist (contents (ops.map (·.1))) := by
  obtain ⟨p', hist', l', e', g1, g2, _, g4⟩ := run_rel hld hid ops rel_new h.1
    fun pre k v b hp => .inr fun p hh e => safe_of_not_harmful (h.2 pre k v b hp p hh e)
  refine ⟨p', hist', e', g1, ?_⟩
  rw [g4] at g2
  exact g2

/-- **C28 (covered histories).**  With leaf degree at most 4 every history is covered, and with any leaf degree
every history in which no `insert` overwrites a key that is present. -/
theorem C28_covered (hld : 1 ≤ ld) (hid : 3 ≤ id) (ops : List (MapOp K V × Bool))
    (hs : ∀ op ∈ ops.map (·.1), Supported op) (h : ld ≤ 4 ∨ NoOverwrite (ops.map (·.1))) : Admissible ld id ops := by
  refine ⟨hs, fun pre k v b hp p hist e hk => ?_⟩
  have hpre : pre <+: ops := (List.prefix_append _ _).trans hp
  obtain ⟨p', hist', l', e', _, _, h3, g4⟩ := run_rel hld hid pre rel_new
    (fun op hop => hs op ((hpre.map (·.1)).subset hop)) (by
    intro pre' k' v' b' hp'
    rcases h with h | h
    · exact .inr fun _ _ _ => safe_small h
    · left
      refine h (pre'.map (·.1)) k' v' ?_
      have := (hp'.trans hpre).map (·.1)
      simpa using this)
  rw [e'] at e; cases e
  obtain ⟨a1, a2⟩ := harmful_find (by omega) h3 hk
  rcases h with h | h
  · omega
  · refine a2 ?_
    have := h (pre.map (·.1)) k v (by simpa using hp.map (·.1))
    rw [SL.find_eq_map, g4]
    rw [contents] at this
    show Option.map _ (List.foldl _ (AMap.empty : AMap K V) _ k) = _
    rw [this]; rfl

/-! ### C29 -/

theorem ordL_children {n : Nat} {ks} {cs : List (BT K V n)} {lo hi} (h : OrdL (OkC ld id) ks cs lo hi) {i : Nat} (hi' : i ≤ ks.length) :
    ∃ c ∈ cs, (encInt id ks (cs.map BT.pg)).ptrs[i]? = some c.pg := by
  have hlen := ordL_length h
  refine ⟨cs[i]'(by omega), List.getElem_mem _, ?_⟩
  simp only [encInt]
  rw [pad_get_lt (by simp; omega)]
  simp [List.getElem?_eq_getElem (show i < cs.length by omega)]

theorem balanced_of_rep {d : Disk K V} : ∀ {n : Nat} {t : BT K V n} {lo hi nxt} {root : Bool}, RepT ld id d t nxt → Ok ld id t lo hi →
    (root = false → MinOcc ld id t) → (root = true → RootOk t) → Balanced d ld id root n t.pg := by
  intro n
  induction n with
  | zero =>
    intro t lo hi nxt root hr hok hm _
    obtain ⟨pg, es, rfl⟩ := t.leaf_cases
    have hpg : d.pages[pg]? = some (some (.leaf (encLeaf ld es nxt))) := hr.1
    refine .leaf hpg ?_ fun h => ?_
    · simp only [encLeaf]; rw [used_pad]; exact (ok_leaf.1 hok).2.2
    · simp only [encLeaf]; rw [used_pad]; have : (ld + 1) / 2 ≤ es.length := hm h
      omega
  | succ n ih =>
    intro t lo hi nxt root hr hok hm hroot
    obtain ⟨pg, ks, cs, rfl⟩ := t.node_cases
    obtain ⟨hlen, ho⟩ := ok_node.1 hok
    have hpg : d.pages[pg]? = some (some (.internal (encInt id ks (cs.map BT.pg)))) := hr.1
    refine .node hpg ?_ (fun h => ?_) (fun h => ?_) ?_ ?_
    · simp only [encInt]; rw [used_pad]; exact hlen
    · simp only [encInt]; rw [used_pad]; exact hm h
    · simp only [encInt]; rw [used_pad]; exact List.length_pos_iff.2 (rootOk_node.1 (hroot h))
    · simp only [encInt]; rw [used_pad, pad]; have := ordL_length ho; simp; omega
    · intro i q hi' hq
      simp only [encInt] at hi'
      rw [used_pad] at hi'
      obtain ⟨c, hc, hp⟩ := ordL_children ho hi'
      rw [hp] at hq
      cases hq
      obtain ⟨lo, hi, hcok⟩ := ordL_all ho c hc
      obtain ⟨x, hx⟩ := linked_mem (below_node.1 hr.2) c hc
      exact ih hx hcok.2 (fun _ => hcok.1) (by simp)

theorem sum_ge {n b : Nat} {cs : List (BT K V n)} (h : ∀ c ∈ cs, b ≤ c.toL.length) : cs.length * b ≤ (cs.flatMap BT.toL).length := by
  induction cs with
  | nil => simp
  | cons c cs ih =>
    have h1 := h c (by simp)
    have h2 := ih fun x hx => h x (by simp [hx])
    simp only [List.flatMap_cons, List.length_append, List.length_cons, Nat.succ_mul]
    omega

theorem size_ge : ∀ {n : Nat} {t : BT K V n} {lo hi}, Ok ld id t lo hi → MinOcc ld id t →
    ((id + 1) / 2) ^ n * ((ld + 1) / 2) ≤ t.toL.length := by
  intro n
  induction n with
  | zero =>
    intro t lo hi hok hm
    obtain ⟨pg, es, rfl⟩ := t.leaf_cases
    have hm : (ld + 1) / 2 ≤ es.length := hm
    simpa using hm
  | succ n ih =>
    intro t lo hi hok hm
    obtain ⟨pg, ks, cs, rfl⟩ := t.node_cases
    obtain ⟨hlen, ho⟩ := ok_node.1 hok
    have h1 : (id + 1) / 2 ≤ cs.length := by rw [ordL_length ho]; exact hm
    have h2 := sum_ge (b := ((id + 1) / 2) ^ n * ((ld + 1) / 2)) (cs := cs) fun c hc => by
      obtain ⟨lo, hi, hcok⟩ := ordL_all ho c hc
      exact ih hcok.2 hcok.1
    rw [BT.toL_node]
    refine le_trans ?_ h2
    rw [Nat.pow_succ, Nat.mul_comm (_ ^ n), Nat.mul_assoc]
    exact Nat.mul_le_mul_right _ h1

theorem search_path (hid : 1 ≤ id) {key : K} {p : Pager K V} :
    ∀ {n : Nat} {t : BT K V n} {lo hi nxt}, RepT ld id p.disk t nxt → Ok ld id t lo hi → EntIn lo hi key →
    ∃ lp nd path, path.length = n ∧ ∀ f st, n < f → searchNode p key f t.pg st = some (lp, nd, path ++ st) := by
  intro n
  induction n with
  | zero =>
    intro t lo hi nxt hr hok he
    obtain ⟨pg, es, rfl⟩ := t.leaf_cases
    exact ⟨pg, _, [], rfl, fun f st hf => searchNode_leaf hr hf⟩
  | succ n ih =>
    intro t lo hi nxt hr hok he
    obtain ⟨pg, ks, cs, rfl⟩ := t.node_cases
    obtain ⟨hlen, hord⟩ := ok_node.1 hok
    obtain ⟨kl, kr, cl, c, cr, rfl, rfl, l1, l2, k1, k2, he'⟩ := descend hord he
    have hc := (ordL_ctx (kl := kl) (ks := []) (kr := kr) (cl := cl) (cs := [c]) (cr := cr) l1 rfl (by simpa using hord)).1
    have hc := ordL_nil.1 hc
    have hlk := linked_ctx.1 (below_node.1 hr.2)
    obtain ⟨lp, nd, path, h0, h1⟩ := ih hlk.2.1 hc.2 he'
    refine ⟨lp, nd, path ++ [(pg, encInt id (kl ++ kr) ((cl ++ c :: cr).map BT.pg), kl.length)], by simp [h0], ?_⟩
    intro f st hf
    obtain ⟨f, rfl⟩ : ∃ g, f = g + 1 := ⟨f - 1, by omega⟩
    rw [BT.pg_node, searchNode_node hid hr hlen l1 k1 k2, h1 f _ (by omega)]
    simp

/-- **C29 (partial).**  After every covered history (see C28; missing: histories that overwrite in a full leaf of
degree 5 and more, which destroy entries) the tree is balanced: all leaves are at the same depth `h`, every node but
the root is at least half full, no node exceeds its degree.  The search for any key reads `h + 1` pages (the stack
of inner nodes has length `h`), and `h` is logarithmic in the number of entries. -/
theorem C29_balanced_partial (hld : 1 ≤ ld) (hid : 3 ≤ id) {p : Pager K V} (hp : Reached ld id p) :
    ∃ h, Balanced p.disk ld id true h p.md.root ∧
      (∀ k, ∃ page n stack, search p k = some (page, n, stack) ∧ stack.length = h) ∧
      (1 ≤ h → 2 * ((id + 1) / 2) ^ (h - 1) * ((ld + 1) / 2) ≤ p.md.len) ∧
      (1 ≤ h → 2 ^ h ≤ p.md.len) := by
  obtain ⟨l, n, t, h, rfl⟩ := reached_rel hld hid hp
  have key : 1 ≤ n → 2 * ((id + 1) / 2) ^ (n - 1) * ((ld + 1) / 2) ≤ p.md.len := by
    intro hn
    obtain ⟨n, rfl⟩ : ∃ m, n = m + 1 := ⟨n - 1, by omega⟩
    have hok := h.ok
    have hroot := h.rootOk
    rw [h.len]
    obtain ⟨pg, ks, cs, rfl⟩ := t.node_cases
    obtain ⟨hlen, ho⟩ := ok_node.1 hok
    have h1 : 2 ≤ cs.length := by
      rw [ordL_length ho]
      have := List.length_pos_iff.2 (rootOk_node.1 hroot)
      omega
    have h2 := sum_ge (b := ((id + 1) / 2) ^ n * ((ld + 1) / 2)) (cs := cs) fun c hc => by
      obtain ⟨lo, hi, hcok⟩ := ordL_all ho c hc
      exact size_ge hcok.2 hcok.1
    rw [BT.toL_node]
    refine le_trans ?_ h2
    rw [Nat.mul_assoc]
    exact Nat.mul_le_mul_right _ h1
  refine ⟨n, ?_, fun k => ?_, key, fun hn => ?_⟩
  · rw [h.root]; exact balanced_of_rep h.rep h.ok (by simp) fun _ => h.rootOk
  · obtain ⟨lp, nd, path, h0, h1⟩ := search_path (by omega) h.rep h.ok (entIn_none k)
    refine ⟨lp, nd, path, ?_, h0⟩
    have := h1 (p.disk.pages.length + 1) [] h.fuel
    rwa [← h.root, List.append_nil] at this
  · refine le_trans ?_ (key hn)
    obtain ⟨n, rfl⟩ : ∃ m, n = m + 1 := ⟨n - 1, by omega⟩
    have a : 2 ^ n ≤ ((id + 1) / 2) ^ n := Nat.pow_le_pow_left (by omega) n
    have b : 1 ≤ (ld + 1) / 2 := by omega
    calc 2 ^ (n + 1) = 2 * 2 ^ n * 1 := by rw [Nat.pow_succ]; omega
      _ ≤ 2 * ((id + 1) / 2) ^ n * ((ld + 1) / 2) := Nat.mul_le_mul (Nat.mul_le_mul_left _ a) b

/-! ### C30 -/

theorem follow_chain {d : Disk K V} : ∀ (l : List (Nat × List (K × V))) {pg es} (f : Nat),
    LChain ld d ((pg, es) :: l) none → l.length < f → follow d f pg = some (((pg, es) :: l).map Prod.fst) := by
  intro l
  induction l with
  | nil =>
    intro pg es f h hf
    obtain ⟨f, rfl⟩ : ∃ g, f = g + 1 := ⟨f - 1, by omega⟩
    have h1 := h.1
    rw [AtPage] at h1
    simp [follow, h1, nextLeaf, encLeaf]
  | cons x l ih =>
    intro pg es f h hf
    obtain ⟨f, rfl⟩ : ∃ g, f = g + 1 := ⟨f - 1, by omega⟩
    have h1 := h.1
    rw [AtPage] at h1
    have := ih (pg := x.1) (es := x.2) f h.2 (by simp at hf; omega)
    rw [follow, h1]
    simp only [encLeaf, nextLeaf, this]
    simp

theorem collect_eq {n : Nat} {cs : List (BT K V n)} {f : Nat → Option (List Nat)}
    (h : ∀ c ∈ cs, f c.pg = some (c.leaves.map Prod.fst)) :
    collect f (cs.map BT.pg) = some ((cs.flatMap BT.leaves).map Prod.fst) := by
  induction cs with
  | nil => rfl
  | cons c cs ih =>
    rw [List.map_cons, collect, h c (by simp), ih fun x hx => h x (by simp [hx])]
    simp

theorem leafPages_rep {d : Disk K V} : ∀ {n : Nat} {t : BT K V n} {lo hi nxt} (f : Nat), RepT ld id d t nxt → Ok ld id t lo hi → n < f →
    leafPages d f t.pg = some (t.leaves.map Prod.fst) := by
  intro n
  induction n with
  | zero =>
    intro t lo hi nxt f hr hok hf
    obtain ⟨f, rfl⟩ : ∃ g, f = g + 1 := ⟨f - 1, by omega⟩
    obtain ⟨pg, es, rfl⟩ := t.leaf_cases
    have h1 : d.pages[pg]? = _ := hr.1
    rw [BT.pg_leaf, leafPages, h1]
    rfl
  | succ n ih =>
    intro t lo hi nxt f hr hok hf
    obtain ⟨f, rfl⟩ : ∃ g, f = g + 1 := ⟨f - 1, by omega⟩
    obtain ⟨pg, ks, cs, rfl⟩ := t.node_cases
    obtain ⟨hlen, ho⟩ := ok_node.1 hok
    have h1 : d.pages[pg]? = _ := hr.1
    rw [BT.pg_node, leafPages, h1]
    simp only [BT.rootNode_node, len_encInt]
    have e : (encInt id ks (cs.map BT.pg)).ptrs.take (ks.length + 1) = cs.map BT.pg := by
      have := pad_take (n := id + 1) (z := 0) (l := cs.map BT.pg)
      rw [List.length_map, ordL_length ho] at this
      exact this
    rw [e, collect_eq, BT.leaves_node]
    intro c hc
    obtain ⟨lo, hi, hcok⟩ := ordL_all ho c hc
    obtain ⟨x, hx⟩ := linked_mem (below_node.1 hr.2) c hc
    exact ih f hx hcok.2 (by omega)

theorem leafEntries_chain {d : Disk K V} {l : List (Nat × List (K × V))} (h : LChain ld d l none) :
    (l.map Prod.fst).flatMap (leafEntries d) = l.flatMap Prod.snd := by
  induction l with
  | nil => rfl
  | cons x l ih =>
    have h1 := h.1
    rw [AtPage] at h1
    rw [List.map_cons, List.flatMap_cons, List.flatMap_cons, ih h.2]
    congr 1
    simp only [leafEntries, h1, encLeaf, pad, List.filterMap_append]
    simp [List.filterMap_map, Function.comp_def]

/-- **C30 (partial).**  After every covered history (missing: as for C29) the leaves, taken from left to right in the tree, are exactly the pages met
when following the `next` links from the leftmost leaf, each of them once; their entries in this order are strictly
ascending, and iteration yields exactly them. -/
theorem C30_leaf_chain_partial (hld : 1 ≤ ld) (hid : 3 ≤ id) {p : Pager K V} (hp : Reached ld id p) :
    ∃ first rest, leafPages p.disk (p.md.pages + 1) p.md.root = some (first :: rest) ∧
      follow p.disk (p.md.pages + 1) first = some (first :: rest) ∧ (first :: rest).Nodup ∧
      ((first :: rest).flatMap (leafEntries p.disk)).Pairwise (fun a b => a.1 < b.1) ∧
      toList p = some ((first :: rest).flatMap (leafEntries p.disk)) := by
  obtain ⟨l, n, t, h, rfl⟩ := reached_rel hld hid hp
  obtain ⟨pg, es, l, h1, -⟩ := leftmost_sub h.rep h.ok
  have hch := lchain_of_rep h.ok h.rep
  have hsub := leaves_pages t
  have e : (t.leaves.map Prod.fst).flatMap (leafEntries p.disk) = t.toL := by
    rw [leafEntries_chain hch, BT.leaves_toL]
  have hfuel := h.fuel
  rw [h.wf.pages] at hfuel
  have hlp := leafPages_rep (p.md.pages + 1) h.rep h.ok hfuel
  have hlen : t.leaves.length ≤ p.md.pages := by
    have a := hsub.length_le
    have b := h.wf.length_le
    have c := h.wf.pages
    simp at a
    omega
  have hnd := h.wf.nodup.sublist hsub
  rw [h1] at hch hlp e hnd hlen
  refine ⟨pg, l.map Prod.fst, ?_, ?_, hnd, ?_, ?_⟩
  · rw [h.root]; exact hlp
  · exact follow_chain l _ hch (by simp at hlen; omega)
  · have := ok_sorted h.ok
    rw [← e] at this
    exact this
  · have := toList_holds hld h
    rw [← e] at this
    exact this

/-! ### C31 -/

theorem inUse_child {d : Disk K V} : ∀ {n : Nat} {t : BT K V n} {lo hi nxt}, RepT ld id d t nxt → Ok ld id t lo hi →
    ∀ {j nd i q}, j ∈ t.pages → d.pages[j]? = some (some (.internal nd)) → i ≤ nd.len → nd.ptrs[i]? = some q → q ∈ t.pages := by
  intro n
  induction n with
  | zero =>
    intro t lo hi nxt hr hok j nd i q hj he
    obtain ⟨pg, es, rfl⟩ := t.leaf_cases
    simp at hj
    subst hj
    have h1 : d.pages[j]? = _ := hr.1
    rw [h1] at he
    simp at he
  | succ n ih =>
    intro t lo hi nxt hr hok j nd i q hj he hi' hq
    obtain ⟨pg, ks, cs, rfl⟩ := t.node_cases
    obtain ⟨hlen, ho⟩ := ok_node.1 hok
    rw [BT.pages_node] at hj ⊢
    rcases List.mem_cons.1 hj with rfl | hj
    · have h1 : d.pages[j]? = _ := hr.1
      rw [h1] at he
      simp only [BT.rootNode_node, Option.some.injEq, Node.internal.injEq] at he
      subst he
      rw [len_encInt] at hi'
      obtain ⟨c, hc, hp⟩ := ordL_children ho hi'
      rw [hp] at hq
      cases hq
      exact List.mem_cons_of_mem _ (List.mem_flatMap.2 ⟨c, hc, c.pg_mem⟩)
    · obtain ⟨c, hc, hj⟩ := List.mem_flatMap.1 hj
      obtain ⟨lo, hi, hcok⟩ := ordL_all ho c hc
      obtain ⟨x, hx⟩ := linked_mem (below_node.1 hr.2) c hc
      exact List.mem_cons_of_mem _ (List.mem_flatMap.2 ⟨c, hc, ih hx hcok.2 hj he hi' hq⟩)

theorem inUse_of_mem {d : Disk K V} {root : Nat} : ∀ {n : Nat} {t : BT K V n} {lo hi nxt}, RepT ld id d t nxt → Ok ld id t lo hi →
    InUse d root t.pg → ∀ j ∈ t.pages, InUse d root j := by
  intro n
  induction n with
  | zero =>
    intro t lo hi nxt hr hok hu j hj
    obtain ⟨pg, es, rfl⟩ := t.leaf_cases
    simp at hj
    subst hj
    exact hu
  | succ n ih =>
    intro t lo hi nxt hr hok hu j hj
    obtain ⟨pg, ks, cs, rfl⟩ := t.node_cases
    obtain ⟨hlen, ho⟩ := ok_node.1 hok
    rw [BT.pages_node] at hj
    rcases List.mem_cons.1 hj with rfl | hj
    · exact hu
    · obtain ⟨c, hc, hj⟩ := List.mem_flatMap.1 hj
      obtain ⟨lo, hi, hcok⟩ := ordL_all ho c hc
      obtain ⟨x, hx⟩ := linked_mem (below_node.1 hr.2) c hc
      refine ih hx hcok.2 ?_ j hj
      obtain ⟨i, hi', hci⟩ := List.getElem_of_mem hc
      have hlen' := ordL_length ho
      have hpg : d.pages[pg]? = some (some (.internal (encInt id ks (cs.map BT.pg)))) := hr.1
      refine InUse.child (i := i) hu hpg ?_ ?_
      · rw [len_encInt]; omega
      · simp only [encInt]
        rw [pad_get_lt (by simp; omega)]
        simp [hi', hci]

omit [LinearOrder K] in
theorem freeList_of {d : Disk K V} {l o} (h : FreeChain d l o) : FreeList d o l := by
  induction l generalizing o with
  | nil => exact h
  | cons f l ih => obtain ⟨h1, nx, h2, h3⟩ := h; exact ⟨h1, nx, h2, ih h3⟩

/-- **C31 (partial).**  After every covered history (missing: as for C29) the free list has no repetition, every page of the file is either reachable
from the root or free and not both, and a page handed out by the allocator was not in use. -/
theorem C31_pages_partial (hld : 1 ≤ ld) (hid : 3 ≤ id) {p : Pager K V} (hp : Reached ld id p) :
    p.disk.pages.length = p.md.pages ∧
    (∃ free, FreeList p.disk p.md.free free ∧ free.Nodup ∧
      ∀ i, (i < p.md.pages ↔ i ∈ free ∨ InUse p.disk p.md.root i) ∧ ¬ (i ∈ free ∧ InUse p.disk p.md.root i)) ∧
    ∀ n, ∃ p' q, p.allocate n = some (p', q) ∧ ¬ InUse p.disk p.md.root q ∧
      ∀ i, InUse p.disk p.md.root i → p'.disk.pages[i]? = p.disk.pages[i]? := by
  obtain ⟨l, n, t, h, rfl⟩ := reached_rel hld hid hp
  have huse : ∀ i, InUse p.disk p.md.root i ↔ i ∈ t.pages := by
    intro i
    constructor
    · intro hu
      induction hu with
      | root => rw [h.root]; exact t.pg_mem
      | child _ h1 h2 h3 ih => exact inUse_child h.rep h.ok ih h1 h2 h3
    · intro hi
      refine inUse_of_mem h.rep h.ok ?_ i hi
      rw [h.root]; exact .root
  obtain ⟨fl, hfl, hperm⟩ := h.wf.free
  have hnd : (t.pages ++ fl).Nodup := hperm.nodup_iff.2 List.nodup_range
  refine ⟨h.wf.pages, ⟨fl, freeList_of hfl, (List.nodup_append.1 hnd).2.1, fun i => ⟨?_, ?_⟩⟩, fun nd => ?_⟩
  · rw [huse, ← List.mem_range, ← hperm.mem_iff, List.mem_append, or_comm]
  · rw [huse]
    rintro ⟨h1, h2⟩
    exact (List.nodup_append.1 hnd).2.2 i h2 i h1 rfl
  · obtain ⟨p', q, e, hw, _, _, _, hfr⟩ := h.wf.alloc nd
    refine ⟨p', q, e, ?_, fun i hi => hfr i ((huse i).1 hi)⟩
    rw [huse]
    exact (List.nodup_cons.1 hw.nodup).1

end Verif.Bp
