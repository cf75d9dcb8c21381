/-
C86: the pages that a call on a `BpMap` reads.

For every call the list of the pages that it passes to `get_page` (pager.rs:203-213) and, in `allocate_node`
(pager.rs:215-258), of the free pages that it reads.  That nothing is missing in these lists is a theorem
(`C86_get_frame` and so on): a file that differs only in other pages gives the same answers and undergoes the same
changes.
-/
import Verif.Bp.Space

namespace Verif.Bp

open Verif.Spec

variable {K V : Type}

/-! ### The lists -/

/-- pager.rs:215-258 `allocate_node`: the first free page is read, if there is one. -/
def Pager.allocReads (p : Pager K V) : List Nat := p.md.free.toList

section
variable [LinearOrder K]

/-- map.rs:149-168 `search_node`. -/
def searchNodeReads (p : Pager K V) (key : K) : Nat → Nat → List Nat
  | 0, _ => []
  | f + 1, page =>
    page ::
    match p.getPage page with
    | some (.internal n) =>
      match n.search key with
      | none => []
      | some i =>
        match n.ptrs[i]? with
        | none => []
        | some q => searchNodeReads p key f q
    | _ => []

/-- map.rs:155-156 and 513-526: the reads of `get`, `contains_key` and of the way down of `insert` and `remove`. -/
def getReads (p : Pager K V) (key : K) : List Nat := searchNodeReads p key (p.disk.pages.length + 1) p.md.root

/-- map.rs:230-260, the loop of `insert` that goes up the tree. -/
def insertUpReads (p : Pager K V) : Stack K → Option (K × Nat) → List Nat
  | _, none => []
  | [], some _ => p.allocReads
  | (pp, n, _) :: st, some (k, q) =>
    match n.insert k q with
    | none => []
    | some (_, none) => []
    | some (n, some (k2, s)) =>
      p.allocReads ++
      match p.allocate (.internal s) with
      | none => []
      | some (p, q2) =>
        match p.writeNode pp (.internal n) with
        | none => []
        | some p => insertUpReads p st (some (k2, q2))

/-- map.rs:196-264 `insert`. -/
def insertReads (p : Pager K V) (k : K) (v : V) : List Nat :=
  getReads p k ++
  match search p k with
  | some (page, .leaf n, st) =>
    match n.insert (k, v) with
    | some (n, .split k s) =>
      p.allocReads ++
      match p.allocate (.leaf s) with
      | none => []
      | some (p, q) =>
        match p.writeNode page (.leaf { n with next := some q }) with
        | none => []
        | some p => insertUpReads p st (some (k, q))
    | _ => []
  | _ => []

/-- map.rs:375-461, the loop of `remove` that goes up the tree: the siblings. -/
def removeUpReads (p : Pager K V) (page : Nat) (n : INode K) : Stack K → List Nat
  | [] => []
  | (pp, pn, i) :: st =>
    if n.len + 1 < (p.md.intDeg + 1) / 2 then
      let si := siblingIndex i
      match pn.ptrs[si]? with
      | none => []
      | some sp =>
        sp ::
        match p.getPage sp with
        | some (.internal sn) =>
          if sn.len + 1 = (p.md.intDeg + 1) / 2 then
            if si = i + 1 then
              match pn.keys[i]? with
              | some (some pk) =>
                match n.merge pk sn, p.deallocate sp with
                | some n, some p =>
                  match p.writeNode page (.internal n), pn.removeAt i true with
                  | some p, some (pn, _, _) => removeUpReads p pp pn st
                  | _, _ => []
                | _, _ => []
              | _ => []
            else
              match pn.keys[si]? with
              | some (some pk) =>
                match sn.merge pk n, p.deallocate page with
                | some sn, some p =>
                  match p.writeNode sp (.internal sn), pn.removeAt si true with
                  | some p, some (pn, _, _) => removeUpReads p pp pn st
                  | _, _ => []
                | _, _ => []
              | _ => []
          else []
        | _ => []
    else []

/-- map.rs:299-371 and then 375-461: the rest of `remove`. -/
def removeLeafReads (p : Pager K V) (page : Nat) (n : LNode K V) : Stack K → List Nat
  | [] => []
  | (pp, pn, i) :: st =>
    if n.len < (p.md.leafDeg + 1) / 2 then
      let si := siblingIndex i
      match pn.ptrs[si]? with
      | none => []
      | some sp =>
        sp ::
        match p.getPage sp with
        | some (.leaf sn) =>
          if sn.len = (p.md.leafDeg + 1) / 2 then
            if si = i + 1 then
              match n.merge sn, p.deallocate sp with
              | some n, some p =>
                match p.writeNode page (.leaf n), pn.removeAt i true with
                | some p, some (pn, _, _) => removeUpReads (p.setLen (p.md.len - 1)) pp pn st
                | _, _ => []
              | _, _ => []
            else
              match sn.merge n, p.deallocate page with
              | some sn, some p =>
                match p.writeNode sp (.leaf sn), pn.removeAt si true with
                | some p, some (pn, _, _) => removeUpReads (p.setLen (p.md.len - 1)) pp pn st
                | _, _ => []
              | _, _ => []
          else []
        | _ => []
    else []

/-- map.rs:286-463 `remove`. -/
def removeReads (p : Pager K V) (k : K) : List Nat :=
  getReads p k ++
  match search p k with
  | some (page, .leaf n, st) =>
    match n.remove k with
    | none => []
    | some (n, _) => removeLeafReads p page n st
  | _ => []

end

/-- map.rs:626-629 and 717-720: the way to the leftmost leaf. -/
def leftmostReads (p : Pager K V) : Nat → Nat → List Nat
  | 0, _ => []
  | f + 1, page =>
    page ::
    match p.getPage page with
    | some (.internal n) =>
      match n.ptrs[0]? with
      | none => []
      | some q => leftmostReads p f q
    | _ => []

/-- map.rs:666-669: the way to the rightmost leaf. -/
def rightmostReads (p : Pager K V) : Nat → Nat → List Nat
  | 0, _ => []
  | f + 1, page =>
    page ::
    match p.getPage page with
    | some (.internal n) =>
      match n.ptrs[n.len]? with
      | none => []
      | some q => rightmostReads p f q
    | _ => []

/-- map.rs:618-637 `min` and 709-730 `iter_mut`. -/
def minReads (p : Pager K V) : List Nat := leftmostReads p (p.disk.pages.length + 1) p.md.root

/-- map.rs:658-683 `max`. -/
def maxReads (p : Pager K V) : List Nat := rightmostReads p (p.disk.pages.length + 1) p.md.root

/-- map.rs:762-785 `next`. -/
def Iter.nextReads (it : Iter K V) : List Nat := if it.node.len ≤ it.index then it.node.next.toList else []

/-- The calls of `next` until the first `None`. -/
def Iter.drainReads (p : Pager K V) : Nat → Iter K V → List Nat
  | 0, _ => []
  | f + 1, it =>
    it.nextReads ++
    match it.next p with
    | some (it, some _) => Iter.drainReads p f it
    | _ => []

/-- A loop over `iter_mut`. -/
def listReads (p : Pager K V) : List Nat :=
  minReads p ++
  match iterNew p with
  | none => []
  | some it => it.drainReads p (p.disk.pages.length * p.md.leafDeg + 1)

/-! ### Other pages do not matter -/

/-- Two maps with the same metadata, whose files have the same header and length and the same contents of the pages
`S`. -/
structure SameOn (S : List Nat) (p q : Pager K V) : Prop where
  md : p.md = q.md
  hdr : p.disk.hdr = q.disk.hdr
  len : p.disk.pages.length = q.disk.pages.length
  page : ∀ i ∈ S, p.disk.pages[i]? = q.disk.pages[i]?

/-- `p` and `q` come from `p0` and `q0` by the same changes: the same metadata, header and length, and every page is
the same or is as it was in both. -/
structure Twin (p0 q0 p q : Pager K V) : Prop where
  md : p.md = q.md
  hdr : p.disk.hdr = q.disk.hdr
  len : p.disk.pages.length = q.disk.pages.length
  page : ∀ i : Nat, p.disk.pages[i]? = q.disk.pages[i]? ∨
    (p.disk.pages[i]? = p0.disk.pages[i]? ∧ q.disk.pages[i]? = q0.disk.pages[i]?)

theorem SameOn.twin {S} {p q : Pager K V} (h : SameOn S p q) : Twin p q p q :=
  ⟨h.md, h.hdr, h.len, fun _ => .inr ⟨rfl, rfl⟩⟩

theorem SameOn.mono {S T} {p q : Pager K V} (h : SameOn S p q) (hT : ∀ i ∈ T, i ∈ S) : SameOn T p q :=
  ⟨h.md, h.hdr, h.len, fun i hi => h.page i (hT i hi)⟩

theorem SameOn.getPage {S} {p q : Pager K V} (h : SameOn S p q) {i} (hi : i ∈ S) : q.getPage i = p.getPage i := by
  rw [Pager.getPage, Pager.getPage, h.page i hi]

variable {p0 q0 p q : Pager K V}

theorem Twin.getPage {S} (h0 : SameOn S p0 q0) (h : Twin p0 q0 p q) {i} (hi : i ∈ S) : q.getPage i = p.getPage i := by
  have : p.disk.pages[i]? = q.disk.pages[i]? := by
    rcases h.page i with h | ⟨h1, h2⟩
    · exact h
    · rw [h1, h2, h0.page i hi]
  rw [Pager.getPage, Pager.getPage, this]

theorem Twin.setMd (h : Twin p0 q0 p q) (m : Meta) : Twin p0 q0 { p with md := m } { q with md := m } :=
  ⟨rfl, h.hdr, h.len, h.page⟩

theorem Twin.writeHdr (h : Twin p0 q0 p q) : Twin p0 q0 p.writeHdr q.writeHdr :=
  ⟨h.md, h.md, h.len, h.page⟩

theorem Twin.setLen (h : Twin p0 q0 p q) (n : Nat) : Twin p0 q0 (p.setLen n) (q.setLen n) := by
  have := (h.setMd { p.md with len := n }).writeHdr
  rw [Pager.setLen, Pager.setLen, ← h.md]
  exact this

theorem Twin.setRoot (h : Twin p0 q0 p q) (n : Nat) : Twin p0 q0 (p.setRoot n) (q.setRoot n) := by
  have := (h.setMd { p.md with root := n }).writeHdr
  rw [Pager.setRoot, Pager.setRoot, ← h.md]
  exact this

theorem Twin.writeNode (h : Twin p0 q0 p q) (i : Nat) (n : Node K V) :
    Option.Rel (Twin p0 q0) (p.writeNode i n) (q.writeNode i n) := by
  rw [Pager.writeNode, Pager.writeNode, ← h.len]
  split
  · refine .some ⟨h.md, h.hdr, by simpa [Pager.put] using h.len, fun j => ?_⟩
    have hl := h.len
    rcases h.page j with hj | hj
    · left
      simp only [Pager.put, List.getElem?_set, hl, hj]
    · by_cases e : i = j
      · left
        subst e
        simp only [Pager.put, List.getElem?_set, hl]
        simp
      · right
        simp only [Pager.put, List.getElem?_set, e, if_false]
        exact hj
  · exact .none

/-- What holds of two related results. -/
theorem rel_cases {α β : Type} {R : α → β → Prop} {a b} (h : Option.Rel R a b) :
    (a = none ∧ b = none) ∨ ∃ x y, a = some x ∧ b = some y ∧ R x y := by
  cases h with
  | some h => exact .inr ⟨_, _, rfl, rfl, h⟩
  | none => exact .inl ⟨rfl, rfl⟩

theorem Twin.setFileLen (h : Twin p0 q0 p q) (n : Nat) : Twin p0 q0 (p.setFileLen n) (q.setFileLen n) := by
  have hl := h.len
  refine ⟨h.md, h.hdr, by simp [Pager.setFileLen, Pager.put, hl], fun j => ?_⟩
  simp only [Pager.setFileLen, Pager.put]
  by_cases e : j < n ∧ j < p.disk.pages.length
  · rw [List.getElem?_append_left (by simp; omega), List.getElem?_append_left (by simp; omega), List.getElem?_take,
      List.getElem?_take, if_pos e.1, if_pos e.1]
    exact h.page j
  · left
    rw [List.getElem?_append_right (by simp; omega), List.getElem?_append_right (by simp; omega)]
    simp [hl]

theorem Twin.allocate {S} (h0 : SameOn S p0 q0) (h : Twin p0 q0 p q) (hS : ∀ i ∈ p.allocReads, i ∈ S) (n : Node K V) :
    Option.Rel (fun x y => Twin p0 q0 x.1 y.1 ∧ x.2 = y.2) (p.allocate n) (q.allocate n) := by
  rw [Pager.allocate, Pager.allocate]
  have hmd := h.md
  cases hf : p.md.free with
  | none =>
    simp only [← hmd, hf]
    have h1 := (h.setMd ⟨p.md.pages + 1, p.md.len, p.md.root, p.md.leafDeg, p.md.intDeg, none⟩).setFileLen
      (p.md.pages + 1)
    rcases rel_cases (h1.writeNode (p.md.pages + 1 - 1) n) with ⟨e1, e2⟩ | ⟨x, y, e1, e2, h2⟩
    · simp only [Pager.setFileLen, Pager.put] at e1 e2 ⊢
      simp only [e1, e2]
      exact .none
    · simp only [Pager.setFileLen, Pager.put] at e1 e2 ⊢
      simp only [e1, e2]
      exact .some ⟨h2.writeHdr, by rw [h2.md]⟩
  | some f =>
    simp only [← hmd, hf]
    rw [h.getPage h0 (hS f (by simp [Pager.allocReads, hf]))]
    cases p.getPage f with
    | none => exact .none
    | some nd =>
      cases nd with
      | free nf =>
        simp only
        rcases rel_cases (h.writeNode f n) with ⟨e1, e2⟩ | ⟨x, y, e1, e2, h2⟩
        · simp only [e1, e2]; exact .none
        · simp only [e1, e2]
          have h3 := (h2.setMd { x.md with free := nf }).writeHdr
          rw [← h2.md]
          exact .some ⟨h3, rfl⟩
      | leaf _ => exact .none
      | internal _ => exact .none

theorem Twin.deallocate (h : Twin p0 q0 p q) (i : Nat) :
    Option.Rel (Twin p0 q0) (p.deallocate i) (q.deallocate i) := by
  rw [Pager.deallocate, Pager.deallocate, ← h.md]
  rcases rel_cases (h.writeNode i (.free p.md.free)) with ⟨e1, e2⟩ | ⟨x, y, e1, e2, h2⟩
  · simp only [e1, e2]; exact .none
  · simp only [e1, e2]
    have h3 := (h2.setMd { x.md with free := some i }).writeHdr
    rw [← h2.md]
    exact .some h3

section
variable [LinearOrder K]

theorem searchNode_frame {S : List Nat} (h : SameOn S p q) (key : K) : ∀ (f page : Nat) (st : Stack K),
    (∀ i ∈ searchNodeReads p key f page, i ∈ S) → searchNode q key f page st = searchNode p key f page st ∧
      searchNodeReads q key f page = searchNodeReads p key f page := by
  intro f
  induction f with
  | zero => intro page st _; exact ⟨rfl, rfl⟩
  | succ f ih =>
    intro page st hS
    rw [searchNodeReads] at hS
    rw [searchNode, searchNode, searchNodeReads, searchNodeReads, h.getPage (hS page (by simp))]
    cases hg : p.getPage page with
    | none => exact ⟨rfl, rfl⟩
    | some nd =>
      cases nd with
      | free _ => exact ⟨rfl, rfl⟩
      | leaf _ => exact ⟨rfl, rfl⟩
      | internal n =>
        simp only [hg] at hS ⊢
        cases hs : n.search key with
        | none => exact ⟨rfl, rfl⟩
        | some i =>
          simp only [hs] at hS ⊢
          cases hp : n.ptrs[i]? with
          | none => exact ⟨rfl, rfl⟩
          | some c =>
            simp only [hp] at hS ⊢
            have := ih c ((page, n, i) :: st) fun i hi => hS i (by simp [hi])
            exact ⟨this.1, by rw [this.2]⟩

theorem search_frame {S : List Nat} (h : SameOn S p q) {key : K} (hS : ∀ i ∈ getReads p key, i ∈ S) :
    search q key = search p key ∧ getReads q key = getReads p key := by
  have := searchNode_frame h key (p.disk.pages.length + 1) p.md.root [] hS
  rw [search, search, getReads, getReads, ← h.len, ← h.md]
  exact this

theorem insertUp_frame {S : List Nat} (h0 : SameOn S p0 q0) : ∀ (st : Stack K) {p q : Pager K V} (page : Nat) (s : Option (K × Nat)),
    Twin p0 q0 p q → (∀ i ∈ insertUpReads p st s, i ∈ S) →
    Option.Rel (Twin p0 q0) (insertUp p page st s) (insertUp q page st s) := by
  intro st
  induction st with
  | nil =>
    intro p q page s h hS
    cases s with
    | none => exact .some h
    | some s =>
      obtain ⟨k, c⟩ := s
      rw [insertUp, insertUp, ← h.md]
      split
      · rename_i ks _ _ ps h1 h2
        rcases rel_cases (h.allocate h0 hS (.internal ⟨1, some k :: ks, page :: c :: ps⟩)) with
          ⟨e1, e2⟩ | ⟨⟨x, i⟩, ⟨y, j⟩, e1, e2, h2, h3⟩
        · simp only [e1, e2]; exact .none
        · simp only at h2 h3
          subst h3
          simp only [e1, e2]; exact .some (h2.setRoot _)
      · exact .none
  | cons x st ih =>
    intro p q page s h hS
    obtain ⟨pp, n, ix⟩ := x
    cases s with
    | none => exact .some h
    | some s =>
      obtain ⟨k, c⟩ := s
      rw [insertUp, insertUp]
      rw [insertUpReads] at hS
      cases hi : n.insert k c with
      | none => exact .none
      | some r =>
        obtain ⟨n', o⟩ := r
        cases o with
        | none => exact h.writeNode pp _
        | some o =>
          obtain ⟨k2, s⟩ := o
          simp only [hi] at hS ⊢
          rcases rel_cases (h.allocate h0 (fun i hi => hS i (List.mem_append_left _ hi)) (.internal s)) with
            ⟨e1, e2⟩ | ⟨⟨x, i⟩, ⟨y, j⟩, e1, e2, h2, h3⟩
          · simp only [e1, e2]; exact .none
          · simp only at h2 h3
            subst h3
            simp only [e1, e2] at hS ⊢
            rcases rel_cases (h2.writeNode pp (.internal n')) with ⟨e1, e2⟩ | ⟨x', y', e1, e2, h4⟩
            · simp only [e1, e2]; exact .none
            · simp only [e1, e2] at hS ⊢
              exact ih pp _ h4 fun i hi => hS i (List.mem_append_right _ hi)

theorem insert_frame {k : K} {v : V} (h0 : SameOn (insertReads p k v) p q) :
    Option.Rel (fun x y => Twin p q x.1 y.1 ∧ x.2 = y.2) (insert p k v) (insert q k v) := by
  have hs := (search_frame h0 (key := k) fun i hi => List.mem_append_left _ hi).1
  generalize hT : insertReads p k v = T at h0
  rw [insert, insert, hs]
  rw [insertReads] at hT
  have hS : ∀ i ∈ _, i ∈ T := fun i hi => hT ▸ hi
  clear hT
  cases hse : search p k with
  | none => exact .none
  | some r =>
    obtain ⟨page, nd, st⟩ := r
    cases nd with
    | free _ => exact .none
    | internal _ => exact .none
    | leaf n =>
      simp only [hse] at hS ⊢
      rw [insertLeaf, insertLeaf]
      cases hi : n.insert (k, v) with
      | none => exact .none
      | some r =>
        obtain ⟨n', o⟩ := r
        cases o with
        | entry o =>
          simp only
          rcases rel_cases (h0.twin.writeNode page (.leaf n')) with ⟨e1, e2⟩ | ⟨x, y, e1, e2, h2⟩
          · simp only [e1, e2]; exact .none
          · simp only [e1, e2, Option.map_some]; exact .some ⟨h2, rfl⟩
        | done =>
          simp only
          rcases rel_cases (h0.twin.writeNode page (.leaf n')) with ⟨e1, e2⟩ | ⟨x, y, e1, e2, h2⟩
          · simp only [e1, e2]; exact .none
          · simp only [e1, e2, Option.map_some, insertUp]
            exact .some ⟨h2.md ▸ h2.setLen _, rfl⟩
        | split k' s =>
          simp only [hi] at hS ⊢
          rcases rel_cases (h0.twin.allocate h0
              (fun i hi => hS i (List.mem_append_right _ (List.mem_append_left _ hi))) (.leaf s)) with
            ⟨e1, e2⟩ | ⟨⟨x, i⟩, ⟨y, j⟩, e1, e2, h2, h3⟩
          · simp only [e1, e2]; exact .none
          · simp only at h2 h3
            subst h3
            simp only [e1, e2] at hS ⊢
            rcases rel_cases (h2.writeNode page (.leaf { n' with next := some i })) with ⟨e1, e2⟩ | ⟨x', y', e1, e2, h4⟩
            · simp only [e1, e2]; exact .none
            · simp only [e1, e2, Option.map_some] at hS ⊢
              rcases rel_cases (insertUp_frame h0 st page (some (k', i)) h4
                  fun i hi => hS i (List.mem_append_right _ (List.mem_append_right _ hi))) with
                ⟨e1, e2⟩ | ⟨x', y', e1, e2, h4⟩
              · simp only [e1, e2]; exact .none
              · simp only [e1, e2]
                exact .some ⟨h4.md ▸ h4.setLen _, rfl⟩

theorem removeUp_frame {S : List Nat} (h0 : SameOn S p0 q0) : ∀ (st : Stack K) {p q : Pager K V} (page : Nat) (n : INode K),
    Twin p0 q0 p q → (∀ i ∈ removeUpReads p page n st, i ∈ S) →
    Option.Rel (Twin p0 q0) (removeUp p page n st) (removeUp q page n st) := by
  intro st
  induction st with
  | nil =>
    intro p q page n h _
    rw [removeUp, removeUp, ← h.md]
    split
    · split
      · cases n.ptrs[0]? with
        | none => exact .none
        | some r => exact (h.setRoot r).deallocate page
      · exact h.writeNode _ _
    · exact h.writeNode _ _
  | cons x st ih =>
    intro p q page n h hS
    obtain ⟨pp, pn, i⟩ := x
    rw [removeUpReads] at hS
    rw [removeUp, removeUp, ← h.md]
    split
    · rename_i hlt
      rw [if_pos hlt] at hS
      simp only at hS ⊢
      cases hp : pn.ptrs[siblingIndex i]? with
      | none => exact .none
      | some sp =>
        simp only [hp] at hS ⊢
        rw [h.getPage h0 (hS sp (by simp))]
        have hS : ∀ j ∈ _, j ∈ S := fun j hj => hS j (List.mem_cons_of_mem _ hj)
        cases hg : p.getPage sp with
        | none => exact .none
        | some nd =>
          cases nd with
          | free _ => exact .none
          | leaf _ => exact .none
          | internal sn =>
            simp only [hg] at hS ⊢
            split
            · rename_i hl
              rw [if_pos hl] at hS
              split
              · rename_i hsi
                rw [if_pos hsi] at hS
                cases hk : pn.keys[i]? with
                | none => exact .none
                | some ok =>
                  cases ok with
                  | none => exact .none
                  | some pk =>
                    simp only [hk] at hS ⊢
                    rcases rel_cases (h.deallocate sp) with ⟨e1, e2⟩ | ⟨x, y, e1, e2, h2⟩
                    · simp only [e1, e2]
                      cases n.merge pk sn <;> exact .none
                    · simp only [e1, e2] at hS ⊢
                      cases hm : n.merge pk sn with
                      | none => exact .none
                      | some n' =>
                        simp only [hm] at hS ⊢
                        rcases rel_cases (h2.writeNode page (.internal n')) with ⟨e1, e2⟩ | ⟨x, y, e1, e2, h2⟩
                        · simp only [e1, e2]; exact .none
                        · simp only [e1, e2] at hS ⊢
                          cases hr : pn.removeAt i true with
                          | none => exact .none
                          | some r =>
                            simp only [hr] at hS ⊢
                            exact ih pp r.1 h2 hS
              · rename_i hsi
                rw [if_neg hsi] at hS
                cases hk : pn.keys[siblingIndex i]? with
                | none => exact .none
                | some ok =>
                  cases ok with
                  | none => exact .none
                  | some pk =>
                    simp only [hk] at hS ⊢
                    rcases rel_cases (h.deallocate page) with ⟨e1, e2⟩ | ⟨x, y, e1, e2, h2⟩
                    · simp only [e1, e2]
                      cases sn.merge pk n <;> exact .none
                    · simp only [e1, e2] at hS ⊢
                      cases hm : sn.merge pk n with
                      | none => exact .none
                      | some n' =>
                        simp only [hm] at hS ⊢
                        rcases rel_cases (h2.writeNode sp (.internal n')) with ⟨e1, e2⟩ | ⟨x, y, e1, e2, h2⟩
                        · simp only [e1, e2]; exact .none
                        · simp only [e1, e2] at hS ⊢
                          cases hr : pn.removeAt (siblingIndex i) true with
                          | none => exact .none
                          | some r =>
                            simp only [hr] at hS ⊢
                            exact ih pp r.1 h2 hS
            · split
              · split
                · rename_i sn' rk rp pk _ _
                  split
                  · exact .none
                  · rename_i n' _ _
                    rcases rel_cases (h.writeNode pp (.internal { pn with keys := pn.keys.set i (some rk) })) with
                      ⟨e1, e2⟩ | ⟨x, y, e1, e2, h2⟩
                    · simp only [e1, e2]; exact .none
                    · simp only [e1, e2]
                      rcases rel_cases (h2.writeNode sp (.internal sn')) with ⟨e1, e2⟩ | ⟨x, y, e1, e2, h2⟩
                      · simp only [e1, e2]; exact .none
                      · simp only [e1, e2]
                        exact h2.writeNode _ _
                · exact .none
              · split
                · rename_i sn' rk rp pk _ _
                  split
                  · exact .none
                  · rcases rel_cases (h.writeNode pp
                        (.internal { pn with keys := pn.keys.set (siblingIndex i) (some rk) })) with
                      ⟨e1, e2⟩ | ⟨x, y, e1, e2, h2⟩
                    · simp only [e1, e2]; exact .none
                    · simp only [e1, e2]
                      rcases rel_cases (h2.writeNode sp (.internal sn')) with ⟨e1, e2⟩ | ⟨x, y, e1, e2, h2⟩
                      · simp only [e1, e2]; exact .none
                      · simp only [e1, e2]
                        exact h2.writeNode _ _
                · exact .none
    · exact h.writeNode _ _

theorem removeLeaf_frame {S : List Nat} (h0 : SameOn S p0 q0) (st : Stack K) (page : Nat) (n : LNode K V)
    (found : Bool) (h : Twin p0 q0 p q) (hS : ∀ i ∈ removeLeafReads p page n st, i ∈ S) :
    Option.Rel (Twin p0 q0) (removeLeaf p page n found st) (removeLeaf q page n found st) := by
  have plain : Option.Rel (Twin p0 q0)
      (if found then (p.setLen (p.md.len - 1)).writeNode page (.leaf n) else some p)
      (if found then (q.setLen (p.md.len - 1)).writeNode page (.leaf n) else some q) := by
    split
    · exact (h.setLen _).writeNode _ _
    · exact .some h
  cases st with
  | nil =>
    rw [removeLeaf, removeLeaf, ← h.md]
    exact plain
  | cons x st =>
    obtain ⟨pp, pn, i⟩ := x
    rw [removeLeafReads] at hS
    rw [removeLeaf, removeLeaf, ← h.md]
    split
    · rename_i hlt
      rw [if_pos hlt] at hS
      simp only at hS ⊢
      cases hp : pn.ptrs[siblingIndex i]? with
      | none => exact .none
      | some sp =>
        simp only [hp] at hS ⊢
        rw [h.getPage h0 (hS sp (by simp))]
        have hS : ∀ j ∈ _, j ∈ S := fun j hj => hS j (List.mem_cons_of_mem _ hj)
        cases hg : p.getPage sp with
        | none => exact .none
        | some nd =>
          cases nd with
          | free _ => exact .none
          | internal _ => exact .none
          | leaf sn =>
            simp only [hg] at hS ⊢
            split
            · rename_i hl
              rw [if_pos hl] at hS
              split
              · rename_i hsi
                rw [if_pos hsi] at hS
                rcases rel_cases (h.deallocate sp) with ⟨e1, e2⟩ | ⟨x, y, e1, e2, h2⟩
                · simp only [e1, e2]
                  cases n.merge sn <;> exact .none
                · simp only [e1, e2] at hS ⊢
                  cases hm : n.merge sn with
                  | none => exact .none
                  | some n' =>
                    simp only [hm] at hS ⊢
                    rcases rel_cases (h2.writeNode page (.leaf n')) with ⟨e1, e2⟩ | ⟨x, y, e1, e2, h2⟩
                    · simp only [e1, e2]; exact .none
                    · simp only [e1, e2] at hS ⊢
                      cases hr : pn.removeAt i true with
                      | none => exact .none
                      | some r =>
                        simp only [hr] at hS ⊢
                        have := h2.setLen (x.md.len - 1)
                        rw [← h2.md]
                        exact removeUp_frame h0 st pp r.1 this hS
              · rename_i hsi
                rw [if_neg hsi] at hS
                rcases rel_cases (h.deallocate page) with ⟨e1, e2⟩ | ⟨x, y, e1, e2, h2⟩
                · simp only [e1, e2]
                  cases sn.merge n <;> exact .none
                · simp only [e1, e2] at hS ⊢
                  cases hm : sn.merge n with
                  | none => exact .none
                  | some n' =>
                    simp only [hm] at hS ⊢
                    rcases rel_cases (h2.writeNode sp (.leaf n')) with ⟨e1, e2⟩ | ⟨x, y, e1, e2, h2⟩
                    · simp only [e1, e2]; exact .none
                    · simp only [e1, e2] at hS ⊢
                      cases hr : pn.removeAt (siblingIndex i) true with
                      | none => exact .none
                      | some r =>
                        simp only [hr] at hS ⊢
                        have := h2.setLen (x.md.len - 1)
                        rw [← h2.md]
                        exact removeUp_frame h0 st pp r.1 this hS
            · split
              · split
                · exact .none
                · rename_i sn' re _
                  split
                  · split
                    · rename_i ks n' _ _ _
                      rcases rel_cases (h.writeNode pp (.internal { pn with keys := ks })) with
                        ⟨e1, e2⟩ | ⟨x, y, e1, e2, h2⟩
                      · simp only [e1, e2]; exact .none
                      · simp only [e1, e2]
                        rcases rel_cases (h2.writeNode sp (.leaf sn')) with ⟨e1, e2⟩ | ⟨x, y, e1, e2, h2⟩
                        · simp only [e1, e2]; exact .none
                        · simp only [e1, e2]
                          rcases rel_cases (h2.writeNode page (.leaf n')) with ⟨e1, e2⟩ | ⟨x, y, e1, e2, h2⟩
                          · simp only [e1, e2]; exact .none
                          · simp only [e1, e2]
                            exact .some (h2.md ▸ h2.setLen _)
                    · exact .none
                  · exact .none
              · split
                · exact .none
                · rename_i sn' re _
                  split
                  · rename_i ks n' _ _ _
                    rcases rel_cases (h.writeNode pp (.internal { pn with keys := ks })) with
                      ⟨e1, e2⟩ | ⟨x, y, e1, e2, h2⟩
                    · simp only [e1, e2]; exact .none
                    · simp only [e1, e2]
                      rcases rel_cases (h2.writeNode sp (.leaf sn')) with ⟨e1, e2⟩ | ⟨x, y, e1, e2, h2⟩
                      · simp only [e1, e2]; exact .none
                      · simp only [e1, e2]
                        rcases rel_cases (h2.writeNode page (.leaf n')) with ⟨e1, e2⟩ | ⟨x, y, e1, e2, h2⟩
                        · simp only [e1, e2]; exact .none
                        · simp only [e1, e2]
                          exact .some (h2.md ▸ h2.setLen _)
                  · exact .none
    · exact plain

theorem remove_frame {k : K} (h0 : SameOn (removeReads p k) p q) :
    Option.Rel (fun x y => Twin p q x.1 y.1 ∧ x.2 = y.2) (remove p k) (remove q k) := by
  have hs := (search_frame h0 (key := k) fun i hi => List.mem_append_left _ hi).1
  generalize hT : removeReads p k = T at h0
  rw [remove, remove, hs]
  rw [removeReads] at hT
  have hS : ∀ i ∈ _, i ∈ T := fun i hi => hT ▸ hi
  clear hT
  cases hse : search p k with
  | none => exact .none
  | some r =>
    obtain ⟨page, nd, st⟩ := r
    cases nd with
    | free _ => exact .none
    | internal _ => exact .none
    | leaf n =>
      simp only [hse] at hS ⊢
      cases hi : n.remove k with
      | none => exact .none
      | some r =>
        obtain ⟨n', o⟩ := r
        simp only [hi] at hS ⊢
        rcases rel_cases (removeLeaf_frame h0 st page n' o.isSome h0.twin
            fun i hi => hS i (List.mem_append_right _ hi)) with ⟨e1, e2⟩ | ⟨x, y, e1, e2, h2⟩
        · simp only [e1, e2]; exact .none
        · simp only [e1, e2, Option.map_some]
          exact .some ⟨h2, rfl⟩

end

theorem leftmost_reads_frame {S : List Nat} (h : SameOn S p q) : ∀ (f page : Nat),
    (∀ i ∈ leftmostReads p f page, i ∈ S) → leftmost q f page = leftmost p f page := by
  intro f
  induction f with
  | zero => intro page _; rfl
  | succ f ih =>
    intro page hS
    rw [leftmostReads] at hS
    rw [leftmost, leftmost, h.getPage (hS page (by simp))]
    cases hg : p.getPage page with
    | none => rfl
    | some nd =>
      cases nd with
      | free _ => rfl
      | leaf _ => rfl
      | internal n =>
        simp only [hg] at hS ⊢
        cases hp : n.ptrs[0]? with
        | none => rfl
        | some c =>
          simp only [hp] at hS ⊢
          exact ih c fun i hi => hS i (by simp [hi])

theorem rightmost_reads_frame {S : List Nat} (h : SameOn S p q) : ∀ (f page : Nat),
    (∀ i ∈ rightmostReads p f page, i ∈ S) → rightmost q f page = rightmost p f page := by
  intro f
  induction f with
  | zero => intro page _; rfl
  | succ f ih =>
    intro page hS
    rw [rightmostReads] at hS
    rw [rightmost, rightmost, h.getPage (hS page (by simp))]
    cases hg : p.getPage page with
    | none => rfl
    | some nd =>
      cases nd with
      | free _ => rfl
      | leaf _ => rfl
      | internal n =>
        simp only [hg] at hS ⊢
        cases hp : n.ptrs[n.len]? with
        | none => rfl
        | some c =>
          simp only [hp] at hS ⊢
          exact ih c fun i hi => hS i (by simp [hi])

theorem next_frame {S : List Nat} (h : SameOn S p q) (it : Iter K V) (hS : ∀ i ∈ it.nextReads, i ∈ S) :
    it.next q = it.next p := by
  rw [Iter.nextReads] at hS
  rw [Iter.next, Iter.next]
  split
  · rename_i hl
    rw [if_pos hl] at hS
    cases hn : it.node.next with
    | none => rfl
    | some c =>
      simp only
      rw [h.getPage (hS c (by simp [hn]))]
  · rfl

theorem drain_reads_frame {S : List Nat} (h : SameOn S p q) : ∀ (f : Nat) (it : Iter K V),
    (∀ i ∈ it.drainReads p f, i ∈ S) → it.drain q f = it.drain p f := by
  intro f
  induction f with
  | zero => intro it _; rfl
  | succ f ih =>
    intro it hS
    rw [Iter.drainReads] at hS
    rw [Iter.drain, Iter.drain, next_frame h it fun i hi => hS i (List.mem_append_left _ hi)]
    cases hn : it.next p with
    | none => rfl
    | some r =>
      obtain ⟨it', o⟩ := r
      cases o with
      | none => rfl
      | some e =>
        simp only [hn] at hS ⊢
        rw [ih it' fun i hi => hS i (List.mem_append_right _ hi)]

/-! ### Counting -/

section
variable [LinearOrder K] {ld id : Nat}

omit [LinearOrder K] in
theorem balanced_height {d : Disk K V} {r r' : Bool} {h h' pg : Nat} (hb : Balanced d ld id r h pg)
    (hb' : Balanced d ld id r' h' pg) : h = h' := by
  induction hb generalizing h' r' with
  | leaf e =>
    cases hb' with
    | leaf => rfl
    | node e' => rw [e] at e'; cases e'
  | node e _ _ _ hl hc ih =>
    cases hb' with
    | leaf e' => rw [e] at e'; cases e'
    | node e' _ _ _ hl' hc' =>
      rw [e] at e'
      cases e'
      have hc0 := List.getElem?_eq_getElem (Nat.lt_of_le_of_lt (Nat.zero_le _) hl)
      rw [ih 0 _ (by omega) hc0 (hc' 0 _ (by omega) hc0)]

theorem searchNodeReads_length {k : K} : ∀ {f page : Nat} {st : Stack K} {pg nd st'},
    searchNode p k f page st = some (pg, nd, st') → (searchNodeReads p k f page).length + st.length = st'.length + 1 := by
  intro f
  induction f with
  | zero => intro page st pg nd st' h; simp [searchNode] at h
  | succ f ih =>
    intro page st pg nd st' h
    rw [searchNode] at h
    rw [searchNodeReads]
    cases hg : p.getPage page with
    | none => simp [hg] at h
    | some x =>
      cases x with
      | free _ => simp only [hg, Option.some.injEq, Prod.mk.injEq] at h ⊢; simp [h.2.2]; omega
      | leaf _ => simp only [hg, Option.some.injEq, Prod.mk.injEq] at h ⊢; simp [h.2.2]; omega
      | internal n =>
        simp only [hg] at h ⊢
        cases hs : n.search k with
        | none => simp [hs] at h
        | some i =>
          simp only [hs] at h ⊢
          cases hp : n.ptrs[i]? with
          | none => simp [hp] at h
          | some c =>
            simp only [hp] at h ⊢
            have := ih h
            simp only [List.length_cons] at this ⊢
            omega

theorem getReads_length {k : K} {pg nd st} (h : search p k = some (pg, nd, st)) : (getReads p k).length = st.length + 1 := by
  have := searchNodeReads_length h
  rw [getReads]
  simpa using this

omit [LinearOrder K] in
theorem allocReads_length (p : Pager K V) : p.allocReads.length ≤ 1 := by
  rw [Pager.allocReads]
  cases p.md.free <;> simp

theorem insertUpReads_length : ∀ (st : Stack K) (p : Pager K V) (s : Option (K × Nat)),
    (insertUpReads p st s).length ≤ st.length + 1 := by
  intro st
  induction st with
  | nil => intro p s; cases s <;> simp [insertUpReads, allocReads_length]
  | cons x st ih =>
    intro p s
    obtain ⟨pp, n, i⟩ := x
    cases s with
    | none => simp [insertUpReads]
    | some s =>
      rw [insertUpReads]
      have h1 := allocReads_length p
      split
      · simp
      · simp
      · rw [List.length_append, List.length_cons]
        split
        · simp only [List.length_nil]; omega
        · split
          · simp only [List.length_nil]; omega
          · rename_i p1 _ _ p2 _
            refine le_trans (Nat.add_le_add h1 (ih p2 _)) ?_
            omega

omit [LinearOrder K] in
theorem removeUpReads_length : ∀ (st : Stack K) (p : Pager K V) (page : Nat) (n : INode K),
    (removeUpReads p page n st).length ≤ st.length := by
  intro st
  induction st with
  | nil => intro p page n; simp [removeUpReads]
  | cons x st ih =>
    intro p page n
    obtain ⟨pp, pn, i⟩ := x
    rw [removeUpReads]
    split
    · simp only
      split
      · simp
      · simp only [List.length_cons, Nat.add_le_add_iff_right]
        split
        · split
          · split
            · split
              · split
                · split
                  · exact ih _ _ _
                  · simp
                · simp
              · simp
            · split
              · split
                · split
                  · exact ih _ _ _
                  · simp
                · simp
              · simp
          · simp
        · simp
    · simp

omit [LinearOrder K] in
theorem removeLeafReads_length (st : Stack K) (p : Pager K V) (page : Nat) (n : LNode K V) :
    (removeLeafReads p page n st).length ≤ st.length := by
  cases st with
  | nil => simp [removeLeafReads]
  | cons x st =>
    obtain ⟨pp, pn, i⟩ := x
    rw [removeLeafReads]
    split
    · simp only
      split
      · simp
      · simp only [List.length_cons, Nat.add_le_add_iff_right]
        split
        · split
          · split
            · split
              · split
                · exact removeUpReads_length _ _ _ _
                · simp
              · simp
            · split
              · split
                · exact removeUpReads_length _ _ _ _
                · simp
              · simp
          · simp
        · simp
    · simp

theorem insertReads_length {k : K} {v : V} {pg nd st} (h : search p k = some (pg, nd, st)) :
    (insertReads p k v).length ≤ 2 * st.length + 3 := by
  rw [insertReads, List.length_append, getReads_length h]
  simp only [h]
  split
  · rename_i page n st' e
    simp only [Option.some.injEq, Prod.mk.injEq] at e
    obtain ⟨rfl, rfl, rfl⟩ := e
    split
    · rw [List.length_append]
      have h1 := allocReads_length p
      split
      · simp only [List.length_nil]; omega
      · split
        · simp only [List.length_nil]; omega
        · rename_i p2 _
          refine le_trans (Nat.add_le_add_left (Nat.add_le_add h1 (insertUpReads_length st p2 _)) _) ?_
          omega
    · simp only [List.length_nil]; omega
  · simp only [List.length_nil]; omega

theorem removeReads_length {k : K} {pg nd st} (h : search p k = some (pg, nd, st)) :
    (removeReads p k).length ≤ 2 * st.length + 1 := by
  rw [removeReads, List.length_append, getReads_length h]
  simp only [h]
  split
  · rename_i page n st' e
    simp only [Option.some.injEq, Prod.mk.injEq] at e
    obtain ⟨rfl, rfl, rfl⟩ := e
    split
    · simp only [List.length_nil]; omega
    · refine le_trans (Nat.add_le_add_left (removeLeafReads_length st p pg _) _) ?_
      omega
  · simp only [List.length_nil]; omega

/-- The way to the first leaf: `n` inner pages, then the leaf; with the leaves after it these are pages of the tree, in
preorder. -/
theorem leftmostReads_rep {p : Pager K V} : ∀ {n : Nat} {t : BT K V n} {lo hi nxt}, RepT ld id p.disk t nxt →
    Ok ld id t lo hi → ∀ f, n < f → (leftmostReads p f t.pg).length = n + 1 ∧
      (leftmostReads p f t.pg ++ t.leaves.tail.map Prod.fst).Sublist t.pages := by
  intro n
  induction n with
  | zero =>
    intro t lo hi nxt hr hok f hf
    obtain ⟨pg, es, rfl⟩ := t.leaf_cases
    obtain ⟨f, rfl⟩ : ∃ g, f = g + 1 := ⟨f - 1, by omega⟩
    have h1 : AtPage p.disk pg _ := hr.1
    rw [BT.pg_leaf, leftmostReads, getPage_eq h1]
    simp
  | succ n ih =>
    intro t lo hi nxt hr hok f hf
    obtain ⟨pg, ks, cs, rfl⟩ := t.node_cases
    obtain ⟨-, ho⟩ := ok_node.1 hok
    cases cs with
    | nil => exact absurd rfl (ordL_ne ho)
    | cons c cs =>
      obtain ⟨lo, hi, hc⟩ := ordL_all ho c (by simp)
      have hlk := below_node.1 hr.2
      obtain ⟨f, rfl⟩ : ∃ g, f = g + 1 := ⟨f - 1, by omega⟩
      obtain ⟨h1, h2⟩ := ih hlk.1 hc.2 f (by omega)
      obtain ⟨_, _, l, hl, -⟩ := leftmost_sub hlk.1 hc.2
      have hat : AtPage p.disk pg _ := hr.1
      have hptr : (encInt id ks ((c :: cs).map BT.pg)).ptrs[0]? = some c.pg := by simp [encInt, pad]
      rw [BT.pg_node, leftmostReads, getPage_eq hat]
      simp only [BT.rootNode_node, hptr]
      refine ⟨by simp [h1], ?_⟩
      rw [hl] at h2
      simp only [BT.leaves_node, BT.pages_node, List.flatMap_cons, hl, List.cons_append, List.tail_cons, List.map_append]
      refine List.Sublist.cons_cons _ ?_
      rw [← List.append_assoc]
      refine List.Sublist.append h2 ?_
      clear h2 hl h1 hptr hat hlk hc ho hok hr
      induction cs with
      | nil => simp
      | cons c' cs ih => simpa using (leaves_pages c').append ih

theorem rightmostReads_rep {p : Pager K V} : ∀ {n : Nat} {t : BT K V n} {lo hi nxt}, RepT ld id p.disk t nxt →
    Ok ld id t lo hi → ∀ f, n < f → (rightmostReads p f t.pg).length = n + 1 := by
  intro n
  induction n with
  | zero =>
    intro t lo hi nxt hr hok f hf
    obtain ⟨pg, es, rfl⟩ := t.leaf_cases
    obtain ⟨f, rfl⟩ : ∃ g, f = g + 1 := ⟨f - 1, by omega⟩
    have h1 : AtPage p.disk pg _ := hr.1
    rw [BT.pg_leaf, rightmostReads, getPage_eq h1]
    simp
  | succ n ih =>
    intro t lo hi nxt hr hok f hf
    obtain ⟨pg, ks, cs, rfl⟩ := t.node_cases
    obtain ⟨-, ho⟩ := ok_node.1 hok
    rcases snoc_cases cs with rfl | ⟨cs, c, rfl⟩
    · exact absurd rfl (ordL_ne ho)
    · obtain ⟨lo, hi, hc⟩ := ordL_all ho c (by simp)
      have hlk := linked_append.1 (below_node.1 hr.2)
      obtain ⟨f, rfl⟩ : ∃ g, f = g + 1 := ⟨f - 1, by omega⟩
      have h1 := ih hlk.2.1 hc.2 f (by omega)
      have hat : AtPage p.disk pg _ := hr.1
      have hlen := ordL_length ho
      have hptr : (encInt id ks ((cs ++ [c]).map BT.pg)).ptrs[ks.length]? = some c.pg := by
        have := ptrs_encInt (id := id) (ks := ks) (pl := cs.map BT.pg) (q := c.pg) (pr := [])
        rw [List.map_append]
        simp at hlen
        rw [List.length_map, hlen] at this
        exact this
      rw [BT.pg_node, rightmostReads, getPage_eq hat]
      simp only [BT.rootNode_node, len_encInt, hptr]
      simp [h1]

omit [LinearOrder K] in
theorem drainReads_chain {p : Pager K V} : ∀ (l : List (Nat × List (K × V))) (pre es : List (K × V)) (ents : List (Option (K × V))) (f : Nat),
    LChain ld p.disk l none → (∀ x ∈ l, x.2 ≠ []) → (∀ x ∈ l, x.2.length ≤ ld) →
    ents.drop pre.length = pad (ld - pre.length) none (es.map some) → ents.length = ld → pre.length + es.length ≤ ld →
    es.length + (l.flatMap Prod.snd).length < f →
    Iter.drainReads p f ⟨⟨pre.length + es.length, ents, nextLeaf l none⟩, pre.length⟩ = l.map Prod.fst := by
  intro l
  induction l with
  | nil =>
    intro pre es
    induction es generalizing pre with
    | nil =>
      intro ents f _ _ _ hd hl hle hf
      obtain ⟨f, rfl⟩ : ∃ g, f = g + 1 := ⟨f - 1, by omega⟩
      simp [Iter.drainReads, Iter.next, Iter.nextReads, nextLeaf]
    | cons e es ih =>
      intro ents f hch hne hle' hd hl hle hf
      obtain ⟨f, rfl⟩ : ∃ g, f = g + 1 := ⟨f - 1, by omega⟩
      have hg : ents[pre.length]? = some (some e) := by
        have := congrArg (fun x => x[0]?) hd
        simp [pad] at this
        exact this
      rw [Iter.drainReads, Iter.nextReads, Iter.next]
      simp only [List.length_cons]
      rw [if_neg (by omega), if_neg (by omega), Iter.take]
      simp only [hg]
      have := ih (pre ++ [e]) (ents.set pre.length none) f hch hne hle' ?_ (by simpa using hl) (by simp at hle ⊢; omega)
        (by simp at hf ⊢; omega)
      · simp only [List.length_append, List.length_cons, List.length_nil, Nat.zero_add] at this
        have e2 : pre.length + 1 + es.length = pre.length + (es.length + 1) := by omega
        rw [e2] at this
        rw [this]
        simp
      · have := congrArg (List.drop 1) hd
        rw [List.drop_drop] at this
        simp [pad] at this hle
        simp only [List.length_append, List.length_cons, List.length_nil, Nat.zero_add]
        rw [List.drop_set_of_lt (by omega), this]
        simp [pad]
        omega
  | cons x l ihl =>
    obtain ⟨q, xs⟩ := x
    intro pre es
    induction es generalizing pre with
    | nil =>
      intro ents f hch hne hle' hd hl hle hf
      obtain ⟨f, rfl⟩ : ∃ g, f = g + 1 := ⟨f - 1, by omega⟩
      have hxs := hne (q, xs) (by simp)
      have hxl := hle' (q, xs) (by simp)
      cases xs with
      | nil => exact absurd rfl hxs
      | cons y ys =>
        rw [Iter.drainReads, Iter.nextReads, Iter.next]
        simp only [List.length_nil, Nat.add_zero, Nat.le_refl, if_true]
        have hnl : nextLeaf ((q, y :: ys) :: l) none = some q := rfl
        simp only [hnl, getPage_eq hch.1, Iter.take]
        have hg : (encLeaf ld (y :: ys) (nextLeaf l none)).entries[0]? = some (some y) := by simp [encLeaf, pad]
        simp only [hg]
        have hxl : ys.length + 1 ≤ ld := hxl
        have := ihl [y] ys (((encLeaf ld (y :: ys) (nextLeaf l none)).entries).set 0 none) f hch.2 (fun x hx => hne x (by simp [hx]))
          (fun x hx => hle' x (by simp [hx])) (by simp [encLeaf, pad]; omega) (by simp [encLeaf, pad]; omega)
          (by simp; omega) (by simp at hf ⊢; omega)
        simp only [List.length_cons, List.length_nil, Nat.zero_add] at this
        have e2 : (encLeaf ld (y :: ys) (nextLeaf l none)).len = 1 + ys.length := by simp [len_encLeaf]; omega
        have e3 : (encLeaf ld (y :: ys) (nextLeaf l none)).next = nextLeaf l none := rfl
        rw [e2, e3, Nat.zero_add, this]
        simp
    | cons e es ih =>
      intro ents f hch hne hle' hd hl hle hf
      obtain ⟨f, rfl⟩ : ∃ g, f = g + 1 := ⟨f - 1, by omega⟩
      have hg : ents[pre.length]? = some (some e) := by
        have := congrArg (fun x => x[0]?) hd
        simp [pad] at this
        exact this
      rw [Iter.drainReads, Iter.nextReads, Iter.next]
      simp only [List.length_cons]
      rw [if_neg (by omega), if_neg (by omega), Iter.take]
      simp only [hg]
      have := ih (pre ++ [e]) (ents.set pre.length none) f hch hne hle' ?_ (by simpa using hl) (by simp at hle ⊢; omega)
        (by simp at hf ⊢; omega)
      · simp only [List.length_append, List.length_cons, List.length_nil, Nat.zero_add] at this
        have e2 : pre.length + 1 + es.length = pre.length + (es.length + 1) := by omega
        rw [e2] at this
        rw [this]
        simp
      · have := congrArg (List.drop 1) hd
        rw [List.drop_drop] at this
        simp [pad] at this hle
        simp only [List.length_append, List.length_cons, List.length_nil, Nat.zero_add]
        rw [List.drop_set_of_lt (by omega), this]
        simp [pad]
        omega


/-- A loop over all entries reads pages of the tree only, each at most once: the way to the first leaf and all other
leaves. -/
theorem listReads_holds (hld : 1 ≤ ld) {p : Pager K V} {n : Nat} {t : BT K V n} (h : Holds ld id p t) :
    (listReads p).length + 1 = n + 1 + t.leaves.length ∧ (listReads p).Sublist t.pages := by
  obtain ⟨pg, es, l, h1, h2⟩ := leftmost_sub h.rep h.ok
  have hle := leaves_le h.ok
  have hch := lchain_of_rep h.ok h.rep
  have hcount : (t.leaves.flatMap Prod.snd).length ≤ p.disk.pages.length * ld := by
    refine le_trans (flatMap_length_le hle) (Nat.mul_le_mul_right _ ?_)
    have := (leaves_pages t).length_le
    have := h.wf.length_le
    simp at *
    omega
  have hne : ∀ x ∈ l, x.2 ≠ [] := by
    intro x hx
    have hn : n ≠ 0 := by
      rintro rfl
      obtain ⟨pg', es', rfl⟩ := t.leaf_cases
      simp at h1
      rw [h1.2] at hx
      simp at hx
    have := leaves_half h.ok (Or.inr hn) x (by simp [h1, hx])
    intro h0
    rw [h0] at this
    simp at this; omega
  obtain ⟨h3, h4⟩ := leftmostReads_rep h.rep h.ok _ h.fuel
  rw [h1] at hch hcount hle
  have hes : es.length ≤ ld := hle (pg, es) (by simp)
  have := drainReads_chain l [] es (encLeaf ld es (nextLeaf l none)).entries (p.disk.pages.length * ld + 1) hch.2 hne
    (fun x hx => hle x (by simp [hx])) rfl (by simp [encLeaf, pad]; omega) (by simpa using hes)
    (by simp only [List.flatMap_cons, List.length_append] at hcount; omega)
  simp only [List.length_nil, Nat.zero_add] at this
  have e : listReads p = leftmostReads p (p.disk.pages.length + 1) t.pg ++ l.map Prod.fst := by
    rw [listReads, minReads, iterNew, h.root, h2 _ h.fuel, h.wf.ldeg]
    simp only [Option.map_some]
    exact congrArg _ this
  rw [e]
  rw [h1, List.tail_cons] at h4
  exact ⟨by simp [h3, h1]; omega, h4⟩

/-! ### C86 -/

/-- **C86, `get` and `contains_key`.**  The answer depends on the pages `getReads p k` only. -/
theorem C86_get_frame {k : K} (h : SameOn (getReads p k) p q) : get q k = get p k := by
  rw [get, get, (search_frame h fun _ hi => hi).1]

omit [LinearOrder K] in
/-- **C86, `min`.** -/
theorem C86_min_frame (h : SameOn (minReads p) p q) : min q = min p := by
  rw [min, min, ← h.md, ← h.len, leftmost_reads_frame h _ _ fun _ hi => hi]

omit [LinearOrder K] in
/-- **C86, `max`.** -/
theorem C86_max_frame (h : SameOn (maxReads p) p q) : max q = max p := by
  rw [max, max, ← h.md, ← h.len, rightmost_reads_frame h _ _ fun _ hi => hi]

omit [LinearOrder K] in
/-- **C86, iteration.** -/
theorem C86_list_frame (h : SameOn (listReads p) p q) : toList q = toList p := by
  have h1 : iterNew q = iterNew p := by
    rw [iterNew, iterNew, ← h.md, ← h.len, leftmost_reads_frame h _ _ fun _ hi => List.mem_append_left _ hi]
  rw [toList, toList, h1]
  cases hi : iterNew p with
  | none => rfl
  | some it =>
    simp only [← h.md, ← h.len]
    refine drain_reads_frame h _ _ fun i hm => ?_
    rw [listReads, hi]
    exact List.mem_append_right _ hm

/-- **C86, `insert`.**  If two files differ at most in pages that an insertion does not read, it has the same result and
changes both in the same way: the metadata are the same and every page is the same or was not changed in either. -/
theorem C86_insert_frame {k : K} {v : V} (h : SameOn (insertReads p k v) p q) :
    Option.Rel (fun x y => Twin p q x.1 y.1 ∧ x.2 = y.2) (insert p k v) (insert q k v) := insert_frame h

/-- **C86, `remove`.** -/
theorem C86_remove_frame {k : K} (h : SameOn (removeReads p k) p q) :
    Option.Rel (fun x y => Twin p q x.1 y.1 ∧ x.2 = y.2) (remove p k) (remove q k) := remove_frame h

/-- **C86, page reads (partial).**  After every covered history (see C28), with `h` the height of the tree, which is
logarithmic: `get`, `min` and `max` read `h + 1` pages, `insert` at most `2 h + 3`, `remove` at most `2 h + 1`; a loop
over the `len` entries reads no page twice and at most `h + 1` pages and one for every `⌈ld / 2⌉` entries. -/
theorem C86_reads_partial (hld : 1 ≤ ld) (hid : 3 ≤ id) (hp : Reached ld id p) :
    ∃ h, Balanced p.disk ld id true h p.md.root ∧ (1 ≤ h → 2 * ((id + 1) / 2) ^ (h - 1) * ((ld + 1) / 2) ≤ p.md.len) ∧
      (minReads p).length = h + 1 ∧ (maxReads p).length = h + 1 ∧
      (listReads p).Nodup ∧ (listReads p).length ≤ h + 1 + p.md.len / ((ld + 1) / 2) ∧
      ∀ k, (getReads p k).length = h + 1 ∧ (∀ v, (insertReads p k v).length ≤ 2 * h + 3) ∧
        (removeReads p k).length ≤ 2 * h + 1 := by
  obtain ⟨h, hb, h1, h2, -⟩ := C29_balanced_partial hld hid hp
  obtain ⟨l, n, t, ht, rfl⟩ := reached_rel hld hid hp
  have e : n = h := by
    refine balanced_height (r := true) ?_ hb
    rw [ht.root]
    exact balanced_of_rep (root := true) ht.rep ht.ok (by simp) fun _ => ht.rootOk
  subst e
  obtain ⟨h3, h4⟩ := listReads_holds hld ht
  refine ⟨n, hb, h2, ?_, ?_, h4.nodup ht.wf.nodup, ?_, fun k => ?_⟩
  · rw [minReads, ht.root]
    exact (leftmostReads_rep ht.rep ht.ok _ ht.fuel).1
  · rw [maxReads, ht.root]
    exact rightmostReads_rep ht.rep ht.ok _ ht.fuel
  · cases n with
    | zero =>
      obtain ⟨pg, es, rfl⟩ := t.leaf_cases
      simp at h3
      rw [h3]
      exact Nat.le_add_right _ _
    | succ n =>
      have h5 := leaves_full ht.ok (.inr (by omega))
      rw [← ht.len] at h5
      have h6 := (Nat.le_div_iff_mul_le (by omega)).2 h5
      omega
  · obtain ⟨pg, nd, st, hs, e⟩ := h1 k
    refine ⟨by rw [getReads_length hs, e], fun v => ?_, ?_⟩
    · have := insertReads_length (v := v) hs
      omega
    · have := removeReads_length hs
      omega

/-! ### Cases -/

/-- The bounds are reached by trees of height 2: an insertion that splits a node on every level and takes all new pages
from the free list, and a removal that asks a sibling on every level. -/
example :
    (let p := ((List.range 10).map (· + 40)).foldl (fun p i => insertFrom p i i)
        ((List.range 30).foldl removeFromState (ascending 40))
     (getReads p 50).length = 3 ∧ (insertReads p 50 50).length = 7) ∧
    (let p := (List.range 4).foldl removeFromState (ascending 9)
     (getReads p 4).length = 3 ∧ (removeReads p 4).length = 5) := by decide +kernel

/-- Pages that are not read: another file with the same answer to `get`. -/
example : getReads sampleState 5 ≠ [] ∧ ∃ q : Pager Nat Nat, SameOn (getReads sampleState 5) sampleState q ∧
    q.disk ≠ sampleState.disk := by
  refine ⟨by decide +kernel, { sampleState with disk := { sampleState.disk with
    pages := (List.range 11).map fun i => if i ∈ getReads sampleState 5 then (sampleState.disk.pages[i]?).join else none } },
    ⟨rfl, rfl, by decide +kernel, by decide +kernel⟩, by decide +kernel⟩

end

end Verif.Bp
