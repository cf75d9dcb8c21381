import Mathlib.Data.List.Perm.Subperm
import Mathlib.Tactic.ByContra
import Verif.Arena.Model

namespace Verif.Arena

open Verif.Spec

variable {V : Type}

/-- Total number of blocks. -/
def total (chunks : List (List (Block V))) : Nat := (chunks.map List.length).sum

theorem blockAt_setBlock (cs : List (List (Block V))) (e e' : Entry) (b : Block V)
    (h : (blockAt cs e).isSome) :
    blockAt (setBlock cs e b) e' = if e' = e then some b else blockAt cs e' := by
  obtain ⟨c, i⟩ := e
  obtain ⟨c', i'⟩ := e'
  simp only [blockAt, setBlock, List.getElem?_modify, Entry.mk.injEq] at h ⊢
  by_cases hc : c = c'
  · subst hc
    cases hcs : cs[c]? with
    | none => rw [hcs] at h; simp at h
    | some l =>
      rw [hcs] at h
      simp only [Option.bind_some] at h
      simp only [if_true, Option.map_some, Option.bind_some, List.getElem?_set, true_and]
      have hi : i < l.length := by
        rw [Option.isSome_iff_exists] at h
        obtain ⟨x, hx⟩ := h
        exact (List.getElem?_eq_some_iff.1 hx).1
      by_cases hii : i = i'
      · subst hii; simp [hi]
      · have : ¬ i' = i := fun h => hii h.symm
        simp [hii, this]
  · have : ¬ c' = c := fun h => hc h.symm
    simp [hc, this]

theorem lengths_setBlock (cs : List (List (Block V))) (e : Entry) (b : Block V) :
    (setBlock cs e b).map List.length = cs.map List.length := by
  obtain ⟨c, i⟩ := e
  refine List.ext_getElem? fun j => ?_
  simp only [setBlock, List.getElem?_map, List.getElem?_modify]
  by_cases h : c = j
  · subst h; cases cs[c]? <;> simp
  · cases cs[j]? <;> simp [h]

/-- `l` is the free list starting at `head`. -/
def Chain (cs : List (List (Block V))) : Option Entry → List Entry → Prop
  | h, [] => h = none
  | h, e :: l => h = some e ∧ ∃ n, blockAt cs e = some (.vacant n) ∧ Chain cs n l

theorem Chain.set {cs : List (List (Block V))} {h : Option Entry} {l : List Entry} (hc : Chain cs h l)
    {e : Entry} {b : Block V} (he : (blockAt cs e).isSome) (hn : e ∉ l) : Chain (setBlock cs e b) h l := by
  induction l generalizing h with
  | nil => exact hc
  | cons x l ih =>
    obtain ⟨h1, n, h2, h3⟩ := hc
    simp only [List.mem_cons, not_or] at hn
    refine ⟨h1, n, ?_, ih h3 hn.2⟩
    rw [blockAt_setBlock _ _ _ _ he, if_neg (fun h => hn.1 h.symm)]
    exact h2

/-- The invariant: `l` is the free list. -/
structure Inv (a : Arena V) (l : List Entry) : Prop where
  chain : Chain a.chunks a.head l
  nodup : l.Nodup
  vacant : ∀ e n, blockAt a.chunks e = some (.vacant n) → e ∈ l
  count : a.size + l.length = total a.chunks
  cap : a.capacity = a.chunkSize * a.chunks.length
  full : ∀ (i : Nat) c, a.chunks[i]? = some c → i + 1 < a.chunks.length → a.chunkSize ≤ c.length
  bound : 0 < a.chunkSize → ∀ c ∈ a.chunks, c.length ≤ a.chunkSize

theorem inv_new (n : Nat) : Inv (Arena.new n : Arena V) [] := by
  refine ⟨rfl, List.nodup_nil, ?_, rfl, rfl, ?_, ?_⟩
  · intro e n h; simp [Arena.new, blockAt] at h
  · intro i c h; simp [Arena.new] at h
  · intro _ c h; simp [Arena.new] at h

/-- Total is at most chunk size times number of chunks, and only equal if all chunks are full. -/
theorem total_le {n : Nat} (cs : List (List (Block V))) (h : ∀ c ∈ cs, c.length ≤ n) :
    total cs ≤ n * cs.length ∧ (n * cs.length ≤ total cs → ∀ c ∈ cs, c.length = n) := by
  induction cs with
  | nil => simp [total]
  | cons c cs ih =>
    obtain ⟨h1, h2⟩ := ih (fun x hx => h x (by simp [hx]))
    have hc := h c (by simp)
    simp only [total, List.map_cons, List.sum_cons, List.length_cons, Nat.mul_succ] at h1 h2 ⊢
    refine ⟨by omega, fun hle x hx => ?_⟩
    rcases List.mem_cons.1 hx with rfl | hx
    · omega
    · exact h2 (by omega) x hx

theorem total_append (cs ds : List (List (Block V))) : total (cs ++ ds) = total cs + total ds := by
  simp [total]

theorem blockAt_append_nil (cs : List (List (Block V))) (e : Entry) :
    blockAt (cs ++ [[]]) e = blockAt cs e := by
  simp only [blockAt]
  rcases Nat.lt_trichotomy e.chunk cs.length with h | h | h
  · rw [List.getElem?_append_left h]
  · rw [h]; simp
  · rw [List.getElem?_eq_none (by simp; omega), List.getElem?_eq_none (by omega)]

theorem Chain.grow {cs : List (List (Block V))} {h : Option Entry} {l : List Entry} (hc : Chain cs h l) :
    Chain (cs ++ [[]]) h l := by
  induction l generalizing h with
  | nil => exact hc
  | cons x l ih =>
    obtain ⟨h1, n, h2, h3⟩ := hc
    exact ⟨h1, n, by rw [blockAt_append_nil]; exact h2, ih h3⟩

/-- When the arena grows, every block of every chunk is in use. -/
theorem grow_full {a : Arena V} {l : List Entry} (h : Inv a l) (hp : 0 < a.chunkSize)
    (hs : a.size = a.capacity) : l = [] ∧ ∀ c ∈ a.chunks, c.length = a.chunkSize := by
  obtain ⟨h1, h2⟩ := total_le a.chunks (h.bound hp)
  have h3 := h.count
  have h4 := h.cap
  refine ⟨List.eq_nil_of_length_eq_zero (by omega), h2 (by omega)⟩

theorem inv_grow {a : Arena V} {l : List Entry} (h : Inv a l) :
    Inv a.grow l ∧ (∀ e, blockAt a.grow.chunks e = blockAt a.chunks e) ∧
      (a.grow.head = none → ∃ last, a.grow.chunks.getLast? = some last ∧
        (0 < a.chunkSize → last.length < a.chunkSize)) := by
  unfold Arena.grow
  split
  · rename_i hs
    refine ⟨⟨h.chain.grow, h.nodup, ?_, ?_, ?_, ?_, ?_⟩, fun e => blockAt_append_nil _ e, ?_⟩
    · intro e n he
      rw [blockAt_append_nil] at he
      exact h.vacant e n he
    · simpa [total_append, total] using h.count
    · simp [h.cap, Nat.mul_add]
    · intro i c hc hi
      simp only [List.length_append, List.length_cons, List.length_nil] at hi
      rw [List.getElem?_append_left (by omega)] at hc
      rcases Nat.eq_zero_or_pos a.chunkSize with h0 | hp
      · simp [h0]
      · exact Nat.le_of_eq ((grow_full h hp hs).2 c (List.mem_of_getElem? hc)).symm
    · intro hp c hc
      rcases List.mem_append.1 hc with hc | hc
      · exact h.bound hp c hc
      · simp at hc; subst hc; simp
    · intro _
      exact ⟨[], by simp, fun hp => by simpa using hp⟩
  · rename_i hs
    refine ⟨h, fun e => rfl, fun hh => ?_⟩
    have hl : l = [] := by
      cases l with
      | nil => rfl
      | cons x l => have := h.chain.1; rw [hh] at this; cases this
    subst hl
    have hc := h.count
    have hcap := h.cap
    cases hlast : a.chunks.getLast? with
    | none =>
      rw [List.getLast?_eq_none_iff] at hlast
      rw [hlast] at hc hcap
      simp [total] at hc hcap
      omega
    | some last =>
      refine ⟨last, rfl, fun hp => ?_⟩
      have hle := h.bound hp last (List.mem_of_getLast? hlast)
      by_contra hnl
      apply hs
      have hall : ∀ c ∈ a.chunks, c.length = a.chunkSize := by
        intro c hcm
        refine Nat.le_antisymm (h.bound hp c hcm) ?_
        obtain ⟨i, hi⟩ := List.getElem?_of_mem hcm
        by_cases hi' : i + 1 < a.chunks.length
        · exact h.full i c hi hi'
        · have hlt := (List.getElem?_eq_some_iff.1 hi).1
          have hil : i = a.chunks.length - 1 := by omega
          rw [List.getLast?_eq_getElem?, ← hil, hi] at hlast
          cases hlast
          omega
      have htot : total a.chunks = a.chunkSize * a.chunks.length := by
        have hgen : ∀ cs : List (List (Block V)), (∀ c ∈ cs, c.length = a.chunkSize) →
            total cs = a.chunkSize * cs.length := by
          intro cs
          induction cs with
          | nil => intro _; rfl
          | cons c cs ih =>
            intro hcs
            have := ih (fun x hx => hcs x (by simp [hx]))
            have hc := hcs c (by simp)
            simp only [total, List.map_cons, List.sum_cons, List.length_cons, Nat.mul_succ] at this ⊢
            omega
        exact hgen _ hall
      simp only [List.length_nil] at hc
      omega

theorem blockAt_push {cs : List (List (Block V))} {last : List (Block V)} (hl : cs.getLast? = some last)
    (b : Block V) (e : Entry) :
    blockAt (cs.dropLast ++ [last ++ [b]]) e =
      if e = ⟨cs.length - 1, last.length⟩ then some b else blockAt cs e := by
  obtain ⟨ys, hys⟩ := List.getLast?_eq_some_iff.1 hl
  subst hys
  obtain ⟨c, i⟩ := e
  simp only [blockAt, List.dropLast_concat, List.length_append, List.length_cons, List.length_nil,
    Nat.zero_add, Nat.add_sub_cancel, Entry.mk.injEq]
  rcases Nat.lt_trichotomy c ys.length with h | h | h
  · rw [List.getElem?_append_left h, List.getElem?_append_left h, if_neg (by omega)]
  · subst h
    simp only [List.getElem?_concat_length, Option.bind_some, true_and]
    rcases Nat.lt_trichotomy i last.length with h | h | h
    · rw [List.getElem?_append_left h, if_neg (by omega)]
    · subst h; simp
    · rw [List.getElem?_eq_none (by simp; omega), if_neg (by omega), List.getElem?_eq_none (by omega)]
  · rw [List.getElem?_eq_none (by simp; omega), List.getElem?_eq_none (by simp; omega), if_neg (by omega)]

theorem chain_congr {cs ds : List (List (Block V))} {h : Option Entry} {l : List Entry}
    (hc : Chain cs h l) (he : ∀ e ∈ l, blockAt ds e = blockAt cs e) : Chain ds h l := by
  induction l generalizing h with
  | nil => exact hc
  | cons x l ih =>
    obtain ⟨h1, n, h2, h3⟩ := hc
    exact ⟨h1, n, by rw [he x (by simp)]; exact h2, ih h3 (fun e h => he e (by simp [h]))⟩

theorem chain_isSome {cs : List (List (Block V))} {h : Option Entry} {l : List Entry}
    (hc : Chain cs h l) : ∀ e ∈ l, ∃ n, blockAt cs e = some (.vacant n) := by
  induction l generalizing h with
  | nil => simp
  | cons x l ih =>
    obtain ⟨h1, n, h2, h3⟩ := hc
    intro e he
    rcases List.mem_cons.1 he with rfl | he
    · exact ⟨n, h2⟩
    · exact ih h3 e he

/-- What `allocate` does, in terms of blocks. -/
theorem allocate_spec {a : Arena V} {l : List Entry} (h : Inv a l) (v : V) :
    ∃ a' e l', a.allocate v = some (a', e) ∧ Inv a' l' ∧ a'.chunkSize = a.chunkSize ∧
      (∀ w, blockAt a.chunks e ≠ some (.occupied w)) ∧
      (∀ e', e' ≠ e → blockAt a'.chunks e' = blockAt a.chunks e') ∧
      blockAt a'.chunks e = some (.occupied v) := by
  obtain ⟨hg, hb, hlast⟩ := inv_grow h
  have hcs : a.grow.chunkSize = a.chunkSize := by unfold Arena.grow; split <;> rfl
  unfold Arena.allocate
  generalize hG : a.grow = g at *
  unfold Arena.place
  cases hh : g.head with
  | none =>
    obtain ⟨last, hl1, hl2⟩ := hlast hh
    have hl : l = [] := by
      cases l with
      | nil => rfl
      | cons x l => have := hg.chain.1; rw [hh] at this; cases this
    subst hl
    have hbp := blockAt_push hl1 (.occupied v)
    have hnone : blockAt g.chunks ⟨g.chunks.length - 1, last.length⟩ = none := by
      simp only [blockAt]
      rw [← List.getLast?_eq_getElem?, hl1]; simp
    have hne : g.chunks ≠ [] := by intro h0; rw [h0] at hl1; simp at hl1
    have hlen : 0 < g.chunks.length := List.length_pos_iff.2 hne
    obtain ⟨ys, hys⟩ := List.getLast?_eq_some_iff.1 hl1
    simp only [hl1]
    refine ⟨_, _, [], rfl, ⟨?_, List.nodup_nil, ?_, ?_, ?_, ?_, ?_⟩, hcs, ?_, ?_, ?_⟩
    · exact rfl
    · intro e n he
      simp only [hbp] at he
      split at he
      · cases he
      · exact hg.vacant e n he
    · have := hg.count
      simp only [hys, List.dropLast_concat, total_append] at this ⊢
      simp [total] at this ⊢
      omega
    · have := hg.cap
      simp only [hys, List.dropLast_concat] at this ⊢
      simpa using this
    · intro i c hc hi
      have hf := hg.full i c
      simp only [hys, List.dropLast_concat, List.length_append, List.length_cons, List.length_nil] at hc hi hf ⊢
      rw [List.getElem?_append_left (by omega)] at hc hf
      exact hf hc (by omega)
    · intro hp c hc
      rcases List.mem_append.1 hc with hc | hc
      · exact hg.bound hp c (List.dropLast_subset _ hc)
      · simp at hc; subst hc
        have := hl2 (hcs ▸ hp)
        simp only [hcs, List.length_append, List.length_cons, List.length_nil]; omega
    · intro w hw; rw [← hb, hnone] at hw; cases hw
    · intro e' he'; simp only [hbp, if_neg he', hb]
    · simp only [hbp, if_true]
  | some e =>
    cases l with
    | nil => have := hg.chain; rw [hh] at this; cases this
    | cons x l =>
      obtain ⟨h1, n, h2, h3⟩ := hg.chain
      rw [hh] at h1
      cases h1
      have hnd := List.nodup_cons.1 hg.nodup
      have hsome : (blockAt g.chunks e).isSome := by rw [h2]; rfl
      have hbs := fun e' => blockAt_setBlock g.chunks e e' (.occupied v) hsome
      have hL := lengths_setBlock g.chunks e (.occupied v)
      simp only [h2]
      refine ⟨_, _, l, rfl, ⟨h3.set hsome hnd.1, hnd.2, ?_, ?_, ?_, ?_, ?_⟩, hcs, ?_, ?_, ?_⟩
      · intro e' n' he'
        simp only [hbs] at he'
        split at he'
        · cases he'
        · rename_i hne
          exact (List.mem_cons.1 (hg.vacant e' n' he')).resolve_left hne
      · have := hg.count
        simp only [total, hL] at this ⊢
        simp at this; omega
      · have := congrArg List.length hL
        simp at this
        simp only [this]; exact hg.cap
      · intro i c hc hi
        have hlen := congrArg List.length hL
        simp only [List.length_map] at hlen
        have e1 := congrArg (fun m => m[i]?) hL
        simp only [List.getElem?_map, hc, Option.map_some] at e1
        cases hgc : g.chunks[i]? with
        | none => rw [hgc] at e1; simp at e1
        | some d =>
          rw [hgc] at e1
          simp only [Option.map_some, Option.some.injEq] at e1
          simp only at hi ⊢
          rw [e1]
          exact hg.full i d hgc (by omega)
      · intro hp c hc
        have hm : c.length ∈ (setBlock g.chunks e (.occupied v)).map List.length :=
          List.mem_map_of_mem hc
        rw [hL] at hm
        obtain ⟨d, hd, hd'⟩ := List.mem_map.1 hm
        rw [← hd']; exact hg.bound hp d hd
      · intro w hw; rw [← hb, h2] at hw; cases hw
      · intro e' he'; simp only [hbs, if_neg he', hb]
      · simp only [hbs, if_true]

theorem inv_setBlock_occ {a : Arena V} {l : List Entry} (h : Inv a l) {e : Entry} {v : V}
    (he : blockAt a.chunks e = some (.occupied v)) (w : V) :
    Inv { a with chunks := setBlock a.chunks e (.occupied w) } l := by
  have hsome : (blockAt a.chunks e).isSome := by rw [he]; rfl
  have hbs := fun e' => blockAt_setBlock a.chunks e e' (.occupied w) hsome
  have hL := lengths_setBlock a.chunks e (.occupied w)
  have hnl : e ∉ l := by
    intro hm
    obtain ⟨n, hn⟩ := chain_isSome h.chain e hm
    rw [he] at hn; cases hn
  refine ⟨h.chain.set hsome hnl, h.nodup, ?_, ?_, ?_, ?_, ?_⟩
  · intro e' n' he'
    simp only [hbs] at he'
    split at he'
    · cases he'
    · exact h.vacant e' n' he'
  · have := h.count
    simp only [total, hL] at this ⊢
    omega
  · have := congrArg List.length hL
    simp at this
    simp only [this]; exact h.cap
  · intro i c hc hi
    have hlen := congrArg List.length hL
    simp only [List.length_map] at hlen
    have e1 := congrArg (fun m => m[i]?) hL
    simp only [List.getElem?_map, hc, Option.map_some] at e1
    cases hgc : a.chunks[i]? with
    | none => rw [hgc] at e1; simp at e1
    | some d =>
      rw [hgc] at e1
      simp only [Option.map_some, Option.some.injEq] at e1
      simp only at hi ⊢
      rw [e1]
      exact h.full i d hgc (by omega)
  · intro hp c hc
    have hm : c.length ∈ (setBlock a.chunks e (.occupied w)).map List.length := List.mem_map_of_mem hc
    rw [hL] at hm
    obtain ⟨d, hd, hd'⟩ := List.mem_map.1 hm
    rw [← hd']; exact h.bound hp d hd

/-- An occupied block exists, so fewer blocks are free than there are blocks. -/
theorem free_lt {cs : List (List (Block V))} {h : Option Entry} {l : List Entry} (hc : Chain cs h l)
    (hn : l.Nodup) {e : Entry} {v : V} (he : blockAt cs e = some (.occupied v)) :
    l.length < total cs := by
  -- all blocks as entries
  let all : List Entry := (List.range cs.length).flatMap fun i =>
    (List.range ((cs[i]?.map List.length).getD 0)).map fun j => ⟨i, j⟩
  have hmem : ∀ x b, blockAt cs x = some b → x ∈ all := by
    intro x b hx
    obtain ⟨c, i⟩ := x
    simp only [blockAt] at hx
    cases hcs : cs[c]? with
    | none => rw [hcs] at hx; simp at hx
    | some d =>
      rw [hcs] at hx
      simp only [Option.bind_some] at hx
      have h1 := (List.getElem?_eq_some_iff.1 hcs).1
      have h2 := (List.getElem?_eq_some_iff.1 hx).1
      simp only [all, List.mem_flatMap, List.mem_range, List.mem_map]
      exact ⟨c, h1, i, by rw [hcs]; simpa using h2, rfl⟩
  have hlen : all.length = total cs := by
    simp only [all, List.length_flatMap, List.length_map, List.length_range, total]
    congr 1
    refine List.ext_getElem? fun i => ?_
    simp only [List.getElem?_map]
    rcases Nat.lt_or_ge i cs.length with h | h
    · rw [List.getElem?_range h]; simp [List.getElem?_eq_getElem h]
    · rw [List.getElem?_eq_none (by simpa using h), List.getElem?_eq_none h]; rfl
  have hnl : e ∉ l := by
    intro hm
    obtain ⟨n, hn⟩ := chain_isSome hc e hm
    rw [he] at hn; cases hn
  have hsub : (e :: l) ⊆ all := by
    intro x hx
    rcases List.mem_cons.1 hx with rfl | hx
    · exact hmem _ _ he
    · obtain ⟨n, hn⟩ := chain_isSome hc x hx
      exact hmem _ _ hn
  have := (List.subperm_of_subset (List.nodup_cons.2 ⟨hnl, hn⟩) hsub).length_le
  rw [hlen] at this
  simp only [List.length_cons] at this
  omega

theorem free_spec {a : Arena V} {l : List Entry} (h : Inv a l) (e : Entry) (v : V)
    (he : blockAt a.chunks e = some (.occupied v)) :
    ∃ a', a.free e = some (a', v) ∧ Inv a' (e :: l) ∧ a'.chunkSize = a.chunkSize ∧
      (∀ e', e' ≠ e → blockAt a'.chunks e' = blockAt a.chunks e') ∧
      blockAt a'.chunks e = some (.vacant a.head) := by
  have hsome : (blockAt a.chunks e).isSome := by rw [he]; rfl
  have hbs := fun e' => blockAt_setBlock a.chunks e e' (.vacant a.head) hsome
  have hL := lengths_setBlock a.chunks e (.vacant a.head)
  have hnl : e ∉ l := by
    intro hm
    obtain ⟨n, hn⟩ := chain_isSome h.chain e hm
    rw [he] at hn; cases hn
  have hlt := free_lt h.chain h.nodup he
  have hcount := h.count
  obtain ⟨n, hn⟩ : ∃ n, a.size = n + 1 := ⟨a.size - 1, by omega⟩
  unfold Arena.free
  simp only [he, hn]
  refine ⟨_, rfl, ⟨⟨rfl, a.head, ?_, h.chain.set hsome hnl⟩, List.nodup_cons.2 ⟨hnl, h.nodup⟩, ?_, ?_, ?_,
    ?_, ?_⟩, rfl, ?_, ?_⟩
  · simp only [hbs, if_true]
  · intro e' n' he'
    simp only [hbs] at he'
    split at he'
    · rename_i h; simp [h]
    · simp [h.vacant e' n' he']
  · simp only [total, hL] at hcount ⊢
    simp only [List.length_cons]; omega
  · have := congrArg List.length hL
    simp at this
    simp only [this]; exact h.cap
  · intro i c hc hi
    have hlen := congrArg List.length hL
    simp only [List.length_map] at hlen
    have e1 := congrArg (fun m => m[i]?) hL
    simp only [List.getElem?_map, hc, Option.map_some] at e1
    cases hgc : a.chunks[i]? with
    | none => rw [hgc] at e1; simp at e1
    | some d =>
      rw [hgc] at e1
      simp only [Option.map_some, Option.some.injEq] at e1
      simp only at hi ⊢
      rw [e1]
      exact h.full i d hgc (by omega)
  · intro hp c hc
    have hm : c.length ∈ (setBlock a.chunks e (.vacant a.head)).map List.length :=
      List.mem_map_of_mem hc
    rw [hL] at hm
    obtain ⟨d, hd, hd'⟩ := List.mem_map.1 hm
    rw [← hd']; exact h.bound hp d hd
  · intro e' he'; simp only [hbs, if_neg he']
  · simp only [hbs, if_true]

/-- One call: the outcome is the one the heap `a.get` allows. -/
theorem step_spec {a : Arena V} {l : List Entry} (h : Inv a l) (op : HeapOp Entry V) :
    (step a op = none → op.Spec a.get none) ∧
      ∀ a' r, step a op = some (a', r) → op.Spec a.get (some (r, a'.get)) ∧
        (∃ l', Inv a' l') ∧ a'.chunkSize = a.chunkSize := by
  cases op with
  | allocate v =>
    obtain ⟨a₁, e, l', h1, h2, hc, h3, h4, h5⟩ := allocate_spec h v
    refine ⟨by simp [step, h1], ?_⟩
    intro a' r hs
    simp only [step, h1, Option.map_some, Option.some.injEq, Prod.mk.injEq] at hs
    obtain ⟨rfl, rfl⟩ := hs
    refine ⟨⟨e, ?_, ?_⟩, ⟨l', h2⟩, hc⟩
    · simp only [Arena.get]
    · have : a₁.get = Heap.set a.get e (some v) := by
        funext x
        by_cases hx : x = e
        · subst hx; simp [Heap.set, Arena.get, h5]
        · simp [Heap.set, Arena.get, h4 x hx, hx]
      rw [this]
  | free e =>
    cases hb : blockAt a.chunks e with
    | none =>
      simp [step, Arena.free, hb, HeapOp.Spec, Arena.get]
    | some b =>
      cases b with
      | vacant n => simp [step, Arena.free, hb, HeapOp.Spec, Arena.get]
      | occupied v =>
        obtain ⟨a₁, h1, h2, hc, h4, h5⟩ := free_spec h e v hb
        refine ⟨by simp [step, h1], ?_⟩
        intro a' r hs
        simp only [step, h1, Option.map_some, Option.some.injEq, Prod.mk.injEq] at hs
        obtain ⟨rfl, rfl⟩ := hs
        refine ⟨?_, ⟨_, h2⟩, hc⟩
        have : a₁.get = Heap.set a.get e none := by
          funext x
          by_cases hx : x = e
          · subst hx; simp [Heap.set, Arena.get, h5]
          · simp [Heap.set, Arena.get, h4 x hx, hx]
        have hg : a.get e = some v := by simp [Arena.get, hb]
        simp [HeapOp.Spec, hg, this]
  | get e =>
    refine ⟨by simp [step], ?_⟩
    intro a' r hs
    simp only [step, Option.some.injEq, Prod.mk.injEq] at hs
    obtain ⟨rfl, rfl⟩ := hs
    exact ⟨rfl, ⟨l, h⟩, rfl⟩
  | getMut e f =>
    refine ⟨by simp [step], ?_⟩
    intro a' r hs
    simp only [step, Option.some.injEq, Prod.mk.injEq] at hs
    obtain ⟨rfl, rfl⟩ := hs
    cases hb : blockAt a.chunks e with
    | none =>
      have hg : a.get e = none := by simp [Arena.get, hb]
      have : Heap.set a.get e none = a.get := by
        funext x; simp only [Heap.set]; split
        · rename_i hx; rw [hx, hg]
        · rfl
      have hm : a.getMut e f = (a, none) := by simp [Arena.getMut, hb]
      rw [hm]
      exact ⟨by simp [HeapOp.Spec, hg, this], ⟨l, h⟩, rfl⟩
    | some b =>
      cases b with
      | vacant n =>
        have hg : a.get e = none := by simp [Arena.get, hb]
        have : Heap.set a.get e none = a.get := by
          funext x; simp only [Heap.set]; split
          · rename_i hx; rw [hx, hg]
          · rfl
        have hm : a.getMut e f = (a, none) := by simp [Arena.getMut, hb]
        rw [hm]
        exact ⟨by simp [HeapOp.Spec, hg, this], ⟨l, h⟩, rfl⟩
      | occupied v =>
        have hg : a.get e = some v := by simp [Arena.get, hb]
        have hm : a.getMut e f =
            ({ a with chunks := setBlock a.chunks e (.occupied (f v)) }, some v) := by
          simp [Arena.getMut, hb]
        rw [hm]
        refine ⟨?_, ⟨l, inv_setBlock_occ h hb (f v)⟩, rfl⟩
        have : Arena.get { a with chunks := setBlock a.chunks e (.occupied (f v)) } =
            Heap.set a.get e (some (f v)) := by
          funext x
          by_cases hx : x = e
          · subst hx
            simp [Heap.set, Arena.get, blockAt_setBlock a.chunks x x (.occupied (f v)) (by rw [hb]; rfl)]
          · simp [Heap.set, Arena.get, hx,
              blockAt_setBlock a.chunks e x (.occupied (f v)) (by rw [hb]; rfl)]
        simp only [HeapOp.Spec, hg, Option.map_some, this]
  | index e =>
    cases hg : a.get e with
    | none => simp [step, hg, HeapOp.Spec]
    | some v =>
      refine ⟨by simp [step, hg], ?_⟩
      intro a' r hs
      simp only [step, hg, Option.map_some, Option.some.injEq, Prod.mk.injEq] at hs
      obtain ⟨rfl, rfl⟩ := hs
      exact ⟨by simp [HeapOp.Spec, hg], ⟨l, h⟩, rfl⟩

theorem reach_inv {n : Nat} {a : Arena V} (h : Reach n a) : (∃ l, Inv a l) ∧ a.chunkSize = n := by
  induction h with
  | new => exact ⟨⟨[], inv_new n⟩, rfl⟩
  | step _ hs ih =>
    obtain ⟨⟨l, hl⟩, hc⟩ := ih
    obtain ⟨_, h2, h3⟩ := (step_spec hl _).2 _ _ hs
    exact ⟨h2, h3.trans hc⟩

end Verif.Arena
