/- Properties C64 and C65: `TypedArena` when panics are caught (`catch_unwind`) and the arena is used further. -/
import Verif.Arena.Props

namespace Verif.Arena

open Verif.Spec

variable {V : Type}

/-! ### The model -/

/-- What a panicking call leaves behind.  arena.rs:137-156 `free`: on a handle out of range nothing has been changed;
on a vacant block the block has already been replaced and `self.head` taken when line 147 panics; with `size` 0 (which
does not happen) the subtraction of line 149 panics in the same state.  `index` (arena.rs:203-209) panics without
changes; `allocate` does not panic in the states that occur (`C64_calls`), there the argument is returned. -/
def afterPanic (a : Arena V) : HeapOp Entry V → Arena V
  | .free e =>
    match blockAt a.chunks e with
    | none => a
    | some _ => { a with head := none, chunks := setBlock a.chunks e (.vacant a.head) }
  | _ => a

/-- A call with its panic caught. -/
def stepCaught (a : Arena V) (op : HeapOp Entry V) : Arena V × Option (HeapRes Entry V) :=
  match step a op with
  | none => (afterPanic a op, none)
  | some (a', r) => (a', some r)

/-- Outcomes of a sequence of calls, each panic caught, and the final arena. -/
def runCaught : Arena V → List (HeapOp Entry V) → Arena V × List (Option (HeapRes Entry V))
  | a, [] => (a, [])
  | a, op :: ops => ((runCaught (stepCaught a op).1 ops).1, (stepCaught a op).2 :: (runCaught (stepCaught a op).1 ops).2)

/-- The arenas reached from a new one by calls whose panics are caught. -/
def ReachCaught (chunkSize : Nat) (a : Arena V) : Prop := ∃ ops, a = (runCaught (Arena.new chunkSize) ops).1

/-! ### Specification -/

/-- Calls with their outcomes, as a heap can show them; a panic (`none`) changes nothing. -/
inductive CaughtHistory {H V : Type} [DecidableEq H] :
    Heap H V → List (HeapOp H V) → List (Option (HeapRes H V)) → Heap H V → Prop where
  | nil (m) : CaughtHistory m [] [] m
  | cons {m m₁ m₂ op r ops rs} : op.Spec m (some (r, m₁)) → CaughtHistory m₁ ops rs m₂ →
      CaughtHistory m (op :: ops) (some r :: rs) m₂
  | panic {m m₂ op ops rs} : op.Spec m none → CaughtHistory m ops rs m₂ →
      CaughtHistory m (op :: ops) (none :: rs) m₂

/-! ### Proofs -/

/-- The invariant: `l` is the free list, `lost` the vacant blocks that are in no list. -/
structure Weak (a : Arena V) (l lost : List Entry) : Prop where
  chain : Chain a.chunks a.head l
  nodup : (l ++ lost).Nodup
  vacant : ∀ e, e ∈ l ++ lost ↔ ∃ n, blockAt a.chunks e = some (.vacant n)
  count : a.size + (l ++ lost).length = total a.chunks
  cap : a.capacity = a.chunkSize * a.chunks.length

theorem weak_new (n : Nat) : Weak (Arena.new n : Arena V) [] [] := by
  refine ⟨rfl, List.nodup_nil, ?_, rfl, rfl⟩
  intro e
  simp [Arena.new, blockAt]

theorem vacants_lt {cs : List (List (Block V))} {l : List Entry} (hn : l.Nodup)
    (hl : ∀ x ∈ l, ∃ n, blockAt cs x = some (.vacant n)) {e : Entry} {v : V} (he : blockAt cs e = some (.occupied v)) :
    l.length < total cs := by
  let all : List Entry := (List.range cs.length).flatMap fun i =>
    (List.range ((cs[i]?.map List.length).getD 0)).map fun j => ⟨i, j⟩
  have hmem : ∀ x b, blockAt cs x = some b → x ∈ all := by
    intro x b hx
    obtain ⟨c, i⟩ := x
    simp only [blockAt] at hx
    cases hcs : cs[c]? with
    | none => rw [hcs] at hx; simp at hx
    | some d =>
      rw [hcs] at hx
      simp only [Option.bind_some] at hx
      have h1 := (List.getElem?_eq_some_iff.1 hcs).1
      have h2 := (List.getElem?_eq_some_iff.1 hx).1
      simp only [all, List.mem_flatMap, List.mem_range, List.mem_map]
      exact ⟨c, h1, i, by rw [hcs]; simpa using h2, rfl⟩
  have hlen : all.length = total cs := by
    simp only [all, List.length_flatMap, List.length_map, List.length_range, total]
    congr 1
    refine List.ext_getElem? fun i => ?_
    simp only [List.getElem?_map]
    rcases Nat.lt_or_ge i cs.length with h | h
    · rw [List.getElem?_range h]; simp [List.getElem?_eq_getElem h]
    · rw [List.getElem?_eq_none (by simpa using h), List.getElem?_eq_none h]; rfl
  have hnl : e ∉ l := by
    intro hm
    obtain ⟨n, hn⟩ := hl e hm
    rw [he] at hn; cases hn
  have hsub : (e :: l) ⊆ all := by
    intro x hx
    rcases List.mem_cons.1 hx with rfl | hx
    · exact hmem _ _ he
    · obtain ⟨n, hn⟩ := hl x hx
      exact hmem _ _ hn
  have := (List.subperm_of_subset (List.nodup_cons.2 ⟨hnl, hn⟩) hsub).length_le
  rw [hlen] at this
  simp only [List.length_cons] at this
  omega

theorem weak_grow {a : Arena V} {l lost : List Entry} (h : Weak a l lost) :
    Weak a.grow l lost ∧ (∀ e, blockAt a.grow.chunks e = blockAt a.chunks e) ∧ a.grow.chunks ≠ [] := by
  unfold Arena.grow
  split
  · refine ⟨⟨h.chain.grow, h.nodup, ?_, ?_, ?_⟩, fun e => blockAt_append_nil _ e, by simp⟩
    · intro e
      rw [h.vacant]
      simp only [blockAt_append_nil]
    · simpa [total_append, total] using h.count
    · simp [h.cap, Nat.mul_add]
  · rename_i hs
    refine ⟨h, fun e => rfl, fun hc => ?_⟩
    have h1 := h.count
    have h2 := h.cap
    rw [hc] at h1 h2
    simp [total] at h1 h2
    omega

theorem total_set (cs : List (List (Block V))) (e : Entry) (b : Block V) :
    total (setBlock cs e b) = total cs ∧ (setBlock cs e b).length = cs.length := by
  have h := lengths_setBlock cs e b
  have h' := congrArg List.length h
  simp at h'
  exact ⟨by simp only [total, h], h'⟩

theorem weak_allocate {a : Arena V} {l lost : List Entry} (h : Weak a l lost) (v : V) :
    ∃ a' e l', a.allocate v = some (a', e) ∧ Weak a' l' lost ∧ e ∉ lost ∧
      (∀ w, blockAt a.chunks e ≠ some (.occupied w)) ∧
      (∀ e', e' ≠ e → blockAt a'.chunks e' = blockAt a.chunks e') ∧
      blockAt a'.chunks e = some (.occupied v) := by
  obtain ⟨hg, hb, hne⟩ := weak_grow h
  unfold Arena.allocate
  generalize a.grow = g at *
  unfold Arena.place
  cases hh : g.head with
  | none =>
    obtain ⟨last, hl1⟩ : ∃ last, g.chunks.getLast? = some last := by
      cases hx : g.chunks.getLast? with
      | none => exact absurd (List.getLast?_eq_none_iff.1 hx) hne
      | some x => exact ⟨x, rfl⟩
    have hl : l = [] := by
      cases l with
      | nil => rfl
      | cons x l => have := hg.chain.1; rw [hh] at this; cases this
    subst hl
    have hbp := blockAt_push hl1 (.occupied v)
    have hnone : blockAt g.chunks ⟨g.chunks.length - 1, last.length⟩ = none := by
      simp only [blockAt]
      rw [← List.getLast?_eq_getElem?, hl1]; simp
    obtain ⟨ys, hys⟩ := List.getLast?_eq_some_iff.1 hl1
    simp only [hl1]
    refine ⟨_, _, [], rfl, ⟨rfl, hg.nodup, ?_, ?_, ?_⟩, ?_, ?_, ?_, ?_⟩
    · intro e
      rw [hg.vacant]
      simp only [hbp]
      constructor
      · rintro ⟨n, hn⟩
        refine ⟨n, ?_⟩
        rw [if_neg (by rintro rfl; rw [hnone] at hn; cases hn)]
        exact hn
      · rintro ⟨n, hn⟩
        split at hn
        · cases hn
        · exact ⟨n, hn⟩
    · have := hg.count
      simp only [hys, List.dropLast_concat, total_append] at this ⊢
      simp [total] at this ⊢
      omega
    · have := hg.cap
      simp only [hys, List.dropLast_concat] at this ⊢
      simpa using this
    · intro hm
      obtain ⟨n, hn⟩ := (hg.vacant _).1 (List.mem_append_right _ hm)
      rw [hnone] at hn; cases hn
    · intro w hw; rw [← hb, hnone] at hw; cases hw
    · intro e' he'; simp only [hbp, if_neg he', hb]
    · simp only [hbp, if_true]
  | some e =>
    cases l with
    | nil => have := hg.chain; rw [hh] at this; cases this
    | cons x l =>
      obtain ⟨h1, n, h2, h3⟩ := hg.chain
      rw [hh] at h1
      cases h1
      have hnd : e ∉ l ++ lost ∧ (l ++ lost).Nodup := List.nodup_cons.1 hg.nodup
      have hnl := hnd.1
      rw [List.mem_append, not_or] at hnl
      have hsome : (blockAt g.chunks e).isSome := by rw [h2]; rfl
      have hbs := fun e' => blockAt_setBlock g.chunks e e' (.occupied v) hsome
      obtain ⟨hT, hL⟩ := total_set g.chunks e (.occupied v)
      simp only [h2]
      refine ⟨_, _, l, rfl, ⟨h3.set hsome hnl.1, hnd.2, ?_, ?_, ?_⟩, hnl.2, ?_, ?_, ?_⟩
      · intro e'
        have := hg.vacant e'
        simp only [List.cons_append, List.mem_cons] at this
        simp only [hbs]
        constructor
        · intro hm
          obtain ⟨n, hn⟩ := this.1 (.inr hm)
          exact ⟨n, by rw [if_neg (by rintro rfl; exact hnd.1 hm)]; exact hn⟩
        · rintro ⟨n, hn⟩
          split at hn
          · cases hn
          · rename_i hne; exact (this.2 ⟨n, hn⟩).resolve_left hne
      · have := hg.count
        simp only [hT]
        simp at this ⊢; omega
      · simp only [hL]; exact hg.cap
      · intro w hw; rw [← hb, h2] at hw; cases hw
      · intro e' he'; simp only [hbs, if_neg he', hb]
      · simp only [hbs, if_true]

theorem weak_free {a : Arena V} {l lost : List Entry} (h : Weak a l lost) (e : Entry) (v : V)
    (he : blockAt a.chunks e = some (.occupied v)) :
    ∃ a', a.free e = some (a', v) ∧ Weak a' (e :: l) lost ∧
      (∀ e', e' ≠ e → blockAt a'.chunks e' = blockAt a.chunks e') ∧
      blockAt a'.chunks e = some (.vacant a.head) := by
  have hsome : (blockAt a.chunks e).isSome := by rw [he]; rfl
  have hbs := fun e' => blockAt_setBlock a.chunks e e' (.vacant a.head) hsome
  obtain ⟨hT, hL⟩ := total_set a.chunks e (.vacant a.head)
  have hnl : e ∉ l ++ lost := by
    intro hm
    obtain ⟨n, hn⟩ := (h.vacant e).1 hm
    rw [he] at hn; cases hn
  have hnl' := hnl
  rw [List.mem_append, not_or] at hnl'
  have hlt := vacants_lt h.nodup (fun x hx => (h.vacant x).1 hx) he
  have hcount := h.count
  obtain ⟨n, hn⟩ : ∃ n, a.size = n + 1 := ⟨a.size - 1, by omega⟩
  unfold Arena.free
  simp only [he, hn]
  refine ⟨_, rfl, ⟨⟨rfl, a.head, ?_, h.chain.set hsome hnl'.1⟩, List.nodup_cons.2 ⟨hnl, h.nodup⟩, ?_, ?_, ?_⟩, ?_, ?_⟩
  · simp only [hbs, if_true]
  · intro e'
    simp only [hbs, List.cons_append, List.mem_cons]
    rw [h.vacant]
    split
    · rename_i heq; simp [heq]
    · rename_i heq; simp [heq]
  · simp only [hT]
    simp only [List.cons_append, List.length_cons]; omega
  · simp only [hL]; exact h.cap
  · intro e' he'; simp only [hbs, if_neg he']
  · simp only [hbs, if_true]

theorem weak_occ {a : Arena V} {l lost : List Entry} (h : Weak a l lost) {e : Entry} {v : V}
    (he : blockAt a.chunks e = some (.occupied v)) (w : V) :
    Weak { a with chunks := setBlock a.chunks e (.occupied w) } l lost := by
  have hsome : (blockAt a.chunks e).isSome := by rw [he]; rfl
  have hbs := fun e' => blockAt_setBlock a.chunks e e' (.occupied w) hsome
  obtain ⟨hT, hL⟩ := total_set a.chunks e (.occupied w)
  have hnl : e ∉ l ++ lost := by
    intro hm
    obtain ⟨n, hn⟩ := (h.vacant e).1 hm
    rw [he] at hn; cases hn
  refine ⟨h.chain.set hsome (fun hm => hnl (List.mem_append_left _ hm)), h.nodup, ?_, ?_, ?_⟩
  · intro e'
    simp only [hbs]
    rw [h.vacant]
    split
    · rename_i heq; subst heq; simp [he]
    · rfl
  · simp only [hT]; exact h.count
  · simp only [hL]; exact h.cap

/-- A caught `free` of a vacant block: the free list is lost. -/
theorem weak_panic {a : Arena V} {l lost : List Entry} (h : Weak a l lost) {e : Entry} {n : Option Entry}
    (he : blockAt a.chunks e = some (.vacant n)) :
    Weak { a with head := none, chunks := setBlock a.chunks e (.vacant a.head) } [] (l ++ lost) := by
  have hsome : (blockAt a.chunks e).isSome := by rw [he]; rfl
  have hbs := fun e' => blockAt_setBlock a.chunks e e' (.vacant a.head) hsome
  obtain ⟨hT, hL⟩ := total_set a.chunks e (.vacant a.head)
  refine ⟨rfl, h.nodup, ?_, ?_, ?_⟩
  · intro e'
    simp only [hbs, List.nil_append]
    rw [h.vacant]
    split
    · rename_i heq; subst heq; simp [he]
    · rfl
  · simp only [hT]; exact h.count
  · simp only [hL]; exact h.cap

/-- One call with its panic caught: the heap is that of the specification, lost blocks stay lost and are not handed
out. -/
theorem weak_step {a : Arena V} {l lost : List Entry} (h : Weak a l lost) (op : HeapOp Entry V) :
    (step a op = none → op.Spec a.get none ∧ (afterPanic a op).get = a.get) ∧
    (∀ a' r, step a op = some (a', r) → op.Spec a.get (some (r, a'.get))) ∧
    (∀ e ∈ lost, (stepCaught a op).2 ≠ some (.handle e)) ∧
    ∃ l' lost', Weak (stepCaught a op).1 l' lost' ∧ lost ⊆ lost' ∧
      (∀ e n, op = .free e → blockAt a.chunks e = some (.vacant n) → l ⊆ lost') := by
  cases op with
  | allocate v =>
    obtain ⟨a₁, e, l', h1, h2, hc, h3, h4, h5⟩ := weak_allocate h v
    have hs : step a (.allocate v) = some (a₁, .handle e) := by simp [step, h1]
    refine ⟨by rw [hs]; simp, ?_, ?_, l', lost, ?_, List.Subset.refl _, by simp⟩
    · intro a' r hs'
      rw [hs] at hs'
      cases hs'
      refine ⟨e, ?_, ?_⟩
      · unfold Arena.get
        split
        · rename_i w hw; exact absurd hw (h3 w)
        · rfl
      · have : a₁.get = Heap.set a.get e (some v) := by
          funext x
          by_cases hx : x = e
          · subst hx; simp [Heap.set, Arena.get, h5]
          · simp [Heap.set, Arena.get, h4 x hx, hx]
        rw [this]
    · intro x hx
      simp only [stepCaught, hs]
      intro heq
      cases heq
      exact hc hx
    · simp only [stepCaught, hs]; exact h2
  | free e =>
    cases hb : blockAt a.chunks e with
    | none =>
      have hs : step a (.free e) = none := by simp [step, Arena.free, hb]
      have hp : afterPanic a (.free e) = a := by simp [afterPanic, hb]
      refine ⟨fun _ => ⟨by simp [HeapOp.Spec, Arena.get, hb], by rw [hp]⟩, by rw [hs]; simp, by simp [stepCaught, hs],
        l, lost, ?_, List.Subset.refl _, ?_⟩
      · simp only [stepCaught, hs, hp]; exact h
      · intro e' n h1 h2; cases h1; rw [hb] at h2; cases h2
    | some b =>
      cases b with
      | vacant n =>
        have hs : step a (.free e) = none := by simp [step, Arena.free, hb]
        have hp : afterPanic a (.free e) =
            { a with head := none, chunks := setBlock a.chunks e (.vacant a.head) } := by simp [afterPanic, hb]
        refine ⟨fun _ => ⟨by simp [HeapOp.Spec, Arena.get, hb], ?_⟩, by rw [hs]; simp, by simp [stepCaught, hs],
          [], l ++ lost, ?_, List.subset_append_right _ _, fun _ _ _ _ => List.subset_append_left _ _⟩
        · rw [hp]
          funext x
          simp only [Arena.get, blockAt_setBlock a.chunks e x (.vacant a.head) (by rw [hb]; rfl)]
          by_cases hx : x = e
          · subst hx; simp [hb]
          · simp [hx]
        · simp only [stepCaught, hs, hp]; exact weak_panic h hb
      | occupied v =>
        obtain ⟨a₁, h1, h2, h4, h5⟩ := weak_free h e v hb
        have hs : step a (.free e) = some (a₁, .val v) := by simp [step, h1]
        refine ⟨by rw [hs]; simp, ?_, by simp [stepCaught, hs], e :: l, lost, ?_, List.Subset.refl _, ?_⟩
        · intro a' r hs'
          rw [hs] at hs'
          cases hs'
          have : a₁.get = Heap.set a.get e none := by
            funext x
            by_cases hx : x = e
            · subst hx; simp [Heap.set, Arena.get, h5]
            · simp [Heap.set, Arena.get, h4 x hx, hx]
          have hg : a.get e = some v := by simp [Arena.get, hb]
          simp [HeapOp.Spec, hg, this]
        · simp only [stepCaught, hs]; exact h2
        · intro e' n h1 h2; cases h1; rw [hb] at h2; cases h2
  | get e => exact ⟨by simp [step], by simp [step, HeapOp.Spec], by simp [stepCaught, step], l, lost, h, List.Subset.refl _, by simp⟩
  | getMut e f =>
    refine ⟨by simp [step], ?_, by simp [stepCaught, step], l, lost, ?_, List.Subset.refl _, by simp⟩
    · intro a' r hs
      simp only [step, Option.some.injEq, Prod.mk.injEq] at hs
      obtain ⟨rfl, rfl⟩ := hs
      unfold Arena.getMut
      split
      · rename_i v hb
        have hg : a.get e = some v := by simp [Arena.get, hb]
        have : Arena.get { a with chunks := setBlock a.chunks e (.occupied (f v)) } =
            Heap.set a.get e (some (f v)) := by
          funext x
          by_cases hx : x = e
          · subst hx
            simp [Heap.set, Arena.get, blockAt_setBlock a.chunks x x (.occupied (f v)) (by rw [hb]; rfl)]
          · simp [Heap.set, Arena.get, hx,
              blockAt_setBlock a.chunks e x (.occupied (f v)) (by rw [hb]; rfl)]
        simp only [HeapOp.Spec, hg, Option.map_some, this]
      · rename_i hb
        have hg : a.get e = none := by
          unfold Arena.get
          split
          · rename_i w hw; exact absurd hw (hb w)
          · rfl
        have : Heap.set a.get e none = a.get := by
          funext x; simp only [Heap.set]; split
          · rename_i hx; rw [hx, hg]
          · rfl
        simp [HeapOp.Spec, hg, this]
    · simp only [stepCaught, step]
      unfold Arena.getMut
      split
      · rename_i v hb; exact weak_occ h hb (f v)
      · exact h
  | index e =>
    cases hg : a.get e with
    | none => exact ⟨fun _ => ⟨by simp [HeapOp.Spec, hg], rfl⟩, by simp [step, hg], by simp [stepCaught, step, hg],
        l, lost, by simpa [stepCaught, step, hg, afterPanic] using h, List.Subset.refl _, by simp⟩
    | some v => exact ⟨by simp [step, hg], by simp [step, hg, HeapOp.Spec], by simp [stepCaught, step, hg],
        l, lost, by simpa [stepCaught, step, hg] using h, List.Subset.refl _, by simp⟩

theorem weak_run {a : Arena V} {l lost : List Entry} (h : Weak a l lost) (ops : List (HeapOp Entry V)) :
    CaughtHistory a.get ops (runCaught a ops).2 (runCaught a ops).1.get ∧
    (∀ e ∈ lost, some (.handle e) ∉ (runCaught a ops).2) ∧
    ∃ l' lost', Weak (runCaught a ops).1 l' lost' ∧ lost ⊆ lost' := by
  induction ops generalizing a l lost with
  | nil => exact ⟨.nil _, by simp [runCaught], l, lost, h, List.Subset.refl _⟩
  | cons op ops ih =>
    obtain ⟨h1, h2, h3, l₁, lost₁, h4, h5, -⟩ := weak_step h op
    obtain ⟨g1, g2, l₂, lost₂, g3, g4⟩ := ih h4
    refine ⟨?_, ?_, l₂, lost₂, g3, h5.trans g4⟩
    · simp only [runCaught]
      cases hst : step a op with
      | none =>
        have e : stepCaught a op = (afterPanic a op, none) := by simp [stepCaught, hst]
        rw [e] at g1 ⊢
        obtain ⟨b1, b2⟩ := h1 hst
        dsimp only at g1 ⊢
        rw [b2] at g1
        exact .panic b1 g1
      | some q =>
        obtain ⟨a', r⟩ := q
        have e : stepCaught a op = (a', some r) := by simp [stepCaught, hst]
        rw [e] at g1 ⊢
        exact .cons (h2 a' r hst) g1
    · intro e he
      simp only [runCaught, List.mem_cons, not_or]
      exact ⟨fun h => h3 e he h.symm, g2 e (h5 he)⟩

theorem get_new (n : Nat) : Arena.get (Arena.new n : Arena V) = fun _ => none := by
  funext e; simp [Arena.get, Arena.new, blockAt]

theorem reachCaught_weak {n : Nat} {a : Arena V} (h : ReachCaught n a) : ∃ l lost, Weak a l lost := by
  obtain ⟨ops, rfl⟩ := h
  obtain ⟨-, -, l, lost, h, -⟩ := weak_run (weak_new (V := V) n) ops
  exact ⟨l, lost, h⟩

/-! ### C64: the contents survive caught panics -/

/-- **C64.**  For every chunk size and every sequence of calls whose panics are caught, all outcomes are those of an
abstract heap on which a panicking call changes nothing; at the end the handles read what the abstract heap holds. -/
theorem C64_history (chunkSize : Nat) (ops : List (HeapOp Entry V)) :
    CaughtHistory (fun _ => none) ops (runCaught (Arena.new chunkSize) ops).2
      (runCaught (Arena.new chunkSize) ops).1.get := by
  have h := (weak_run (weak_new (V := V) chunkSize) ops).1
  rwa [get_new] at h

/-- **C64**, call by call: after caught panics `allocate` does not panic and returns a handle that is not live, `free`
of a live handle returns its value, and no other handle is changed; a panicking call changes what no handle reads. -/
theorem C64_calls {n : Nat} {a : Arena V} (h : ReachCaught n a) :
    (∀ v, ∃ a' e, a.allocate v = some (a', e) ∧ a.get e = none ∧ a'.get e = some v ∧
      ∀ e', e' ≠ e → a'.get e' = a.get e') ∧
    (∀ e v, a.get e = some v → ∃ a', a.free e = some (a', v) ∧ a'.get e = none ∧
      ∀ e', e' ≠ e → a'.get e' = a.get e') ∧
    (∀ e, a.get e = none → a.free e = none) ∧
    (∀ op, step a op = none → (afterPanic a op).get = a.get) := by
  obtain ⟨l, lost, hi⟩ := reachCaught_weak h
  refine ⟨fun v => ?_, fun e v hv => ?_, fun e he => ?_, fun op hop => ((weak_step hi op).1 hop).2⟩
  · obtain ⟨a', e, l', h1, -, -, h3, h4, h5⟩ := weak_allocate hi v
    refine ⟨a', e, h1, ?_, by simp [Arena.get, h5], fun e' he' => by simp [Arena.get, h4 e' he']⟩
    unfold Arena.get
    split
    · rename_i w hw; exact absurd hw (h3 w)
    · rfl
  · have hb : blockAt a.chunks e = some (.occupied v) := by
      unfold Arena.get at hv
      split at hv
      · rename_i h3; cases hv; exact h3
      · cases hv
    obtain ⟨a', h1, -, h4, h5⟩ := weak_free hi e v hb
    exact ⟨a', h1, by simp [Arena.get, h5], fun e' he' => by simp [Arena.get, h4 e' he']⟩
  · unfold Arena.get at he
    unfold Arena.free
    split
    · rename_i w hw; rw [hw] at he; cases he
    · rfl

/-- A history with a caught double free (twice), a caught `free` out of range and a caught `index`. -/
def panicDemo : List (HeapOp Entry Nat) :=
  [.allocate 1, .allocate 2, .allocate 3, .free ⟨0, 1⟩, .free ⟨0, 1⟩, .free ⟨5, 5⟩, .index ⟨0, 1⟩, .free ⟨0, 1⟩,
   .allocate 4, .get ⟨0, 1⟩, .index ⟨0, 0⟩, .index ⟨1, 0⟩, .index ⟨1, 1⟩]

example : (runCaught (Arena.new 2) panicDemo).2 =
    [some (.handle ⟨0, 0⟩), some (.handle ⟨0, 1⟩), some (.handle ⟨1, 0⟩), some (.val 2), none, none, none, none,
     some (.handle ⟨1, 1⟩), some (.opt none), some (.val 1), some (.val 3), some (.val 4)] := by decide

/-! ### C65: the memory -/

/-- After `n` rounds of allocate, free, and free again. -/
def leaked (chunkSize n : Nat) : Arena V :=
  ⟨none, [(List.range n).map fun i => .vacant (some ⟨0, i⟩)], chunkSize, 0, chunkSize⟩

/-- The rounds: allocate, free, and free again. -/
def leakOps (v : V) : Nat → List (HeapOp Entry V)
  | 0 => []
  | n + 1 => leakOps v n ++ [.allocate v, .free ⟨0, n⟩, .free ⟨0, n⟩]

theorem runCaught_append (a : Arena V) (xs ys : List (HeapOp Entry V)) :
    (runCaught a (xs ++ ys)).1 = (runCaught (runCaught a xs).1 ys).1 ∧
    (runCaught a (xs ++ ys)).2 = (runCaught a xs).2 ++ (runCaught (runCaught a xs).1 ys).2 := by
  induction xs generalizing a with
  | nil => exact ⟨rfl, rfl⟩
  | cons x xs ih =>
    obtain ⟨h1, h2⟩ := ih (stepCaught a x).1
    exact ⟨by simp only [List.cons_append, runCaught, h1], by simp only [List.cons_append, runCaught, h2]⟩

theorem leak_round (chunkSize n : Nat) (v : V) (h : 0 < chunkSize) :
    (runCaught (leaked chunkSize n) [.allocate v, .free ⟨0, n⟩, .free ⟨0, n⟩]).1 = leaked chunkSize (n + 1) := by
  have h0 : ¬ (0 = chunkSize) := by omega
  simp [runCaught, stepCaught, step, Arena.allocate, Arena.grow, Arena.place, leaked, h0, Arena.free, blockAt,
    setBlock, afterPanic, List.range_succ]

theorem leak_state (chunkSize : Nat) (h : 0 < chunkSize) (v : V) (n : Nat) :
    (runCaught (Arena.new chunkSize) (leakOps v (n + 1))).1 = leaked chunkSize (n + 1) := by
  induction n with
  | zero =>
    simp [leakOps, runCaught, stepCaught, step, Arena.allocate, Arena.grow, Arena.place, leaked, Arena.new, Arena.free,
      blockAt, setBlock, afterPanic, List.range_succ]
  | succ n ih =>
    rw [leakOps, (runCaught_append _ _ _).1, ih, leak_round _ _ _ h]

theorem get_leaked (chunkSize n : Nat) (e : Entry) : (leaked chunkSize n : Arena V).get e = none := by
  obtain ⟨c, i⟩ := e
  simp only [Arena.get, blockAt, leaked]
  cases c with
  | zero =>
    simp only [List.getElem?_cons_zero, Option.bind_some]
    rw [List.getElem?_map]
    cases (List.range n)[i]? <;> rfl
  | succ c => simp

/-- At most one handle is live. -/
def AtMostOne (a : Arena V) : Prop := ∀ e e' : Entry, a.get e ≠ none → a.get e' ≠ none → e = e'

theorem one_allocate {n : Nat} {a : Arena V} (h : ReachCaught n a) (h0 : ∀ e, a.get e = none) (v : V) :
    AtMostOne (stepCaught a (.allocate v)).1 := by
  obtain ⟨a', x, h1, -, -, h4⟩ := (C64_calls h).1 v
  have : stepCaught a (.allocate v) = (a', some (.handle x)) := by simp [stepCaught, step, h1]
  rw [this]
  have key : ∀ e, a'.get e ≠ none → e = x := by
    intro e he
    by_contra hne
    exact he (by rw [h4 e hne, h0])
  exact fun e e' he he' => (key e he).trans (key e' he').symm

theorem one_free {n : Nat} {a : Arena V} (h : ReachCaught n a) (h0 : AtMostOne a) (x : Entry) :
    AtMostOne (stepCaught a (.free x)).1 := by
  have hc := C64_calls h
  cases hx : a.get x with
  | none =>
    have hs : step a (.free x) = none := by simp [step, hc.2.2.1 x hx]
    have : (stepCaught a (.free x)).1 = afterPanic a (.free x) := by simp [stepCaught, hs]
    rw [this]
    intro e e' he he'
    rw [hc.2.2.2 _ hs] at he he'
    exact h0 e e' he he'
  | some v =>
    obtain ⟨a', h1, h2, h3⟩ := hc.2.1 x v hx
    have : stepCaught a (.free x) = (a', some (.val v)) := by simp [stepCaught, step, h1]
    rw [this]
    have key : ∀ e, a'.get e ≠ none → a.get e ≠ none := by
      intro e he
      by_cases hex : e = x
      · subst hex; exact absurd h2 he
      · rwa [h3 e hex] at he
    exact fun e e' he he' => h0 e e' (key e he) (key e' he')

theorem reachCaught_step {n : Nat} {a : Arena V} (h : ReachCaught n a) (op : HeapOp Entry V) :
    ReachCaught n (stepCaught a op).1 := by
  obtain ⟨ops, rfl⟩ := h
  exact ⟨ops ++ [op], by rw [(runCaught_append _ ops [op]).1]; rfl⟩

theorem leak_one (chunkSize : Nat) (h : 0 < chunkSize) (v : V) (n k : Nat) :
    AtMostOne (runCaught (Arena.new chunkSize) ((leakOps v n).take k)).1 := by
  induction n with
  | zero =>
    intro e e' he
    simp [leakOps, runCaught, get_new] at he
  | succ n ih =>
    rcases Nat.lt_or_ge (leakOps v n).length k with hk | hk
    rotate_left
    · rw [leakOps, List.take_append_of_le_length hk]
      exact ih
    · obtain ⟨j, rfl⟩ := Nat.exists_eq_add_of_lt hk
      have e : (leakOps v (n + 1)).take ((leakOps v n).length + j + 1) =
          leakOps v n ++ .allocate v :: ([.free ⟨0, n⟩, .free ⟨0, n⟩] : List (HeapOp Entry V)).take j := by
        rw [leakOps, Nat.add_assoc, List.take_length_add_append]
        rfl
      rw [e, (runCaught_append _ _ _).1]
      have hR : ReachCaught chunkSize (runCaught (Arena.new chunkSize) (leakOps v n)).1 := ⟨_, rfl⟩
      have h0 : ∀ e, (runCaught (Arena.new chunkSize) (leakOps v n)).1.get e = none := by
        intro x
        cases n with
        | zero => simp [leakOps, runCaught, get_new]
        | succ n => rw [leak_state chunkSize h v n]; exact get_leaked _ _ x
      generalize (runCaught (Arena.new chunkSize) (leakOps v n)).1 = a at *
      have a1 := one_allocate hR h0 v
      have r1 := reachCaught_step hR (.allocate v)
      have a2 := one_free r1 a1 ⟨0, n⟩
      have r2 := reachCaught_step r1 (.free ⟨0, n⟩)
      have a3 := one_free r2 a2 ⟨0, n⟩
      match j with
      | 0 => exact a1
      | 1 => exact a2
      | j + 2 => simpa [runCaught] using a3

/-- **C65 is violated.**  For every positive chunk size and every bound `n` there is a history with caught panics in
which at most one handle is live at any moment and none at the end, after which some chunk holds more than `n`
blocks: freed memory is not used again, and the chunk outgrows the size it was created with. -/
theorem C65_violated (chunkSize : Nat) (h : 0 < chunkSize) (v : V) (n : Nat) :
    ∃ ops : List (HeapOp Entry V),
      (∀ k, AtMostOne (runCaught (Arena.new chunkSize) (ops.take k)).1) ∧
      (∀ e : Entry, (runCaught (Arena.new chunkSize) ops).1.get e = none) ∧
      ∃ c ∈ (runCaught (Arena.new chunkSize) ops).1.chunks, n < c.length := by
  refine ⟨leakOps v (n + 1), leak_one chunkSize h v (n + 1), ?_, ?_⟩
  · rw [leak_state chunkSize h v n]; exact get_leaked _ _
  · rw [leak_state chunkSize h v n]
    exact ⟨_, List.mem_singleton.2 rfl, by simp⟩

/-- **C65 (exact damage).**  Let `free` panic on a vacant block in any arena reached with caught panics.  No handle
whose block was vacant at that moment is ever returned by `allocate` again, nor live again, whatever calls follow. -/
theorem C65_lost_forever {n : Nat} {a : Arena V} (h : ReachCaught n a) {e : Entry} {nx : Option Entry}
    (he : (a.chunks[e.chunk]?).bind (·[e.block]?) = some (.vacant nx)) (x : Entry) {ny : Option Entry}
    (hx : (a.chunks[x.chunk]?).bind (·[x.block]?) = some (.vacant ny)) (ops : List (HeapOp Entry V)) :
    step a (.free e) = none ∧
    some (.handle x) ∉ (runCaught (afterPanic a (.free e)) ops).2 ∧
    (runCaught (afterPanic a (.free e)) ops).1.get x = none := by
  obtain ⟨l, lost, hi⟩ := reachCaught_weak h
  have he' : blockAt a.chunks e = some (.vacant nx) := he
  have hs : step a (.free e) = none := by simp [step, Arena.free, he']
  have hw := weak_panic hi he'
  have hp : afterPanic a (.free e) = { a with head := none, chunks := setBlock a.chunks e (.vacant a.head) } := by
    simp [afterPanic, he']
  rw [← hp] at hw
  have hm : x ∈ l ++ lost := (hi.vacant x).2 ⟨ny, hx⟩
  obtain ⟨-, g2, l', lost', g3, g4⟩ := weak_run hw ops
  refine ⟨hs, g2 x hm, ?_⟩
  obtain ⟨m, hm'⟩ := (g3.vacant x).1 (List.mem_append_right _ (g4 hm))
  simp [Arena.get, hm']

/-- The calls whose panic leaves no trace: all but a `free` of a vacant block inside a chunk. -/
def Harmless (a : Arena V) (op : HeapOp Entry V) : Prop :=
  ∀ e nx, op = .free e → (a.chunks[e.chunk]?).bind (·[e.block]?) ≠ some (.vacant nx)

/-- No call of the list is a `free` of a vacant block. -/
def AllHarmless : Arena V → List (HeapOp Entry V) → Prop
  | _, [] => True
  | a, op :: ops => Harmless a op ∧ AllHarmless (stepCaught a op).1 ops

/-- **C65 (partial).**  As long as no `free` of a vacant block was made, caught panics (of `index`, and of `free` out
of range) do no harm: the arena is one that is reached without any panic, so chunks keep to their size and new chunks
are created only when all blocks are in use (C19).  Missing: histories with a caught `free` of a vacant block. -/
theorem C65_partial (chunkSize : Nat) (h : 0 < chunkSize) (ops : List (HeapOp Entry V))
    (hh : AllHarmless (Arena.new chunkSize) ops) :
    Reach chunkSize (runCaught (Arena.new chunkSize) ops).1 ∧
    ∀ c ∈ (runCaught (Arena.new chunkSize) ops).1.chunks, c.length ≤ chunkSize := by
  have key : ∀ (ops : List (HeapOp Entry V)) (a : Arena V), Reach chunkSize a → AllHarmless a ops →
      Reach chunkSize (runCaught a ops).1 := by
    intro ops
    induction ops with
    | nil => intro a ha _; exact ha
    | cons op ops ih =>
      intro a ha hh
      refine ih _ ?_ hh.2
      obtain ⟨⟨l, hi⟩, -⟩ := reach_inv ha
      cases hst : step a op with
      | some q =>
        obtain ⟨a', r⟩ := q
        simp only [stepCaught, hst]
        exact ha.step hst
      | none =>
        have : afterPanic a op = a := by
          cases op with
          | free e =>
            cases hb : blockAt a.chunks e with
            | none => simp [afterPanic, hb]
            | some b =>
              cases b with
              | vacant n => exact absurd hb (hh.1 e n rfl)
              | occupied v =>
                obtain ⟨a', h1, -⟩ := free_spec hi e v hb
                simp [step, h1] at hst
          | _ => rfl
        simp only [stepCaught, hst, this]
        exact ha
  have hr := key ops _ .new hh
  exact ⟨hr, C19_chunk_bound h hr⟩

/-- A caught `index` of a freed handle and a caught `free` out of range are harmless. -/
example : AllHarmless (Arena.new 2) ([.allocate 1, .free ⟨0, 0⟩, .index ⟨0, 0⟩, .free ⟨3, 0⟩, .allocate 2] :
    List (HeapOp Entry Nat)) ∧
    (runCaught (Arena.new 2) ([.allocate 1, .free ⟨0, 0⟩, .index ⟨0, 0⟩, .free ⟨3, 0⟩, .allocate 2] :
    List (HeapOp Entry Nat))).2 = [some (.handle ⟨0, 0⟩), some (.val 1), none, none, some (.handle ⟨0, 0⟩)] := by
  refine ⟨⟨?_, ?_, ?_, ?_, ?_, trivial⟩, by decide⟩
  · intro e nx h; cases h
  · intro e nx h; cases h; simp [stepCaught, step, Arena.allocate, Arena.grow, Arena.place, Arena.new]
  · intro e nx h; cases h
  · intro e nx h; cases h
    simp [stepCaught, step, Arena.allocate, Arena.grow, Arena.place, Arena.new, Arena.free, blockAt, setBlock, Arena.get,
      afterPanic]
  · intro e nx h; cases h

end Verif.Arena
