/- Properties C18, C19 and C20 of `TypedArena`. -/
import Verif.Arena.Lemmas

namespace Verif.Arena

open Verif.Spec

variable {V : Type}

theorem history_of_inv {a : Arena V} {l : List Entry} (h : Inv a l) (ops : List (HeapOp Entry V)) :
    ∃ m, HeapHistory a.get ops (run a ops) m := by
  induction ops generalizing a l with
  | nil => exact ⟨_, .nil _⟩
  | cons op ops ih =>
    have hs := step_spec h op
    cases hst : step a op with
    | none =>
      simp only [run, hst]
      exact ⟨_, .panic (hs.1 hst)⟩
    | some q =>
      obtain ⟨a', r⟩ := q
      obtain ⟨h1, ⟨l', h2⟩, _⟩ := hs.2 a' r hst
      obtain ⟨m, hm⟩ := ih h2
      simp only [run, hst]
      exact ⟨m, .cons h1 hm⟩

/-- C18.  For every chunk size and every sequence of calls, the outcomes are those of an abstract heap:
`allocate` returns a handle that is not live, `get` and `index` read the value last written to a live
handle, `free` returns it, and only `free` and `index` on a handle that is not live panic. -/
theorem C18_history (chunkSize : Nat) (ops : List (HeapOp Entry V)) :
    ∃ m, HeapHistory (fun _ => none) ops (run (Arena.new chunkSize) ops) m := by
  have h := history_of_inv (inv_new (V := V) chunkSize) ops
  have : Arena.get (Arena.new chunkSize : Arena V) = fun _ => none := by
    funext e; simp [Arena.get, Arena.new, blockAt]
  rwa [this] at h

/-- Every handle a call frees or indexes is live at that moment. -/
def UsesLive : Arena V → List (HeapOp Entry V) → Prop
  | _, [] => True
  | a, op :: ops =>
    (match op with
      | .free e => (a.get e).isSome
      | .index e => (a.get e).isSome
      | _ => True) ∧
    ∀ a' r, step a op = some (a', r) → UsesLive a' ops

/-- C18.  A client that frees and indexes live handles only never sees a panic. -/
theorem C18_no_panic (chunkSize : Nat) (ops : List (HeapOp Entry V))
    (h : UsesLive (Arena.new chunkSize) ops) : none ∉ run (Arena.new chunkSize) ops := by
  suffices ∀ (a : Arena V) l, Inv a l → UsesLive a ops → none ∉ run a ops from
    this _ _ (inv_new chunkSize) h
  intro a l hi hu
  clear h
  induction ops generalizing a l with
  | nil => simp [run]
  | cons op ops ih =>
    have hs := step_spec hi op
    cases hst : step a op with
    | none =>
      have := hs.1 hst
      have h1 := hu.1
      cases op <;> simp only [HeapOp.Spec] at this h1
      · obtain ⟨_, _, h⟩ := this; cases h
      · cases hg : a.get _ with
        | none => rw [hg] at h1; cases h1
        | some v => rw [hg] at this; cases this
      · cases this
      · cases this
      · cases hg : a.get _ with
        | none => rw [hg] at h1; cases h1
        | some v => rw [hg] at this; cases this
    | some q =>
      obtain ⟨a', r⟩ := q
      obtain ⟨_, ⟨l', h2⟩, _⟩ := hs.2 a' r hst
      simp only [run, hst, List.mem_cons, reduceCtorEq, false_or]
      exact ih a' l' h2 (hu.2 a' r hst)

/-- C18.  Every call on every reachable arena, written out: what the call returns and what every handle
reads afterwards. -/
theorem C18_calls {n : Nat} {a : Arena V} (h : Reach n a) :
    (∀ v, ∃ a' e, a.allocate v = some (a', e) ∧ a.get e = none ∧ a'.get e = some v ∧
      ∀ e', e' ≠ e → a'.get e' = a.get e') ∧
    (∀ e v, a.get e = some v → ∃ a', a.free e = some (a', v) ∧ a'.get e = none ∧
      ∀ e', e' ≠ e → a'.get e' = a.get e') ∧
    (∀ e f, (a.getMut e f).2 = a.get e ∧ (a.getMut e f).1.get e = (a.get e).map f ∧
      ∀ e', e' ≠ e → (a.getMut e f).1.get e' = a.get e') := by
  obtain ⟨⟨l, hi⟩, _⟩ := reach_inv h
  refine ⟨fun v => ?_, fun e v hv => ?_, fun e f => ?_⟩
  · obtain ⟨a', e, _, h1, _⟩ := allocate_spec hi v
    have := (step_spec hi (.allocate v)).2 a' (.handle e) (by simp [step, h1])
    obtain ⟨⟨e₁, h2, h3⟩, _⟩ := this
    simp only [Option.some.injEq, Prod.mk.injEq, HeapRes.handle.injEq] at h3
    obtain ⟨rfl, h3⟩ := h3
    exact ⟨a', e, h1, h2, by simp [h3, Heap.set], fun e' he' => by simp [h3, Heap.set, he']⟩
  · have hs := step_spec hi (.free e)
    cases hf : a.free e with
    | none =>
      have := hs.1 (by simp [step, hf])
      simp [HeapOp.Spec, hv] at this
    | some q =>
      obtain ⟨a', w⟩ := q
      have := (hs.2 a' (.val w) (by simp [step, hf])).1
      simp only [HeapOp.Spec, hv, Option.map_some, Option.some.injEq, Prod.mk.injEq,
        HeapRes.val.injEq] at this
      obtain ⟨rfl, h3⟩ := this
      exact ⟨a', rfl, by simp [h3, Heap.set], fun e' he' => by simp [h3, Heap.set, he']⟩
  · have := ((step_spec hi (.getMut e f)).2 _ _ rfl).1
    simp only [HeapOp.Spec, Option.some.injEq, Prod.mk.injEq, HeapRes.opt.injEq] at this
    obtain ⟨h2, h3⟩ := this
    exact ⟨h2, by simp [h3, Heap.set], fun e' he' => by simp [h3, Heap.set, he']⟩

/-- Non-vacuity: chunk size 2, five allocations, two frees and two reuses. -/
def demo : List (HeapOp Entry Nat) :=
  [.allocate 1, .allocate 2, .allocate 3, .free ⟨0, 0⟩, .free ⟨1, 0⟩, .get ⟨0, 0⟩, .allocate 4,
   .allocate 5, .allocate 6, .getMut ⟨0, 0⟩ (· + 10), .index ⟨0, 0⟩, .get ⟨1, 1⟩, .free ⟨7, 7⟩, .get ⟨0, 0⟩]

example : run (Arena.new 2) demo =
    [some (.handle ⟨0, 0⟩), some (.handle ⟨0, 1⟩), some (.handle ⟨1, 0⟩), some (.val 1), some (.val 3),
     some (.opt none), some (.handle ⟨1, 0⟩), some (.handle ⟨0, 0⟩), some (.handle ⟨1, 1⟩),
     some (.opt (some 5)), some (.val 15), some (.opt (some 6)), none] := by decide

example : UsesLive (Arena.new 2)
    ([.allocate 1, .free ⟨0, 0⟩, .allocate 2, .index ⟨0, 0⟩] : List (HeapOp Entry Nat)) := by
  refine ⟨trivial, fun a r h => ?_⟩
  cases h
  refine ⟨rfl, fun a r h => ?_⟩
  cases h
  refine ⟨trivial, fun a r h => ?_⟩
  cases h
  exact ⟨rfl, fun a r h => trivial⟩

/-- C19.  With a positive chunk size no chunk ever holds more than `chunk_size` blocks (a chunk is created
with that capacity, arena.rs:89, so its buffer is never moved). -/
theorem C19_chunk_bound {n : Nat} (hn : 0 < n) {a : Arena V} (h : Reach n a) :
    ∀ c ∈ a.chunks, c.length ≤ n := by
  obtain ⟨⟨l, hi⟩, hc⟩ := reach_inv h
  subst hc
  exact hi.bound hn

/-- C19.  A call that adds a chunk is an `allocate`, made when every block of every chunk is occupied and
every chunk is full; it adds one chunk. -/
theorem C19_new_chunk_only_when_full {n : Nat} (hn : 0 < n) {a a' : Arena V} (h : Reach n a)
    {op : HeapOp Entry V} {r : HeapRes Entry V} (hs : step a op = some (a', r))
    (hg : a'.chunks.length ≠ a.chunks.length) :
    a'.chunks.length = a.chunks.length + 1 ∧ (∃ v, op = .allocate v) ∧
      ∀ c ∈ a.chunks, c.length = n ∧ ∀ b ∈ c, ∃ v, b = .occupied v := by
  obtain ⟨⟨l, hi⟩, hc⟩ := reach_inv h
  subst hc
  have hlen : ∀ e (b : Block V), (setBlock a.chunks e b).length = a.chunks.length := by
    intro e b; simp [setBlock]
  cases op with
  | allocate v =>
    have hpl : ∀ (g g' : Arena V) e, g.place v = some (g', e) → g'.chunks.length = g.chunks.length := by
      intro g g' e hp
      unfold Arena.place at hp
      split at hp
      · split at hp
        · cases hp
        · rename_i last hl
          cases hp
          obtain ⟨ys, hys⟩ := List.getLast?_eq_some_iff.1 hl
          simp [hys]
      · split at hp
        · cases hp; simp [setBlock]
        · cases hp
    cases hal : a.allocate v with
    | none => simp [step, hal] at hs
    | some q =>
      simp only [step, hal, Option.map_some, Option.some.injEq, Prod.mk.injEq] at hs
      obtain ⟨rfl, _⟩ := hs
      have h1 := hpl _ _ _ hal
      unfold Arena.grow at h1
      split at h1
      · rename_i hsz
        obtain ⟨hl, hfull⟩ := grow_full hi hn hsz
        refine ⟨by simpa using h1, ⟨v, rfl⟩, fun c hcm => ⟨hfull c hcm, fun b hb => ?_⟩⟩
        cases b with
        | occupied v => exact ⟨v, rfl⟩
        | vacant nx =>
          exfalso
          obtain ⟨i, hi1⟩ := List.getElem?_of_mem hcm
          obtain ⟨j, hj⟩ := List.getElem?_of_mem hb
          have := hi.vacant ⟨i, j⟩ nx (by simp [blockAt, hi1, hj])
          rw [hl] at this
          cases this
      · exact absurd h1 hg
  | free e =>
    cases hf : a.free e with
    | none => simp [step, hf] at hs
    | some q =>
      simp only [step, hf, Option.map_some, Option.some.injEq, Prod.mk.injEq] at hs
      obtain ⟨rfl, _⟩ := hs
      unfold Arena.free at hf
      split at hf
      · split at hf
        · cases hf
        · cases hf; exact absurd (hlen _ _) hg
      · cases hf
  | get e => simp only [step, Option.some.injEq, Prod.mk.injEq] at hs; exact absurd (by rw [hs.1]) hg
  | getMut e f =>
    simp only [step, Option.some.injEq, Prod.mk.injEq] at hs
    obtain ⟨rfl, _⟩ := hs
    unfold Arena.getMut at hg
    split at hg
    · exact absurd (hlen _ _) hg
    · exact absurd rfl hg
  | index e =>
    cases hf : a.get e with
    | none => simp [step, hf] at hs
    | some v =>
      simp only [step, hf, Option.map_some, Option.some.injEq, Prod.mk.injEq] at hs
      exact absurd (by rw [hs.1]) hg

/-- C19.  An object keeps its position (chunk index and block index) for its whole life: the only call after
which a live position is not live any more is `free` of that position. -/
theorem C19_position_kept {n : Nat} {a a' : Arena V} (h : Reach n a) {op : HeapOp Entry V}
    {r : HeapRes Entry V} (hs : step a op = some (a', r)) (c i : Nat) (v : V)
    (hv : (a.chunks[c]?).bind (·[i]?) = some (.occupied v)) (hop : op ≠ .free ⟨c, i⟩) :
    ∃ w, (a'.chunks[c]?).bind (·[i]?) = some (.occupied w) ∧
      ((∀ f, op ≠ .getMut ⟨c, i⟩ f) → w = v) := by
  obtain ⟨⟨l, hi⟩, _⟩ := reach_inv h
  have hg : a.get ⟨c, i⟩ = some v := by
    have : blockAt a.chunks ⟨c, i⟩ = some (.occupied v) := hv
    simp [Arena.get, this]
  suffices hw : ∃ w, a'.get ⟨c, i⟩ = some w ∧ ((∀ f, op ≠ .getMut ⟨c, i⟩ f) → w = v) by
    obtain ⟨w, h1, h2⟩ := hw
    refine ⟨w, ?_, h2⟩
    show blockAt a'.chunks ⟨c, i⟩ = _
    unfold Arena.get at h1
    split at h1
    · rename_i h3; cases h1; exact h3
    · cases h1
  have hsp := ((step_spec hi op).2 a' r hs).1
  cases op with
  | allocate x =>
    obtain ⟨e, h1, h2⟩ := hsp
    simp only [Option.some.injEq, Prod.mk.injEq] at h2
    have hne : (⟨c, i⟩ : Entry) ≠ e := by intro he; rw [← he, hg] at h1; cases h1
    exact ⟨v, by rw [h2.2]; simp [Heap.set, hne, hg], fun _ => rfl⟩
  | free e =>
    have hne : (⟨c, i⟩ : Entry) ≠ e := by intro he; exact hop (by rw [he])
    cases he : a.get e with
    | none => simp [HeapOp.Spec, he] at hsp
    | some x =>
      simp only [HeapOp.Spec, he, Option.map_some, Option.some.injEq, Prod.mk.injEq] at hsp
      exact ⟨v, by rw [hsp.2]; simp [Heap.set, hne, hg], fun _ => rfl⟩
  | get e =>
    simp only [HeapOp.Spec, Option.some.injEq, Prod.mk.injEq] at hsp
    exact ⟨v, by rw [hsp.2, hg], fun _ => rfl⟩
  | getMut e f =>
    simp only [HeapOp.Spec, Option.some.injEq, Prod.mk.injEq] at hsp
    by_cases he : (⟨c, i⟩ : Entry) = e
    · subst he
      exact ⟨f v, by rw [hsp.2]; simp [Heap.set, hg], fun h => absurd rfl (h f)⟩
    · exact ⟨v, by rw [hsp.2]; simp [Heap.set, he, hg], fun _ => rfl⟩
  | index e =>
    cases he : a.get e with
    | none => simp [HeapOp.Spec, he] at hsp
    | some x =>
      simp only [HeapOp.Spec, he, Option.map_some, Option.some.injEq, Prod.mk.injEq] at hsp
      exact ⟨v, by rw [hsp.2, hg], fun _ => rfl⟩

/-- Non-vacuity: with chunk size 2 the third allocation adds a chunk. -/
example : ∃ (a a' : Arena Nat) (r : HeapRes Entry Nat), Reach 2 a ∧ step a (.allocate 3) = some (a', r) ∧
    a.chunks.length = 1 ∧ a'.chunks.length = 2 :=
  ⟨_, _, _, .step (op := .allocate 2) (.step (op := .allocate 1) .new rfl) rfl, rfl, rfl, rfl⟩

/-- The hypothesis of a positive chunk size is needed: with chunk size 0 a chunk (allocated with room for no
block) grows beyond its capacity, so its buffer is moved by the second allocation. -/
theorem C19_chunk_size_zero :
    ∃ a : Arena Nat, Reach 0 a ∧ ∃ c ∈ a.chunks, 2 ≤ c.length :=
  ⟨_, .step (op := .allocate 2) (.step (op := .allocate 1) .new rfl) rfl,
    [.occupied 1, .occupied 2], by simp [Arena.grow, Arena.new], by decide⟩

/-- C20 is false: after `free h`, the next allocation returns the same handle `h`, and the stale copy of
`h` reads and frees the new object. -/
theorem C20_stale_handle_reaches_new_object :
    ∃ h : Entry, run (Arena.new 4) ([.allocate 1, .free h, .allocate 2, .get h, .free h] :
        List (HeapOp Entry Nat)) =
      [some (.handle h), some (.val 1), some (.handle h), some (.opt (some 2)), some (.val 2)] :=
  ⟨⟨0, 0⟩, rfl⟩

/-- C20, in general: it fails after every history, for every chunk size: the first allocation after a `free`
reuses the freed handle. -/
theorem C20_freed_handle_is_reused {n : Nat} {a a' : Arena V} (hr : Reach n a) {h : Entry} {v : V}
    (hf : a.free h = some (a', v)) (w : V) :
    ∃ a'', a'.allocate w = some (a'', h) ∧ a''.get h = some w := by
  obtain ⟨⟨l, hi⟩, _⟩ := reach_inv hr
  have hb : blockAt a.chunks h = some (.occupied v) := by
    unfold Arena.free at hf
    split at hf
    · split at hf
      · cases hf
      · cases hf; assumption
    · cases hf
  obtain ⟨a₁, h1, h2, _⟩ := free_spec hi h v hb
  rw [hf] at h1
  cases h1
  obtain ⟨hg, hgb, _⟩ := inv_grow h2
  obtain ⟨hh, nx, hv, _⟩ := hg.chain
  refine ⟨⟨nx, setBlock a'.grow.chunks h (.occupied w), a'.grow.chunkSize, a'.grow.size + 1,
    a'.grow.capacity⟩, by simp only [Arena.allocate, Arena.place, hh, hv], ?_⟩
  have : (blockAt a'.grow.chunks h).isSome := by rw [hv]; rfl
  simp [Arena.get, blockAt_setBlock _ _ _ _ this]

/-- The part of C20 that holds: a handle that is not live stays dead until an allocation returns it: after
calls that do not panic and none of which returns `h`, `get h` is `None` and `free h` panics.  Missing:
deadness after such an allocation, which is false. -/
theorem C20_dead_until_reused_partial {n : Nat} {a : Arena V} (hr : Reach n a) (h : Entry)
    (hd : a.get h = none) (ops : List (HeapOp Entry V)) (hok : none ∉ run a ops)
    (hno : some (.handle h) ∉ run a ops) :
    run a (ops ++ [.get h]) = run a ops ++ [some (.opt none)] ∧
      run a (ops ++ [.free h]) = run a ops ++ [none] := by
  induction ops generalizing a with
  | nil =>
    have hf : a.free h = none := by
      obtain ⟨⟨l, hi⟩, _⟩ := reach_inv hr
      cases hf : a.free h with
      | none => rfl
      | some q =>
        have := ((step_spec hi (.free h)).2 q.1 (.val q.2) (by simp [step, hf])).1
        simp [HeapOp.Spec, hd] at this
    simp [run, step, hd, hf]
  | cons op ops ih =>
    cases hst : step a op with
    | none => simp [run, hst] at hok
    | some q =>
      obtain ⟨a', r'⟩ := q
      simp only [run, hst, List.mem_cons, reduceCtorEq, false_or, Option.some.injEq, not_or] at hok hno
      obtain ⟨⟨l, hi⟩, _⟩ := reach_inv hr
      have hsp := ((step_spec hi op).2 a' r' hst).1
      have hd' : a'.get h = none := by
        cases op with
        | allocate y =>
          obtain ⟨e, h3, h4⟩ := hsp
          simp only [Option.some.injEq, Prod.mk.injEq] at h4
          have hne : h ≠ e := by intro he; subst he; exact hno.1 h4.1.symm
          rw [h4.2]; simp [Heap.set, hne, hd]
        | free e =>
          cases he : a.get e with
          | none => simp [HeapOp.Spec, he] at hsp
          | some y =>
            simp only [HeapOp.Spec, he, Option.map_some, Option.some.injEq, Prod.mk.injEq] at hsp
            rw [hsp.2]; simp only [Heap.set]; split
            · rfl
            · exact hd
        | get e =>
          simp only [HeapOp.Spec, Option.some.injEq, Prod.mk.injEq] at hsp
          rw [hsp.2, hd]
        | getMut e f =>
          simp only [HeapOp.Spec, Option.some.injEq, Prod.mk.injEq] at hsp
          rw [hsp.2]; simp only [Heap.set]; split
          · rename_i he; subst he; simp [hd]
          · exact hd
        | index e =>
          cases he : a.get e with
          | none => simp [HeapOp.Spec, he] at hsp
          | some y =>
            simp only [HeapOp.Spec, he, Option.map_some, Option.some.injEq, Prod.mk.injEq] at hsp
            rw [hsp.2, hd]
      obtain ⟨h1, h2⟩ := ih (hr.step hst) hd' hok hno.2
      simp only [List.cons_append, run, hst, h1, h2, and_self]

/-- Non-vacuity: a freed handle, then other calls that do not reuse it. -/
example : none ∉ run (Arena.new 4) ([.allocate 1, .allocate 2, .free ⟨0, 1⟩, .get ⟨0, 0⟩] :
      List (HeapOp Entry Nat)) ∧
    run (Arena.new 4) ([.allocate 1, .allocate 2, .free ⟨0, 1⟩, .get ⟨0, 0⟩, .get ⟨0, 1⟩] :
      List (HeapOp Entry Nat)) =
    [some (.handle ⟨0, 0⟩), some (.handle ⟨0, 1⟩), some (.val 2), some (.opt (some 1)),
      some (.opt none)] := by decide

end Verif.Arena
