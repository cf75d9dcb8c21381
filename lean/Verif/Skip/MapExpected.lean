/- The expected number of key comparisons of the calls of a `SkipMap`, over all words the random generator may
deliver.  Documentation claim: skiplist/map.rs:67-74 ("searching, insertion, and deletion of entries can be done
in approximately logarithm time"). -/
import Verif.Skip.MapCost

namespace Verif.Skip.Map

open Verif.Spec Verif.SL Verif.Coins

variable {K V : Type} [LinearOrder K]

/-! ### Vocabulary -/

/-- What `rng.next_u32()` delivers (map.rs:124). -/
abbrev Word := Fin (2 ^ 32)

omit [LinearOrder K] in
/-- The number of calls of `insert`; each of them draws one word (map.rs:143). -/
def inserts : List (MapOp K V) → Nat
  | [] => 0
  | .insert _ _ :: ops => inserts ops + 1
  | _ :: ops => inserts ops

/-- map.rs:123-125 `gen_random_height` for the `i`-th word: its leading zeros. -/
def heights {N : Nat} (w : Fin N → Word) (i : Nat) : Fin 33 :=
  if h : i < N then ⟨lz 32 (w ⟨i, h⟩), Nat.lt_succ_of_le (lz_le _)⟩ else 0

omit [LinearOrder K] in
/-- The history in which the calls of `insert` draw `P n`, `P (n + 1)`, …; the other calls draw nothing. -/
def assign (P : Nat → Draw) : Nat → List (MapOp K V) → List (MapOp K V × Draw)
  | _, [] => []
  | n, .insert k v :: ops => (.insert k v, P n) :: assign P (n + 1) ops
  | n, op :: ops => (op, (0, 0)) :: assign P n ops

/-- The keys in the map, in order, with the number of the call of `insert` that put them there. -/
def live : Nat → List (K × Nat) → List (MapOp K V) → List (K × Nat)
  | _, L, [] => L
  | n, L, .insert k _ :: ops => live (n + 1) (ins k n L) ops
  | n, L, .remove k :: ops => live n (del k L) ops
  | n, _, .clear :: ops => live n [] ops
  | n, L, _ :: ops => live n L ops

/-- The number of entries after the history `ops` (`C56_size`). -/
def size (ops : List (MapOp K V)) : Nat := (live 0 [] ops).length

/-- The map after the history `ops`, if the random words are `w` and the allocator picks addresses by `off`. -/
def after (a : Addr) (ops : List (MapOp K V)) (off : Nat → Nat) (w : Fin (inserts ops) → Word) :
    Option (SkipMap K V) :=
  ((impl K V a).run (SkipMap.new a) (assign (fun i => (heights w i, off i)) 0 ops)).map (·.1)

/-- The key comparisons of the call `op` after the history `ops` (no call fails: `C56_total`). -/
def comparisons (a : Addr) (ops : List (MapOp K V)) (off : Nat → Nat) (w : Fin (inserts ops) → Word)
    (op : MapOp K V) (d : Draw) : Nat :=
  ((after a ops off w).bind fun s => (stepC s op d).map (·.1)).getD 0

/-! ### The heights after a history -/

theorem ins_map (f : Nat → Nat) (k : K) (n : Nat) (L : List (K × Nat)) :
    (ins k n L).map (fun e => (e.1, f e.2)) = ins k (f n) (L.map fun e => (e.1, f e.2)) := by
  induction L with
  | nil => rfl
  | cons e L ih =>
    simp only [ins, List.map_cons]
    split
    · rfl
    · split
      · rw [List.map_cons, ih]
      · rfl

theorem del_map (f : Nat → Nat) (k : K) (L : List (K × Nat)) :
    (del k L).map (fun e => (e.1, f e.2)) = del k (L.map fun e => (e.1, f e.2)) := by
  unfold del
  rw [List.filter_map]
  rfl

theorem run_ok (a : Addr) (P : Nat → Draw) (ops : List (MapOp K V)) (n : Nat) {s : SkipMap K V}
    {T : List (Tower (K × V))} (h : Good s T) {L : List (K × Nat)}
    (hL : T.map kh = L.map fun e => (e.1, (P e.2).1.val + 1)) :
    ∃ s' T' h', (impl K V a).run s (assign P n ops) = some (s', h') ∧ Good s' T' ∧
      T'.map kh = (live n L ops).map fun e => (e.1, (P e.2).1.val + 1) := by
  induction ops generalizing n s T L with
  | nil => exact ⟨s, T, [], rfl, h, hL⟩
  | cons op ops ih =>
    have key : ∀ (d : Draw) (n' : Nat) (L' : List (K × Nat)),
        nextH d.1 (T.map kh) op = L'.map (fun e => (e.1, (P e.2).1.val + 1)) →
        ∃ s' T' h', (impl K V a).run s ((op, d) :: assign P n' ops) = some (s', h') ∧ Good s' T' ∧
          T'.map kh = (live n' L' ops).map fun e => (e.1, (P e.2).1.val + 1) := by
      intro d n' L' he
      obtain ⟨s1, T1, h1, h2, _, h4⟩ := step_ok' h op d
      obtain ⟨s', T', h', g1, g2, g3⟩ := ih n' h2 (h4.trans he)
      refine ⟨s', T', (op, res (T.map (·.e)) op) :: h', ?_, g2, g3⟩
      have h1' : (impl K V a).step s op d = some (s1, res (T.map (·.e)) op) := h1
      show ((impl K V a).step s op d).bind (fun p => ((impl K V a).run p.1 (assign P n' ops)).bind fun q =>
        some (q.1, (op, p.2) :: q.2)) = _
      rw [h1']
      show ((impl K V a).run s1 (assign P n' ops)).bind (fun q => some (q.1, (op, res (T.map (·.e)) op) :: q.2)) = _
      rw [g1]
      rfl
    cases op with
    | insert k v =>
      exact key (P n) (n + 1) (ins k n L) (by
        rw [nextH, hL]; exact (ins_map (fun j => (P j).1.val + 1) k n L).symm)
    | remove k =>
      exact key (0, 0) n (del k L) (by rw [nextH, hL]; exact (del_map (fun j => (P j).1.val + 1) k L).symm)
    | clear => exact key (0, 0) n [] rfl
    | get k => exact key (0, 0) n L hL
    | containsKey k => exact key (0, 0) n L hL
    | getMut k f => exact key (0, 0) n L hL
    | floor k => exact key (0, 0) n L hL
    | ceil k => exact key (0, 0) n L hL
    | min => exact key (0, 0) n L hL
    | max => exact key (0, 0) n L hL
    | len => exact key (0, 0) n L hL
    | isEmpty => exact key (0, 0) n L hL
    | iter => exact key (0, 0) n L hL

/-- The numbers of the calls are different. -/
def Dist (n : Nat) (L : List (K × Nat)) : Prop := (L.map (·.2)).Nodup ∧ ∀ e ∈ L, e.2 < n

theorem dist_sub {n : Nat} {L L' : List (K × Nat)} (h : Dist n L) (hs : L'.Sublist L) : Dist n L' :=
  ⟨h.1.sublist (hs.map _), fun e he => h.2 e (hs.mem he)⟩

theorem dist_ins {n : Nat} {L : List (K × Nat)} (h : Dist n L) (k : K) : Dist (n + 1) (ins k n L) := by
  induction L with
  | nil => exact ⟨by simp [ins], by simp [ins]⟩
  | cons e L ih =>
    have hlt := h.2 e (by simp)
    have hd : Dist n L := dist_sub h (List.sublist_cons_self _ _)
    have ih := ih hd
    have hall : ∀ x ∈ e :: L, x.2 ≠ n := fun x hx => Nat.ne_of_lt (h.2 x hx)
    simp only [ins]
    split
    · refine ⟨?_, ?_⟩
      · rw [List.map_cons, List.nodup_cons]
        refine ⟨?_, h.1⟩
        intro hc
        obtain ⟨x, hx, hx'⟩ := List.mem_map.1 hc
        exact hall x hx hx'
      · intro x hx
        rcases List.mem_cons.1 hx with rfl | hx
        · exact Nat.lt_succ_self _
        · have := h.2 x hx; omega
    · split
      · refine ⟨?_, ?_⟩
        · rw [List.map_cons, List.nodup_cons]
          refine ⟨?_, ih.1⟩
          intro hc
          obtain ⟨x, hx, hx'⟩ := List.mem_map.1 hc
          rcases mem_ins hx with rfl | hx
          · simp only at hx'; omega
          · have := h.1
            rw [List.map_cons, List.nodup_cons] at this
            exact this.1 (List.mem_map.2 ⟨x, hx, hx'⟩)
        · intro x hx
          rcases List.mem_cons.1 hx with rfl | hx
          · omega
          · exact ih.2 x hx
      · refine ⟨?_, ?_⟩
        · rw [List.map_cons, List.nodup_cons]
          refine ⟨?_, hd.1⟩
          intro hc
          obtain ⟨x, hx, hx'⟩ := List.mem_map.1 hc
          exact hall x (by simp [hx]) hx'
        · intro x hx
          rcases List.mem_cons.1 hx with rfl | hx
          · exact Nat.lt_succ_self _
          · have := hd.2 x hx; omega

theorem dist_live (ops : List (MapOp K V)) (n : Nat) {L : List (K × Nat)} (h : Dist n L) :
    Dist (n + inserts ops) (live n L ops) := by
  induction ops generalizing n L with
  | nil => exact h
  | cons op ops ih =>
    cases op with
    | insert k v =>
      have := ih (n + 1) (dist_ins h k)
      rw [show n + 1 + inserts ops = n + (inserts ops + 1) by omega] at this
      exact this
    | remove k => exact ih n (dist_sub h List.filter_sublist)
    | clear => exact ih n ⟨by simp, by simp⟩
    | _ => exact ih n h

omit [LinearOrder K] in
theorem lift_fin {N : Nat} (l : List Nat) (h : ∀ x ∈ l, x < N) : ∃ l' : List (Fin N), l'.map Fin.val = l := by
  induction l with
  | nil => exact ⟨[], rfl⟩
  | cons x l ih =>
    obtain ⟨l', h'⟩ := ih fun y hy => h y (by simp [hy])
    exact ⟨⟨x, h x (by simp)⟩ :: l', by simp [h']⟩

/-- The state after a history, with the heights of its nodes. -/
theorem after_ok (a : Addr) (ops : List (MapOp K V)) (off : Nat → Nat) (w : Fin (inserts ops) → Word) :
    ∃ s T, after a ops off w = some s ∧ Good s T ∧
      T.map kh = (live 0 [] ops).map fun e => (e.1, (heights w e.2).val + 1) := by
  obtain ⟨s, T, h, h1, h2, h3⟩ := run_ok a (fun i => (heights w i, off i)) ops 0 (s := SkipMap.new a) (T := [])
    (good_new a) (L := []) rfl
  exact ⟨s, T, by rw [after, h1]; rfl, h2, h3⟩

/-- No history fails, and the size does not depend on the random words. -/
theorem C56_size (a : Addr) (ops : List (MapOp K V)) (off : Nat → Nat) (w : Fin (inserts ops) → Word) :
    ∃ s, after a ops off w = some s ∧ s.len = size ops := by
  obtain ⟨s, T, h1, h2, h3⟩ := after_ok a ops off w
  refine ⟨s, h1, ?_⟩
  have := congrArg List.length h3
  simp only [List.length_map] at this
  rw [h2.2.1, this]; rfl

/-- No call after a history fails; the counting code returns what the code returns. -/
theorem C56_total (a : Addr) (ops : List (MapOp K V)) (off : Nat → Nat) (w : Fin (inserts ops) → Word)
    (op : MapOp K V) (d : Draw) :
    ∃ s r, after a ops off w = some s ∧ stepC s op d = some (comparisons a ops off w op d, r) ∧
      step s op d = some r := by
  obtain ⟨s, T, h1, h2, _⟩ := after_ok a ops off w
  obtain ⟨c, r, h3, _⟩ := stepC_ok h2 op d
  refine ⟨s, r, h1, ?_, ?_⟩
  · simp [comparisons, h1, h3]
  · rw [← stepC_erase, h3]; rfl

/-! ### The expected number of comparisons -/

section
variable {ι : Type} [Fintype ι] [DecidableEq ι]

/-- The sum of the tall towers over all levels from `H` on is at most twice the sum at `H`. -/
theorem sum_tall_levels {W H m : Nat} (hm : H + m ≤ W) (L : List ι) :
    2 ^ H * ∑ w : ι → Fin (2 ^ W), ∑ i ∈ Finset.range (m + 1), tall (H + i) (L.map fun a => lz W (w a)) ≤
      2 * (L.length * Fintype.card (ι → Fin (2 ^ W))) := by
  let S : Nat → Nat := fun i => ∑ w : ι → Fin (2 ^ W), tall i (L.map fun a => lz W (w a))
  have hS : ∀ i ≤ W, 2 ^ i * S i = L.length * Fintype.card (ι → Fin (2 ^ W)) := fun i hi => sum_tall i hi L
  have hhalf : ∀ i, i + 1 ≤ W → S i = 2 * S (i + 1) := by
    intro i hi
    have h1 := hS i (by omega)
    rw [← hS (i + 1) hi, pow_succ, Nat.mul_assoc] at h1
    exact Nat.eq_of_mul_eq_mul_left (Nat.two_pow_pos i) h1
  have htel : ∀ m, H + m ≤ W → ∑ i ∈ Finset.range m, S (H + i) + 2 * S (H + m) = 2 * S H := by
    intro m
    induction m with
    | zero => intro _; simp
    | succ m ih =>
      intro hm
      have h1 := ih (by omega)
      have h2 := hhalf (H + m) (by omega)
      rw [Finset.sum_range_succ, ← Nat.add_assoc]
      omega
  rw [Finset.sum_comm]
  show 2 ^ H * ∑ i ∈ Finset.range (m + 1), S (H + i) ≤ _
  rw [← hS H (by omega), ← Nat.mul_assoc, Nat.mul_comm 2, Nat.mul_assoc]
  refine Nat.mul_le_mul_left _ ?_
  have := htel m hm
  rw [Finset.sum_range_succ]
  omega

end

/-- Averaged over all words, the call `op` after the history `ops` compares at most `3 H + 5 n / 2^H` keys, where
`n` is the number of entries, for any level `H` up to the one where the search starts. -/
theorem C56_comparisons_general (a : Addr) (ops : List (MapOp K V))
    (off : (Fin (inserts ops) → Word) → Nat → Nat) (op : MapOp K V) (d : Draw) (H : Nat)
    (hH : H ≤ topOf (size ops) op) :
    2 ^ H * ∑ w : Fin (inserts ops) → Word, comparisons a ops (off w) w op d ≤
      (3 * H * 2 ^ H + 5 * size ops) * (2 ^ 32) ^ inserts ops := by
  obtain ⟨m, hm⟩ := Nat.exists_eq_add_of_le hH
  have htop : H + m ≤ 32 := by
    rw [← hm]
    unfold topOf
    split
    · exact Nat.le_refl _
    · exact Nat.le_refl _
    · exact startHeight_le _
  have hdist : Dist (inserts ops) (live 0 [] ops) := by
    have := dist_live (K := K) (V := V) ops 0 (L := []) ⟨by simp, by simp⟩
    rwa [Nat.zero_add] at this
  obtain ⟨L, hL⟩ := lift_fin ((live 0 [] ops).map (·.2)) (fun x hx => by
    obtain ⟨e, he, rfl⟩ := List.mem_map.1 hx
    exact hdist.2 e he)
  have hdA : Dist (inserts ops) ((live 0 [] ops).filter fun e => before op e.1) := dist_sub hdist List.filter_sublist
  obtain ⟨LA, hLA⟩ := lift_fin (((live 0 [] ops).filter fun e => before op e.1).map (·.2)) (fun x hx => by
    obtain ⟨e, he, rfl⟩ := List.mem_map.1 hx
    exact hdA.2 e he)
  have hnd : LA.Nodup := by
    have := hdA.1
    rw [← hLA] at this
    exact List.Nodup.of_map _ this
  have hlen : L.length = size ops := by
    have := congrArg List.length hL
    simpa [size] using this
  -- the cost for given words
  have hcost : ∀ w : Fin (inserts ops) → Word, comparisons a ops (off w) w op d ≤
      2 * H + (∑ i ∈ Finset.range H, tail i (LA.map fun x => lz 32 (w x))) +
        tall H (L.map fun x => lz 32 (w x)) +
        2 * ∑ i ∈ Finset.range (m + 1), tall (H + i) (L.map fun x => lz 32 (w x)) := by
    intro w
    obtain ⟨s, T, h1, h2, h3⟩ := after_ok a ops (off w) w
    obtain ⟨c, r, h4, h5⟩ := stepC_ok h2 op d
    have hc : comparisons a ops (off w) w op d = c := by simp [comparisons, h1, h4]
    have hsz : s.len = size ops := by
      obtain ⟨s', h1', h2'⟩ := C56_size a ops (off w) w
      rw [h1] at h1'
      cases h1'
      exact h2'
    have h6 := opBound_le (n := s.len) (op := op) (fun t ht => (h2.1.shp.1.pos t ht).1) (by rw [hsz]; exact hm)
    have hlz : ∀ x : Fin (inserts ops), (heights w x.val).val = lz 32 (w x) := by
      intro x
      simp [heights, x.isLt]
    have hg : ∀ (L0 : List (K × Nat)) (L1 : List (Fin (inserts ops))), L1.map Fin.val = L0.map (·.2) →
        L0.map (fun e => (heights w e.2).val) = L1.map fun x => lz 32 (w x) := by
      intro L0 L1 he
      have e1 : L0.map (fun e => (heights w e.2).val) = (L0.map (·.2)).map fun i => (heights w i).val := by
        rw [List.map_map]; rfl
      rw [e1, ← he, List.map_map]
      exact List.map_congr_left fun x _ => hlz x
    have e1 : T.map dh = L.map fun x => lz 32 (w x) := by
      rw [← hg _ L hL]
      have : T.map dh = (T.map kh).map fun e => e.2 - 1 := by rw [List.map_map]; rfl
      rw [this, h3, List.map_map]
      rfl
    have e2 : (T.filter fun t => before op t.e.1).map dh = LA.map fun x => lz 32 (w x) := by
      rw [← hg _ LA hLA]
      have : (T.filter fun t => before op t.e.1).map dh =
          ((T.map kh).filter fun e => before op e.1).map fun e => e.2 - 1 := by
        rw [List.filter_map, List.map_map]; rfl
      rw [this, h3, List.filter_map, List.map_map]
      rfl
    rw [e1, e2] at h6
    rw [hc]
    exact h5.trans h6
  have hcard : (2 ^ 32) ^ inserts ops = Fintype.card (Fin (inserts ops) → Word) := by
    rw [Fintype.card_fun, Fintype.card_fin, Fintype.card_fin]
  rw [hcard]
  have hsum := Finset.sum_le_sum fun w (_ : w ∈ (Finset.univ : Finset (Fin (inserts ops) → Word))) => hcost w
  refine (Nat.mul_le_mul_left (2 ^ H) hsum).trans ?_
  rw [Finset.sum_add_distrib, Finset.sum_add_distrib, Finset.sum_add_distrib]
  have t5 : ∑ w : Fin (inserts ops) → Word,
      2 * ∑ i ∈ Finset.range (m + 1), tall (H + i) (L.map fun x => lz 32 (w x)) =
      2 * ∑ w : Fin (inserts ops) → Word, ∑ i ∈ Finset.range (m + 1), tall (H + i) (L.map fun x => lz 32 (w x)) :=
    (Finset.mul_sum _ _ _).symm
  rw [t5]
  have t1 : ∑ _w : Fin (inserts ops) → Word, 2 * H = 2 * H * Fintype.card (Fin (inserts ops) → Word) := by
    rw [Finset.sum_const_nat (m := 2 * H) fun _ _ => rfl, Finset.card_univ, Nat.mul_comm]
  have t2 : ∑ w : Fin (inserts ops) → Word, ∑ i ∈ Finset.range H, tail i (LA.map fun x => lz 32 (w x)) ≤
      H * Fintype.card (Fin (inserts ops) → Word) := by
    rw [Finset.sum_comm]
    refine (Finset.sum_le_sum (g := fun _ => Fintype.card (Fin (inserts ops) → Word)) fun i hi => ?_).trans ?_
    · rw [Finset.mem_range] at hi
      exact sum_tail_le (by omega) LA hnd
    · rw [Finset.sum_const_nat (m := Fintype.card (Fin (inserts ops) → Word)) fun _ _ => rfl, Finset.card_range]
  have t3 := sum_tall (W := 32) H (by omega) L
  have t4 := sum_tall_levels (W := 32) htop L
  rw [hlen] at t3 t4
  generalize Fintype.card (Fin (inserts ops) → Word) = c at *
  generalize (∑ w : Fin (inserts ops) → Word, ∑ i ∈ Finset.range H, tail i (LA.map fun x => lz 32 (w x))) = x2 at *
  generalize (∑ w : Fin (inserts ops) → Word, tall H (L.map fun x => lz 32 (w x))) = x3 at *
  generalize (∑ w : Fin (inserts ops) → Word,
    ∑ i ∈ Finset.range (m + 1), tall (H + i) (L.map fun x => lz 32 (w x))) = x4 at *
  rw [t1]
  clear hsum t5 t1 hcost
  have t2' := Nat.mul_le_mul_left (2 ^ H) t2
  nlinarith [t2', t3, t4]

/-- C56 for maps of fewer than `2^32` entries.  After any history, every call compares on average (over all words the
generator may deliver for the nodes of the map) at most `3 log₂ n + 8` keys. -/
theorem C56_comparisons_partial (a : Addr) (ops : List (MapOp K V))
    (off : (Fin (inserts ops) → Word) → Nat → Nat) (op : MapOp K V) (d : Draw) (hn : size ops < 2 ^ 32) :
    ∑ w : Fin (inserts ops) → Word, comparisons a ops (off w) w op d ≤
      (3 * Nat.log2 (size ops) + 8) * (2 ^ 32) ^ inserts ops := by
  have hst : startHeight (size ops) ≤ Nat.log2 (size ops) + 1 ∧ size ops ≤ 2 ^ startHeight (size ops) := by
    unfold startHeight
    rw [Nat.mod_eq_of_lt hn]
    split
    · rename_i h; simp [h]
    · exact ⟨Nat.le_refl _, Nat.lt_log2_self.le⟩
  have h1 := C56_comparisons_general a ops off op d (startHeight (size ops)) (by
    unfold topOf
    split
    · exact startHeight_le _
    · exact startHeight_le _
    · exact Nat.le_refl _)
  refine Nat.le_of_mul_le_mul_left (h1.trans ?_) (Nat.two_pow_pos (startHeight (size ops)))
  rw [← Nat.mul_assoc]
  refine Nat.mul_le_mul_right _ ?_
  generalize 2 ^ startHeight (size ops) = p at *
  nlinarith [hst.1, hst.2, Nat.mul_le_mul_left p hst.1]

/-! ### More entries than a `u32` can count -/

/-- The count of entries is cut to 32 bits (map.rs:120): if their number is a multiple of `2^32`, a search beyond the
last key starts on the bottom level and passes every entry, whatever the heights. -/
theorem C56_wraps (a : Addr) {s : SkipMap K V} (hs : (impl K V a).Reachable s) (hn : s.len % 2 ^ 32 = 0) (k : K)
    (hk : ∀ e, s.iter = some e → ∀ x ∈ e, x.1 < k) (d : Draw) :
    ∃ r, stepC s (.get k) d = some (s.len, r) := by
  obtain ⟨l, hl⟩ := (sim K V a).reachable hs
  obtain ⟨T, hT, -⟩ := hl.2
  have hk' := hk _ (iter_ok hT)
  obtain ⟨hr, hlen, -, -⟩ := hT
  have hlt : ∀ t ∈ T, t.e.1 < k := fun t ht => hk' _ (List.mem_map.2 ⟨t, ht, rfl⟩)
  have hpos : ∀ t ∈ T, 0 < t.h := fun t ht => (hr.shp.1.pos t ht).1
  have h0 : startHeight s.len = 0 := by unfold startHeight; rw [if_pos hn]
  have hch := hr.chain 0 (Nat.zero_le _)
  have hw : walkC s.mem (fun e => decide (e.1 < k)) 0 (s.len + 1) s.head =
      some (s.len, lastD s.head (lv 0 T), none) := by
    have := walkC_level (A := T) (B := []) (p := fun e => decide (e.1 < k)) (i := 0) (top := 0) (fuel := s.len + 1)
      (head := s.head) (m := s.mem)
      (fun t ht => entryAt_of_shape (hr.shp.1.tow t (by simpa using ht))) hpos (by simpa using hch)
      (by simpa using hlt) (by simp) (by omega)
    rw [curAt, if_pos rfl, steps, if_pos rfl, lv_zero hpos, List.length_map, ← hlen] at this
    rw [lv_zero hpos]
    exact this
  have hl : lookupC s.mem k (s.len + 1) (startHeight s.len) s.head = some (s.len, none) := by
    rw [h0, lookupC.eq_def]
    simp only [hw]
    rfl
  refine ⟨(s, .val none), ?_⟩
  simp only [stepC, SkipMap.getC, hl, Option.bind_eq_bind, Option.bind_some, Option.map_some, Option.map_none]

theorem live_range (m j : Nat) (L : List (Nat × Nat)) (hL : ∀ e ∈ L, e.1 < j) :
    (live j L ((List.range' j m).map fun i => (MapOp.insert i () : MapOp Nat Unit))).length = L.length + m ∧
      ∀ e ∈ live j L ((List.range' j m).map fun i => (MapOp.insert i () : MapOp Nat Unit)), e.1 < j + m := by
  induction m generalizing j L with
  | zero => exact ⟨rfl, hL⟩
  | succ m ih =>
    have hi : ins j j L = L ++ [(j, j)] := by
      clear ih
      induction L with
      | nil => rfl
      | cons e L ih =>
        have h1 := hL e (by simp)
        have h2 := ih fun x hx => hL x (by simp [hx])
        simp only [ins, not_lt_of_gt h1, if_false, h1, if_true, h2]
        rfl
    obtain ⟨h1, h2⟩ := ih (j + 1) (L ++ [(j, j)]) (by
      intro e he
      rcases List.mem_append.1 he with he | he
      · have := hL e he; omega
      · simp at he; rw [he]; exact Nat.lt_succ_self _)
    rw [List.range'_succ, List.map_cons]
    simp only [live, hi]
    refine ⟨by rw [h1]; simp; omega, fun e he => ?_⟩
    have := h2 e he
    omega

/-- C56 fails for such maps, and there are such maps: the keys `0`, …, `n - 1`, for a multiple `n` of `2^32`, with any heights at all. -/
theorem C56_violated (a : Addr) (q : Nat) (d : Draw) :
    ∃ s : SkipMap Nat Unit, (impl Nat Unit a).Reachable s ∧ s.len = 2 ^ 32 * q ∧
      ∃ r, stepC s (.get (2 ^ 32 * q)) d = some (2 ^ 32 * q, r) := by
  generalize hn : 2 ^ 32 * q = n
  obtain ⟨s, T, h, h1, h2, h3⟩ := run_ok a (fun _ => (0, 0))
    ((List.range' 0 n).map fun i => (MapOp.insert i () : MapOp Nat Unit)) 0 (s := SkipMap.new a) (T := [])
    (good_new a) (L := []) rfl
  obtain ⟨e1, e2⟩ := live_range n 0 [] (by simp)
  have hlen : s.len = n := by
    have := congrArg List.length h3
    simp only [List.length_map] at this
    rw [h2.2.1, this, e1]
    simp
  have hr : (impl Nat Unit a).Reachable s := ⟨_, h, h1⟩
  refine ⟨s, hr, hlen, ?_⟩
  have := C56_wraps a hr (by rw [hlen, ← hn]; exact Nat.mul_mod_right _ _) n (fun l hl x hx => by
    rw [iter_ok h2] at hl
    simp only [Option.some.injEq] at hl
    rw [← hl] at hx
    obtain ⟨t, ht, rfl⟩ := List.mem_map.1 hx
    have hm : kh t ∈ T.map kh := List.mem_map.2 ⟨t, ht, rfl⟩
    rw [h3] at hm
    obtain ⟨e, he, he'⟩ := List.mem_map.1 hm
    have := e2 e he
    have h5 : t.e.1 = e.1 := (congrArg Prod.fst he').symm
    show t.e.1 < n
    omega) d
  rw [hlen] at this
  exact this

/-! ### Examples -/

/-- A history to which `C56_comparisons_partial` applies. -/
def exOps : List (MapOp Nat Nat) := [.insert 3 30, .insert 1 10, .insert 2 20, .insert 1 11, .insert 9 90, .remove 9]

example : size exOps = 3 ∧ inserts exOps = 5 := by decide

example : ∑ w : Fin 5 → Word, comparisons 0 exOps (fun i => i) w (.get 3) (0, 0) ≤ 11 * (2 ^ 32) ^ 5 :=
  C56_comparisons_partial 0 exOps (fun _ i => i) (.get 3) (0, 0) (by decide)

-- two choices of words: all nodes on the bottom level only, and the node of key 2 one level higher
example : comparisons 0 exOps (fun i => i) (fun _ => ⟨2 ^ 31, by decide⟩) (.get 3) (0, 0) = 4 := by decide +kernel
example : comparisons 0 exOps (fun i => i) (fun j => if j.val = 2 then ⟨2 ^ 30, by decide⟩ else ⟨2 ^ 31, by decide⟩)
    (.get 3) (0, 0) = 3 := by decide +kernel

end Verif.Skip.Map
