/- What `get_longest_prefix` returns.  `commonLen` and `LongestPrefixAnswer` are specification; the rest is
proof machinery.  Nothing here models code. -/
import Verif.Radix.Sim

namespace Verif.Radix

variable {V : Type}

/-- The length of the longest common prefix of two byte strings. -/
def commonLen : Key → Key → Nat
  | a :: as, b :: bs => if a = b then commonLen as bs + 1 else 0
  | _, _ => 0

/-- The documented answer: exactly the stored keys that share the longest common prefix with `q`. -/
def AllLongest (K : Key → Prop) (q : Key) (res : List Key) : Prop :=
  ∀ s, s ∈ res ↔ K s ∧ ∀ s', K s' → commonLen s' q ≤ commonLen s q

/-- The actual answer for a non-empty set `K` of stored keys.  `L` is the longest common prefix length with `q`.
Either the answer is the documented one, or it is only the common prefix itself (if it is stored).  The first
happens if the common prefix is all of `q`, or if it is not stored and all the stored keys that share it go on
with the same byte; the second if it is stored, or two of those keys go on with different bytes.  If nothing at
all is shared with `q` (`L = 0`) the second may happen even if all keys start with the same byte. -/
def LongestPrefixAnswer (K : Key → Prop) (q : Key) (res : List Key) : Prop :=
  ∃ L, L ≤ q.length ∧ (∃ s, K s ∧ commonLen s q = L) ∧ (∀ s, K s → commonLen s q ≤ L) ∧
    (((∀ s, s ∈ res ↔ K s ∧ commonLen s q = L) ∧
        (L = q.length ∨ ¬ K (q.take L) ∧ ∃ c, ∀ s, K s → commonLen s q = L → s[L]? = some c)) ∨
      (L < q.length ∧ (∀ s, s ∈ res ↔ K s ∧ s = q.take L) ∧
        (K (q.take L) ∨ (∃ s s', K s ∧ K s' ∧ commonLen s q = L ∧ commonLen s' q = L ∧ s[L]? ≠ s'[L]?) ∨ L = 0)))

theorem commonLen_append (p a b : Key) : commonLen (p ++ a) (p ++ b) = p.length + commonLen a b := by
  induction p with
  | nil => simp
  | cons c p ih => simp only [List.cons_append, commonLen, if_true, ih, List.length_cons]; omega

theorem commonLen_ne {a b : Byte} (h : a ≠ b) (s t : Key) : commonLen (a :: s) (b :: t) = 0 := by
  simp [commonLen, h]

theorem commonLen_ext (p a : Key) : commonLen (p ++ a) p = p.length := by
  have := commonLen_append p a []
  have h : commonLen a [] = 0 := by cases a <;> rfl
  simpa [h] using this

theorem commonLen_self_ext (p a : Key) : commonLen p (p ++ a) = p.length := by
  have := commonLen_append p [] a
  have h : commonLen [] a = 0 := by cases a <;> rfl
  simpa [h] using this

/-! ### `pushAll` -/

theorem pushAll_eq (p : Key) (t : Tree V) : pushAll p t = (entries p t).map (·.1) := by
  induction t generalizing p with
  | nil => rfl
  | node k v next child ih1 ih2 =>
    simp only [pushAll, entries, List.map_append, ih1, ih2]
    cases v <;> simp

theorem pushAll_map (c p : Key) (t : Tree V) : pushAll (c ++ p) t = (pushAll p t).map (c ++ ·) := by
  induction t generalizing p with
  | nil => rfl
  | node k v next child ih1 ih2 =>
    simp only [pushAll, List.map_append, ih1, List.append_assoc, ih2]
    cases v <;> simp

/-- The keys at or below a node. -/
def Under (k : Key) (v : Option V) (child : Tree V) (s : Key) : Prop := atRest v (look child) (strip k s) ≠ none

theorem mem_pushNode {k : Key} {v : Option V} {child : Tree V} (hc : Wf child) (s : Key) :
    s ∈ (if v.isSome then [k] else []) ++ pushAll k child ↔ Under k v child s := by
  rw [List.mem_append, pushAll_eq, List.mem_map]
  unfold Under
  constructor
  · rintro (h | ⟨⟨q, w⟩, h, rfl⟩)
    · split at h
      · rename_i hv
        simp only [List.mem_singleton] at h; subst h
        rw [strip_self, atRest_nil]; cases v <;> simp_all
      · simp at h
    · obtain ⟨r, rfl, hr⟩ := (mem_entries hc k q w).1 h
      simp only [strip_append]
      cases r with
      | nil => rw [look_empty hc] at hr; cases hr
      | cons a r => rw [atRest_cons, hr]; simp
  · intro h
    cases e : strip k s with
    | none => rw [e] at h; exact absurd rfl h
    | some r =>
      rw [e] at h
      rw [strip_eq_some] at e; subst e
      cases r with
      | nil => left; rw [atRest_nil] at h; cases v <;> simp_all
      | cons a r =>
        right
        rw [atRest_cons] at h
        cases hl : look child (a :: r) with
        | none => exact absurd hl h
        | some w => exact ⟨(k ++ a :: r, w), (mem_entries hc k _ w).2 ⟨_, rfl, hl⟩, rfl⟩

theorem under_ext {k : Key} {v : Option V} {child : Tree V} {s : Key} (h : Under k v child s) : ∃ r, s = k ++ r := by
  unfold Under at h
  cases e : strip k s with
  | none => rw [e] at h; exact absurd rfl h
  | some r => exact ⟨r, strip_eq_some.1 e⟩

theorem sorted_pushNode {k : Key} {v : Option V} {child : Tree V} (hc : Wf child) :
    ((if v.isSome then [k] else []) ++ pushAll k child).Pairwise (· < ·) := by
  have h := sorted_entries_node (k := k) (v := v) (next := .nil) hc (sorted_entries hc) [] (by simp [entries, SL.Sorted]) (by simp [entries])
  have e : (if v.isSome then [k] else []) ++ pushAll k child = (entries [] (.node k v .nil child)).map (·.1) := by
    rw [← pushAll_eq]; cases v <;> simp [pushAll]
  rw [e, List.pairwise_map]; exact h

/-- A non-empty child list has an entry. -/
theorem exists_look {t : Tree V} (h : Wf t) (hn : t.isNil = false) : ∃ c s, look t (c :: s) ≠ none := by
  obtain ⟨⟨q, w⟩, l, hl⟩ := List.exists_cons_of_ne_nil (entries_ne_nil h hn [])
  obtain ⟨s, _, hs⟩ := (mem_entries h [] q w).1 (by rw [hl]; simp)
  cases s with
  | nil => rw [look_empty h] at hs; cases hs
  | cons c s => exact ⟨c, s, by rw [hs]; simp⟩

theorem exists_look_head {b : Byte} {k : Key} {v : Option V} {next child : Tree V}
    (h : Wf (.node (b :: k) v next child)) : ∃ s, look (.node (b :: k) v next child) (b :: s) ≠ none := by
  rcases h.2.1 with hv | hm
  · refine ⟨k, ?_⟩
    rw [look_node, strip_self, atRest_nil]
    cases v with
    | none => cases hv
    | some v => simp
  · obtain ⟨c, s, hs⟩ := exists_look h.2.2.2 (not_nil_of_multi hm)
    refine ⟨k ++ c :: s, ?_⟩
    rw [look_node, ← List.cons_append, strip_append, atRest_cons]
    simp [hs]

/-- Two children have keys that start with different bytes. -/
theorem exists_two {t : Tree V} (h : Wf t) (hm : t.multi = true) :
    ∃ c s c' s', look t (c :: s) ≠ none ∧ look t (c' :: s') ≠ none ∧ c ≠ c' := by
  cases t with
  | nil => cases hm
  | node k v next child =>
    cases k with
    | nil => exact absurd h id
    | cons b k =>
      obtain ⟨s, hs⟩ := exists_look_head h
      have hn : next.isNil = false := by simpa [Tree.multi] using hm
      obtain ⟨c, s', hs'⟩ := exists_look h.2.2.1 hn
      have hlt : b < c := by
        by_contra hle
        exact hs' (look_above h.2.2.1 h.1 (not_lt.1 hle))
      refine ⟨b, s, c, s', hs, ?_, ne_of_lt hlt⟩
      rw [look_node]
      cases e : atRest v (look child) (strip (b :: k) (c :: s')) with
      | none => simpa using hs'
      | some w => simp

/-- The answer on one node: what the body of `get_longest_prefix` pushes. -/
theorem prefixNode_spec {k : Key} {v : Option V} {child : Tree V} {q curr : Key} {sub : Option (List Key)}
    (hc : Wf child) (hk : k = [] ∨ v.isSome = true ∨ child.multi = true) (hne : ∃ s, Under k v child s)
    (hsub : ∀ y s, q.drop k.length = y :: s →
      (getChild y child = some .nil → sub = some (if v.isSome then [curr ++ k] else [])) ∧
      (∀ n, getChild y child = some n → n.isNil = false → ∃ res, sub = some (res.map ((curr ++ k) ++ ·)) ∧
        res.Pairwise (· < ·) ∧ LongestPrefixAnswer (fun r => look child r ≠ none ∧ ∃ r', r = y :: r') (y :: s) res)) :
    ∃ res, prefixNode k v child q curr sub = some (res.map (curr ++ ·)) ∧ res.Pairwise (· < ·) ∧
      LongestPrefixAnswer (Under k v child) q res := by
  have all : ∀ L, L ≤ q.length → (∀ s, Under k v child s → commonLen s q = L) →
      (L = q.length ∨ ¬ Under k v child (q.take L) ∧ ∃ c, ∀ s, Under k v child s → commonLen s q = L → s[L]? = some c) →
      ∃ res, some ((if v.isSome then [curr ++ k] else []) ++ pushAll (curr ++ k) child) = some (res.map (curr ++ ·)) ∧
        res.Pairwise (· < ·) ∧ LongestPrefixAnswer (Under k v child) q res := by
    intro L hL hall hcond
    refine ⟨(if v.isSome then [k] else []) ++ pushAll k child, ?_, sorted_pushNode hc, L, hL, ?_, ?_, .inl ⟨?_, hcond⟩⟩
    · rw [pushAll_map, List.map_append]; cases v <;> simp
    · obtain ⟨s, hs⟩ := hne; exact ⟨s, hs, hall s hs⟩
    · intro s hs; exact le_of_eq (hall s hs)
    · intro s; rw [mem_pushNode hc]; exact ⟨fun h => ⟨h, hall s h⟩, fun h => h.1⟩
  have hcase := cmpKey_case k q
  generalize hcm : cmpKey k q = cm at hcase
  unfold prefixNode
  rw [hcm]
  cases hcase with
  | split c x k y s hne' =>
    refine all c.length (by simp) (fun s' hs' => ?_) (.inr ⟨fun hu => ?_, x, fun s' hs' _ => ?_⟩)
    · obtain ⟨r, rfl⟩ := under_ext hs'
      rw [List.append_assoc, commonLen_append, List.cons_append, commonLen_ne hne']; rfl
    · obtain ⟨r, hr⟩ := under_ext hu
      have := congrArg List.length hr
      simp only [List.take_left, List.length_append, List.length_cons] at this; omega
    · obtain ⟨r, rfl⟩ := under_ext hs'
      simp
  | greater _ x k =>
    refine all q.length (Nat.le_refl _) (fun s' hs' => ?_) (.inl rfl)
    obtain ⟨r, rfl⟩ := under_ext hs'
    rw [List.append_assoc, commonLen_ext]
  | equal _ =>
    refine all k.length (Nat.le_refl _) (fun s' hs' => ?_) (.inl rfl)
    obtain ⟨r, rfl⟩ := under_ext hs'
    rw [commonLen_ext]
  | less _ y s =>
    obtain ⟨hA, hB⟩ := hsub y s (by simp)
    rcases getChild_cases hc y with hg | ⟨nk, nv, nn, nc, hg⟩
    · refine ⟨if v.isSome then [k] else [], ?_, ?_, k.length, by simp, ?_, ?_, .inr ⟨by simp, ?_, ?_⟩⟩
      · show sub = _
        rw [hA hg]; cases v <;> simp
      · cases v <;> simp
      · obtain ⟨s', hs'⟩ := hne
        refine ⟨s', hs', ?_⟩
        obtain ⟨r, rfl⟩ := under_ext hs'
        rw [commonLen_append]
        cases r with
        | nil => rfl
        | cons a r =>
          rw [commonLen_ne]; · rfl
          · rintro rfl
            unfold Under at hs'
            rw [strip_append, atRest_cons, look_of_getChild_nil hc hg] at hs'
            exact hs' rfl
      · intro s' hs'
        obtain ⟨r, rfl⟩ := under_ext hs'
        rw [commonLen_append]
        cases r with
        | nil => exact Nat.le_refl _
        | cons a r =>
          rw [commonLen_ne]; · exact Nat.le_refl _
          · rintro rfl
            unfold Under at hs'
            rw [strip_append, atRest_cons, look_of_getChild_nil hc hg] at hs'
            exact hs' rfl
      · intro s'
        rw [List.take_left]
        constructor
        · intro h
          split at h
          · rename_i hv
            simp only [List.mem_singleton] at h; subst h
            refine ⟨?_, rfl⟩
            unfold Under; rw [strip_self, atRest_nil]; cases v <;> simp_all
          · simp at h
        · rintro ⟨h, rfl⟩
          unfold Under at h; rw [strip_self, atRest_nil] at h
          cases v <;> simp_all
      · rw [List.take_left]
        rcases hk with hk | hv | hm
        · exact .inr (.inr (by rw [hk]; rfl))
        · left; unfold Under; rw [strip_self, atRest_nil]; cases v <;> simp_all
        · right; left
          obtain ⟨c, s1, c', s2, h1, h2, h3⟩ := exists_two hc hm
          have key : ∀ c s1, look child (c :: s1) ≠ none → commonLen (k ++ c :: s1) (k ++ y :: s) = k.length := by
            intro c s1 h1
            rw [commonLen_append, commonLen_ne]; · rfl
            · rintro rfl; exact h1 (look_of_getChild_nil hc hg s1)
          refine ⟨k ++ c :: s1, k ++ c' :: s2, ?_, ?_, key c s1 h1, key c' s2 h2, ?_⟩
          · unfold Under; rw [strip_append]; exact h1
          · unfold Under; rw [strip_append]; exact h2
          · simp [h3]
    · obtain ⟨res, hres, hsort, L, hL, ⟨s0, ⟨hs0, r0, rfl⟩, hlen0⟩, hmax, hcases⟩ := hB _ hg rfl
      have hL1 : 1 ≤ L := by rw [← hlen0]; simp [commonLen]
      have hU : ∀ r, Under k v child (k ++ y :: r) ↔ look child (y :: r) ≠ none := by
        intro r; unfold Under; rw [strip_append, atRest_cons]
      -- a stored key with common length at least `k.length + 1` goes on with `y`
      have hgo : ∀ s', Under k v child s' → commonLen s' (k ++ y :: s) = k.length + L →
          ∃ r, s' = k ++ y :: r ∧ look child (y :: r) ≠ none ∧ commonLen (y :: r) (y :: s) = L := by
        intro s' hs' hlen
        obtain ⟨r, rfl⟩ := under_ext hs'
        rw [commonLen_append] at hlen
        cases r with
        | nil => have : commonLen [] (y :: s) = 0 := rfl
                 omega
        | cons a r =>
          by_cases ha : a = y
          · subst ha; exact ⟨r, rfl, (hU r).1 hs', by omega⟩
          · rw [commonLen_ne ha] at hlen; omega
      have htake : (k ++ y :: s).take (k.length + L) = k ++ (y :: s).take L :=
        List.take_length_add_append _
      have htake' : ∃ r, (y :: s).take L = y :: r := by
        obtain ⟨L', rfl⟩ := Nat.exists_eq_add_of_le hL1
        rw [Nat.add_comm]; exact ⟨s.take L', rfl⟩
      have hgetE : ∀ r : Key, (k ++ r)[k.length + L]? = r[L]? := by
        intro r; rw [List.getElem?_append_right (by omega)]; congr 1; omega
      refine ⟨res.map (k ++ ·), ?_, ?_, k.length + L, by simp at hL ⊢; omega, ?_, ?_, ?_⟩
      · show sub = _
        rw [hres]; simp [Function.comp_def]
      · rw [List.pairwise_map]; exact hsort.imp fun h => lt_append k h
      · exact ⟨k ++ y :: r0, (hU r0).2 hs0, by rw [commonLen_append, hlen0]⟩
      · intro s' hs'
        obtain ⟨r, rfl⟩ := under_ext hs'
        rw [commonLen_append]
        cases r with
        | nil => have : commonLen [] (y :: s) = 0 := rfl
                 omega
        | cons a r =>
          by_cases ha : a = y
          · subst ha; have := hmax (a :: r) ⟨(hU r).1 hs', r, rfl⟩; omega
          · rw [commonLen_ne ha]; omega
      · rcases hcases with ⟨hmem, hcond⟩ | ⟨hlt, hmem, hcond⟩
        · left
          refine ⟨fun s' => ?_, ?_⟩
          · rw [List.mem_map]
            constructor
            · rintro ⟨r, hr, rfl⟩
              obtain ⟨⟨h1, r', rfl⟩, h2⟩ := (hmem r).1 hr
              exact ⟨(hU r').2 h1, by rw [commonLen_append, h2]⟩
            · rintro ⟨h1, h2⟩
              obtain ⟨r, rfl, h3, h4⟩ := hgo s' h1 h2
              exact ⟨y :: r, (hmem _).2 ⟨⟨h3, r, rfl⟩, h4⟩, rfl⟩
          · rcases hcond with h | ⟨h, c, hc'⟩
            · left; simp [h]
            · right
              refine ⟨fun hu => h ?_, c, fun s' hs' hl => ?_⟩
              · rw [htake] at hu
                obtain ⟨r, hr⟩ := htake'
                rw [hr] at hu ⊢
                exact ⟨(hU r).1 hu, r, rfl⟩
              · obtain ⟨r, rfl, h3, h4⟩ := hgo s' hs' hl
                rw [hgetE]; exact hc' _ ⟨h3, r, rfl⟩ h4
        · right
          refine ⟨by simp at hlt ⊢; omega, fun s' => ?_, ?_⟩
          · rw [List.mem_map, htake]
            constructor
            · rintro ⟨r, hr, rfl⟩
              obtain ⟨⟨h1, r', rfl⟩, h2⟩ := (hmem r).1 hr
              exact ⟨(hU r').2 h1, by rw [h2]⟩
            · rintro ⟨h1, rfl⟩
              obtain ⟨r, hr⟩ := htake'
              rw [hr] at h1 ⊢
              exact ⟨y :: r, (hmem _).2 ⟨⟨(hU r).1 h1, r, rfl⟩, hr.symm⟩, rfl⟩
          · rcases hcond with ⟨h, _⟩ | ⟨s1, s2, ⟨h1, r1, rfl⟩, ⟨h2, r2, rfl⟩, h3, h4, h5⟩ | h
            · left; rw [htake]
              obtain ⟨r, hr⟩ := htake'
              rw [hr] at h ⊢
              exact (hU r).2 h
            · right; left
              refine ⟨k ++ y :: r1, k ++ y :: r2, (hU r1).2 h1, (hU r2).2 h2, ?_, ?_, ?_⟩
              · rw [commonLen_append, h3]
              · rw [commonLen_append, h4]
              · rw [hgetE, hgetE]; exact h5
            · omega

/-- The keys of a sibling list that start with `y` are those at or below the node starting with `y`. -/
theorem under_of_head {d : Byte} {k : Key} {v : Option V} {next child : Tree V}
    (h : Wf (.node (d :: k) v next child)) (s : Key) :
    (look (.node (d :: k) v next child) s ≠ none ∧ ∃ r, s = d :: r) ↔ Under (d :: k) v child s := by
  constructor
  · rintro ⟨h1, r, rfl⟩
    rw [look_node, look_above h.2.2.1 h.1 (le_refl d), Option.or_none] at h1
    exact h1
  · intro hu
    obtain ⟨r, rfl⟩ := under_ext hu
    refine ⟨?_, k ++ r, rfl⟩
    rw [look_node]
    unfold Under at hu
    intro e
    rw [Option.or_eq_none_iff] at e
    exact hu e.1

theorem answer_congr {K K' : Key → Prop} (h : ∀ s, K s ↔ K' s) {q : Key} {res : List Key} :
    LongestPrefixAnswer K q res ↔ LongestPrefixAnswer K' q res := by
  have : K = K' := funext fun s => propext (h s)
  rw [this]

theorem prefixIn_spec {t : Tree V} (h : Wf t) (y : Byte) (s curr : Key) (other : List Key) :
    (getChild y t = some .nil → prefixIn (y :: s) curr other t = some other) ∧
    (∀ n, getChild y t = some n → n.isNil = false → ∃ res, prefixIn (y :: s) curr other t = some (res.map (curr ++ ·)) ∧
      res.Pairwise (· < ·) ∧ LongestPrefixAnswer (fun r => look t r ≠ none ∧ ∃ r', r = y :: r') (y :: s) res) := by
  induction t generalizing y s curr other with
  | nil =>
    refine ⟨fun _ => rfl, fun n hn hn' => ?_⟩
    simp [getChild] at hn; subst hn; cases hn'
  | node k v next child ih1 ih2 =>
    cases k with
    | nil => exact absurd h id
    | cons d k =>
      simp only [getChild]
      unfold prefixIn
      by_cases hd : d = y
      · subst hd
        simp only [ne_eq, not_true_eq_false, if_false]
        refine ⟨fun h => by simp at h, fun n _ _ => ?_⟩
        have hne : ∃ s, Under (d :: k) v child s := by
          obtain ⟨r, hr⟩ := exists_look_head h
          exact ⟨d :: r, (under_of_head h _).1 ⟨hr, r, rfl⟩⟩
        obtain ⟨res, h1, h2, h3⟩ := prefixNode_spec (k := d :: k) (v := v) (child := child) (q := d :: s) (curr := curr)
          (sub := prefixIn ((d :: s).drop (d :: k).length) (curr ++ d :: k) (if v.isSome then [curr ++ d :: k] else []) child)
          h.2.2.2 (.inr h.2.1) hne (by
            intro y s' he
            rw [he]
            exact ih2 h.2.2.2 y s' (curr ++ d :: k) _)
        exact ⟨res, h1, h2, (answer_congr (under_of_head h)).2 h3⟩
      · simp only [ne_eq, hd, not_false_eq_true, if_true]
        obtain ⟨i1, i2⟩ := ih1 h.2.2.1 y s curr other
        refine ⟨i1, fun n hg hn => ?_⟩
        obtain ⟨res, h1, h2, h3⟩ := i2 n hg hn
        refine ⟨res, h1, h2, (answer_congr fun r => ?_).1 h3⟩
        refine and_congr_left ?_
        rintro ⟨r', rfl⟩
        rw [look_node]; simp [strip, hd]

theorem longestPrefix_spec {t : Tree V} (h : RootOk t) (q : Key) :
    ∃ res, longestPrefix q t = some res ∧ res.Pairwise (· < ·) ∧
      ((∀ s, look t s = none) → res = []) ∧
      ((∃ s, look t s ≠ none) → LongestPrefixAnswer (fun s => look t s ≠ none) q res) := by
  cases t with
  | nil => exact ⟨[], rfl, by simp, fun _ => rfl, fun ⟨s, hs⟩ => absurd rfl hs⟩
  | node k v next child =>
    obtain ⟨rfl, hc, hk⟩ := h
    have hu : ∀ s, Under k v child s ↔ look (.node k v .nil child) s ≠ none := by
      intro s; unfold Under; rw [look_node, look_nil, Option.or_none]
    by_cases hne : ∃ s, Under k v child s
    · obtain ⟨res, h1, h2, h3⟩ := prefixNode_spec (k := k) (v := v) (child := child) (q := q) (curr := [])
        (sub := prefixIn (q.drop k.length) k (if v.isSome then [k] else []) child) hc hk hne (by
          intro y s' he
          rw [he]
          exact prefixIn_spec hc y s' k _)
      refine ⟨res, ?_, h2, fun hall => ?_, fun _ => (answer_congr hu).1 h3⟩
      · rw [longestPrefix, h1]; simp
      · obtain ⟨s, hs⟩ := hne
        exact absurd (hall s) ((hu s).1 hs)
    · have hv : v = none := by
        cases v with
        | none => rfl
        | some v => exact absurd ⟨k, by unfold Under; simp⟩ hne
      have hch : child = .nil := by
        cases hcn : child.isNil with
        | true => cases child <;> simp_all [Tree.isNil]
        | false =>
          obtain ⟨c, s, hs⟩ := exists_look hc hcn
          exact absurd ⟨k ++ c :: s, by unfold Under; rw [strip_append]; exact hs⟩ hne
      subst hv hch
      refine ⟨[], ?_, by simp, fun _ => rfl, fun ⟨s, hs⟩ => absurd ⟨s, (hu s).2 hs⟩ hne⟩
      rw [longestPrefix, prefixNode]
      cases hcm : cmpKey k q with
      | less =>
        have hcase := cmpKey_case k q
        rw [hcm] at hcase
        cases hcase with
        | less _ y s => simp [prefixIn]
      | _ => simp [pushAll]

end Verif.Radix
