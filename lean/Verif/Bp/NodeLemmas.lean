/- The array operations of `Verif/Bp/Node.lean` on arrays that hold a list followed by empty slots. -/
import Mathlib.Data.Nat.Basic
import Verif.Bp.Node
import Verif.Lib.SortedList

namespace Verif.Bp

variable {K V : Type}

/-- A list in an array of length `n`. -/
def pad {α : Type} (n : Nat) (z : α) (l : List α) : List α := l ++ List.replicate (n - l.length) z

def encLeaf (ld : Nat) (es : List (K × V)) (nxt : Option Nat) : LNode K V :=
  ⟨es.length, pad ld none (es.map some), nxt⟩

def encInt (id : Nat) (ks : List K) (ps : List Nat) : INode K :=
  ⟨ks.length, pad id none (ks.map some), pad (id + 1) 0 ps⟩

theorem pad_length {α : Type} {n : Nat} {z : α} {l : List α} (h : l.length ≤ n) : (pad n z l).length = n := by
  simp [pad]; omega

theorem pad_get_lt {α : Type} {n : Nat} {z : α} {l : List α} {i : Nat} (h : i < l.length) :
    (pad n z l)[i]? = l[i]? := by
  rw [pad, List.getElem?_append_left h]

theorem pad_get_ge {α : Type} {n : Nat} {z : α} {l : List α} {i : Nat} (h : l.length ≤ i) (h2 : i < n) :
    (pad n z l)[i]? = some z := by
  rw [pad, List.getElem?_append_right h, List.getElem?_replicate, if_pos (by omega)]

theorem pad_room {α : Type} {n : Nat} {z : α} {l : List α} (h : l.length < n) :
    pad n z l = l ++ z :: List.replicate (n - l.length - 1) z := by
  rw [pad]
  have : n - l.length = (n - l.length - 1) + 1 := by omega
  rw [this, List.replicate_succ]; simp

theorem pad_full {α : Type} {n : Nat} {z : α} {l : List α} (h : n ≤ l.length) : pad n z l = l := by
  simp [pad, Nat.sub_eq_zero_of_le h]

theorem pad_take {α : Type} {n : Nat} {z : α} {l : List α} : (pad n z l).take l.length = l := by
  simp [pad]

theorem pad_drop {α : Type} {n : Nat} {z : α} {l : List α} :
    (pad n z l).drop l.length = List.replicate (n - l.length) z := by
  simp [pad]

theorem pad_append_one {α : Type} {n : Nat} {z : α} {l r : List α} (h : l.length + r.length = n) :
    pad n z l = l ++ List.replicate r.length z := by
  rw [pad]; congr 2; omega

theorem bubble_cons {α : Type} (x : α) (l : List α) : bubble (x :: l) = l ++ [x] := by
  rw [bubble]
  induction l with
  | nil => rfl
  | cons y l ih => simp [carry, ih]

theorem takeLast_snoc {α : Type} (z x : α) (l : List α) : takeLast z (l ++ [x]) = some (l ++ [z], x) := by
  induction l with
  | nil => rfl
  | cons y l ih =>
    cases l with
    | nil => simp [takeLast]
    | cons w l => simp only [List.cons_append] at ih; simp [takeLast, ih]

theorem get_left {α : Type} {l r : List α} {i : Nat} (h : i < l.length) :
    ((l ++ r).map some)[i]? = some (some l[i]) := by
  rw [List.getElem?_map, List.getElem?_append_left h, List.getElem?_eq_getElem h]; rfl

theorem get_right {α : Type} {l r : List α} {i : Nat} (h : l.length ≤ i) (h' : i - l.length < r.length) :
    ((l ++ r).map some)[i]? = some (some r[i - l.length]) := by
  rw [List.getElem?_map, List.getElem?_append_right h, List.getElem?_eq_getElem h']; rfl

section search
variable [LinearOrder K]

theorem searchLoop_eq {keys : List (Option K)} {key : K} {c : Nat}
    (h1 : ∀ i, i < c → ∃ a, keys[i]? = some (some a) ∧ a ≤ key)
    (h2 : ∀ i, c ≤ i → i < keys.length → keys[i]? = some none ∨ ∃ a, keys[i]? = some (some a) ∧ key < a) :
    ∀ f lo hi, lo ≤ c → c ≤ hi → hi ≤ keys.length → hi - lo < f → searchLoop keys key f lo hi = some c := by
  intro f
  induction f with
  | zero => intro lo hi _ _ _ h; omega
  | succ f ih =>
    intro lo hi hlo hhi hle hf
    rw [searchLoop]
    by_cases h : lo < hi
    · rw [if_pos h]
      have hm : lo + (hi - 1 - lo) / 2 < hi := by omega
      have hm2 : lo ≤ lo + (hi - 1 - lo) / 2 := by omega
      generalize lo + (hi - 1 - lo) / 2 = mid at hm hm2
      by_cases hc : mid < c
      · obtain ⟨a, e1, e2⟩ := h1 mid hc
        simp only [e1, e2, if_true]
        exact ih _ _ (by omega) hhi hle (by omega)
      · rcases h2 mid (by omega) (by omega) with e1 | ⟨a, e1, e2⟩
        · simp only [e1]; exact ih _ _ hlo (by omega) (by omega) (by omega)
        · simp only [e1, not_le.2 e2, if_false]; exact ih _ _ hlo (by omega) (by omega) (by omega)
    · rw [if_neg h]; congr 1; omega

theorem search_encInt {id : Nat} {kl kr : List K} {ps : List Nat} {key : K} (hid : 1 ≤ id)
    (hlen : (kl ++ kr).length ≤ id) (hl : ∀ a ∈ kl, a ≤ key) (hr : ∀ a ∈ kr, key < a) :
    (encInt id (kl ++ kr) ps).search key = some kl.length := by
  have hL : (pad id none ((kl ++ kr).map some) : List (Option K)).length = id := pad_length (by simpa using hlen)
  rw [INode.search]
  simp only [encInt, hL]
  rw [if_neg (by omega)]
  refine searchLoop_eq ?_ ?_ _ _ _ (by omega) (by simp at hlen; omega) (by omega) (by omega)
  · intro i hi
    refine ⟨kl[i], ?_, hl _ (List.getElem_mem hi)⟩
    rw [pad_get_lt (by simp; omega), get_left hi]
  · intro i hi hi2
    rw [hL] at hi2
    by_cases h : i < (kl ++ kr).length
    · right
      have h' : i - kl.length < kr.length := by simp at h; omega
      refine ⟨kr[i - kl.length], ?_, hr _ (List.getElem_mem h')⟩
      rw [pad_get_lt (by simpa using h), get_right hi h']
    · left; exact pad_get_ge (by simpa using h) hi2

theorem leafSearchLoop_none {es : List (Option (K × V))} {key : K} {c : Nat}
    (h1 : ∀ i, i < c → ∃ a, es[i]? = some (some a) ∧ a.1 < key)
    (h2 : ∀ i, c ≤ i → i < es.length → es[i]? = some none ∨ ∃ a, es[i]? = some (some a) ∧ key < a.1) :
    ∀ f lo hi, lo ≤ c → c ≤ hi → hi ≤ es.length → hi - lo < f → leafSearchLoop es key f lo hi = some none := by
  intro f
  induction f with
  | zero => intro lo hi _ _ _ h; omega
  | succ f ih =>
    intro lo hi hlo hhi hle hf
    rw [leafSearchLoop]
    by_cases h : lo < hi
    · rw [if_pos h]
      have hm : lo + (hi - 1 - lo) / 2 < hi := by omega
      have hm2 : lo ≤ lo + (hi - 1 - lo) / 2 := by omega
      generalize lo + (hi - 1 - lo) / 2 = mid at hm hm2
      by_cases hc : mid < c
      · obtain ⟨a, e1, e2⟩ := h1 mid hc
        simp only [e1, e2, if_true]
        exact ih _ _ (by omega) hhi hle (by omega)
      · rcases h2 mid (by omega) (by omega) with e1 | ⟨a, e1, e2⟩
        · simp only [e1]; exact ih _ _ hlo (by omega) (by omega) (by omega)
        · simp only [e1, not_lt.2 (le_of_lt e2), if_false, ne_of_gt e2]
          exact ih _ _ hlo (by omega) (by omega) (by omega)
    · rw [if_neg h]

theorem leafSearchLoop_some {es : List (Option (K × V))} {key : K} {c : Nat}
    (h0 : ∃ v, es[c]? = some (some (key, v)))
    (h1 : ∀ i, i < c → ∃ a, es[i]? = some (some a) ∧ a.1 < key)
    (h2 : ∀ i, c < i → i < es.length → es[i]? = some none ∨ ∃ a, es[i]? = some (some a) ∧ key < a.1) :
    ∀ f lo hi, lo ≤ c → c < hi → hi ≤ es.length → hi - lo < f →
      leafSearchLoop es key f lo hi = some (some c) := by
  intro f
  induction f with
  | zero => intro lo hi _ _ _ h; omega
  | succ f ih =>
    intro lo hi hlo hhi hle hf
    rw [leafSearchLoop]
    rw [if_pos (by omega)]
    have hm : lo + (hi - 1 - lo) / 2 < hi := by omega
    have hm2 : lo ≤ lo + (hi - 1 - lo) / 2 := by omega
    generalize lo + (hi - 1 - lo) / 2 = mid at hm hm2
    rcases Nat.lt_trichotomy mid c with hc | hc | hc
    · obtain ⟨a, e1, e2⟩ := h1 mid hc
      simp only [e1, e2, if_true]
      exact ih _ _ (by omega) hhi hle (by omega)
    · subst hc
      obtain ⟨v, e⟩ := h0
      simp [e]
    · rcases h2 mid (by omega) (by omega) with e1 | ⟨a, e1, e2⟩
      · simp only [e1]; exact ih _ _ hlo (by omega) (by omega) (by omega)
      · simp only [e1, not_lt.2 (le_of_lt e2), if_false, ne_of_gt e2]
        exact ih _ _ hlo (by omega) (by omega) (by omega)

theorem search_encLeaf_none {ld : Nat} {el er : List (K × V)} {nxt} {key : K} (hld : 1 ≤ ld)
    (hlen : (el ++ er).length ≤ ld) (hl : ∀ a ∈ el, a.1 < key) (hr : ∀ a ∈ er, key < a.1) :
    (encLeaf ld (el ++ er) nxt).search key = some none := by
  have hL : (pad ld none ((el ++ er).map some) : List (Option (K × V))).length = ld :=
    pad_length (by simpa using hlen)
  rw [LNode.search]
  simp only [encLeaf, hL]
  rw [if_neg (by omega)]
  refine leafSearchLoop_none (c := el.length) ?_ ?_ _ _ _ (by omega) (by simp at hlen; omega) (by omega) (by omega)
  · intro i hi
    refine ⟨el[i], ?_, hl _ (List.getElem_mem hi)⟩
    rw [pad_get_lt (by simp; omega), get_left hi]
  · intro i hi hi2
    rw [hL] at hi2
    by_cases h : i < (el ++ er).length
    · right
      have h' : i - el.length < er.length := by simp at h; omega
      refine ⟨er[i - el.length], ?_, hr _ (List.getElem_mem h')⟩
      rw [pad_get_lt (by simpa using h), get_right hi h']
    · left; exact pad_get_ge (by simpa using h) hi2

theorem search_encLeaf_some {ld : Nat} {el er : List (K × V)} {v : V} {nxt} {key : K}
    (hlen : (el ++ (key, v) :: er).length ≤ ld) (hl : ∀ a ∈ el, a.1 < key) (hr : ∀ a ∈ er, key < a.1) :
    (encLeaf ld (el ++ (key, v) :: er) nxt).search key = some (some el.length) := by
  have hL : (pad ld none ((el ++ (key, v) :: er).map some) : List (Option (K × V))).length = ld :=
    pad_length (by simpa using hlen)
  simp at hlen
  rw [LNode.search]
  simp only [encLeaf, hL]
  rw [if_neg (by omega)]
  refine leafSearchLoop_some (c := el.length) ?_ ?_ ?_ _ _ _ (by omega) (by omega) (by omega) (by omega)
  · refine ⟨v, ?_⟩
    rw [pad_get_lt (by simp)]; simp
  · intro i hi
    refine ⟨el[i], ?_, hl _ (List.getElem_mem hi)⟩
    rw [pad_get_lt (by simp; omega), get_left hi]
  · intro i hi hi2
    rw [hL] at hi2
    by_cases h : i < (el ++ (key, v) :: er).length
    · right
      have h' : i - el.length - 1 < er.length := by simp at h; omega
      refine ⟨er[i - el.length - 1], ?_, hr _ (List.getElem_mem h')⟩
      rw [pad_get_lt (by simpa using h)]
      have e : i = el.length + ((i - el.length - 1) + 1) := by omega
      rw [List.map_append, List.getElem?_append_right (by simp; omega)]
      have e2 : i - (List.map some el).length = (i - el.length - 1) + 1 := by simp; omega
      rw [e2]; simp [h']
    · left; exact pad_get_ge (by simpa using h) hi2

end search

section insertInt
variable [LinearOrder K]

theorem insertRight_lt {k : K} {p q : Nat} {kr : List K} {pr : List Nat} {rk rp}
    (hlen : pr.length = kr.length) (hk : ∀ a ∈ kr, k < a) (hs : kr.Pairwise (· < ·)) :
    insertRight k p (kr.map some ++ none :: rk) (pr ++ q :: rp) =
      some (some k :: kr.map some ++ rk, p :: pr ++ rp) := by
  induction kr generalizing k p pr with
  | nil =>
    cases pr with
    | nil => rfl
    | cons => simp at hlen
  | cons a kr ih =>
    cases pr with
    | nil => simp at hlen
    | cons b pr =>
      simp only [List.map_cons, List.cons_append, insertRight]
      rw [if_pos (hk a (by simp)), ih (by simpa using hlen) (List.pairwise_cons.1 hs).1 (List.pairwise_cons.1 hs).2]
      rfl

theorem insertRight_mid {k : K} {p q : Nat} {kl kr : List K} {pl pr : List Nat} {rk rp}
    (hlen : pl.length = kl.length) (hlen2 : pr.length = kr.length) (hl : ∀ a ∈ kl, a ≤ k)
    (hk : ∀ a ∈ kr, k < a) (hs : kr.Pairwise (· < ·)) :
    insertRight k p ((kl ++ kr).map some ++ none :: rk) (pl ++ pr ++ q :: rp) =
      some ((kl ++ k :: kr).map some ++ rk, pl ++ p :: pr ++ rp) := by
  induction kl generalizing pl with
  | nil =>
    cases pl with
    | nil => simpa using insertRight_lt hlen2 hk hs
    | cons => simp at hlen
  | cons a kl ih =>
    cases pl with
    | nil => simp at hlen
    | cons b pl =>
      simp only [List.map_cons, List.cons_append, insertRight]
      rw [if_neg (not_lt.2 (hl a (by simp))), ih (by simpa using hlen) fun x hx => hl x (by simp [hx])]
      simp

theorem insert_encInt {id : Nat} {k : K} {p : Nat} {kl kr : List K} {pl pr : List Nat}
    (hlen : pl.length = kl.length + 1) (hlen2 : pr.length = kr.length) (hl : ∀ a ∈ kl, a ≤ k)
    (hk : ∀ a ∈ kr, k < a) (hs : kr.Pairwise (· < ·)) (hroom : (kl ++ kr).length < id) :
    (encInt id (kl ++ kr) (pl ++ pr)).insert k p = some (encInt id (kl ++ k :: kr) (pl ++ p :: pr), none) := by
  have hL : (pad id none ((kl ++ kr).map some) : List (Option K)).length = id := pad_length (by (try simp); (try simp at hroom); (try simp at hfull); (try simp at hle); omega)
  cases pl with
  | nil => simp at hlen
  | cons p0 pl =>
    simp only [INode.insert]
    rw [if_pos (by simpa only [encInt, hL] using hroom)]
    simp only [encInt]
    rw [pad_room (n := id) (l := (kl ++ kr).map some) (by (try simp); (try simp at hroom); (try simp at hfull); (try simp at hle); omega),
      pad_room (n := id + 1) (l := p0 :: pl ++ pr) (by simp at hroom hlen ⊢; omega)]
    simp only [List.cons_append]
    rw [insertRight_mid (by simpa using hlen) hlen2 hl hk hs]
    simp at hroom hlen
    simp [pad]
    refine ⟨by omega, by omega, by omega⟩

theorem insertLeft_lt {k : K} {p z : Nat} {ks : List K} {ps : List Nat} {rk rp}
    (hlen : ps.length = ks.length + 1) (hk : ∀ a ∈ ks, k < a) (hs : ks.Pairwise (· < ·)) :
    insertLeft k p (ks.map some ++ none :: rk) (ps ++ z :: rp) =
      some (some k :: ks.map some ++ rk, p :: ps ++ rp) := by
  induction ks generalizing k p ps with
  | nil =>
    match ps with
    | [] => simp at hlen
    | [q] => rfl
    | _ :: _ :: _ => simp at hlen
  | cons a kr ih =>
    cases ps with
    | nil => simp at hlen
    | cons b pr =>
      simp only [List.map_cons, List.cons_append, insertLeft]
      rw [if_pos (hk a (by simp)), ih (by simpa using hlen) (List.pairwise_cons.1 hs).1 (List.pairwise_cons.1 hs).2]
      rfl

theorem insertFirst_encInt {id : Nat} {k : K} {p : Nat} {ks : List K} {ps : List Nat}
    (hlen : ps.length = ks.length + 1) (hk : ∀ a ∈ ks, k < a) (hs : ks.Pairwise (· < ·)) (hroom : ks.length < id) :
    (encInt id ks ps).insertFirst k p = some (encInt id (k :: ks) (p :: ps)) := by
  have hL : (pad id none (ks.map some) : List (Option K)).length = id := pad_length (by (try simp); (try simp at hroom); (try simp at hfull); (try simp at hle); omega)
  simp only [INode.insertFirst]
  rw [if_pos (by simpa only [encInt, hL] using hroom)]
  simp only [encInt]
  rw [pad_room (n := id) (l := ks.map some) (by (try simp); (try simp at hroom); (try simp at hfull); (try simp at hle); omega),
    pad_room (n := id + 1) (l := ps) (by (try simp); (try simp at hroom); (try simp at hfull); (try simp at hle); omega), insertLeft_lt hlen hk hs]
  simp [pad]
  refine ⟨by omega, by omega⟩

/-- What stays in the array when the elements from position `c` on are moved away. -/
def keep {α : Type} (z : α) (c : Nat) (l : List α) : List α := l.take c ++ List.replicate (l.length - c) z

theorem keep_succ {α : Type} (z a : α) (c : Nat) (l : List α) : keep z (c + 1) (a :: l) = a :: keep z c l := by
  simp [keep]

theorem keep_zero {α : Type} (z a : α) (l : List α) : keep z 0 (a :: l) = z :: keep z 0 l := by
  simp [keep, List.replicate_succ]

/-- The outcome of `splitLoop` when the array with the new element is `l ++ [last]`. -/
def splitRes (c : Nat) (ks : List K) (ps : List Nat) (k : K) (p : Nat) : Moved K :=
  ⟨keep none c (ks.map some), keep 0 c ps, (ks.map some).drop c, ps.drop c, k, p⟩

theorem splitRes_cons {half i : Nat} {a : K} {q : Nat} {ks ps k p} :
    splitRes (half + 1 - i) (a :: ks) (q :: ps) k p =
      let m := splitRes (half + 1 - (i + 1)) ks ps k p
      if half < i then ⟨none :: m.keys, 0 :: m.ptrs, some a :: m.mkeys, q :: m.mptrs, m.k, m.p⟩
      else ⟨some a :: m.keys, q :: m.ptrs, m.mkeys, m.mptrs, m.k, m.p⟩ := by
  by_cases h : half < i
  · have e1 : half + 1 - i = 0 := by omega
    have e2 : half + 1 - (i + 1) = 0 := by omega
    simp [splitRes, e1, e2, h, keep_zero]
  · have e1 : half + 1 - i = (half + 1 - (i + 1)) + 1 := by omega
    simp only [h, if_false, e1]
    simp [splitRes, keep_succ]

theorem splitLoop_lt {half : Nat} {k : K} {p i : Nat} {kr : List K} {pr : List Nat} {ks ps lk lp}
    (hlen : pr.length = kr.length) (hk : ∀ a ∈ kr, k < a) (hs : kr.Pairwise (· < ·))
    (ek : k :: kr = ks ++ [lk]) (ep : p :: pr = ps ++ [lp]) :
    splitLoop half k p i (kr.map some) pr = some (splitRes (half + 1 - i) ks ps lk lp) := by
  induction kr generalizing k p pr i ks ps with
  | nil =>
    cases pr with
    | nil =>
      have h1 : ks = [] := by cases ks <;> simp_all
      have h2 : ps = [] := by cases ps <;> simp_all
      subst h1 h2
      simp at ek ep
      simp [splitLoop, splitRes, keep, ek, ep]
    | cons => simp at hlen
  | cons a kr ih =>
    cases pr with
    | nil => simp at hlen
    | cons b pr =>
      cases ks with
      | nil => simp at ek
      | cons x ks =>
        cases ps with
        | nil => simp at ep
        | cons y ps =>
          simp only [List.cons_append, List.cons.injEq] at ek ep
          obtain ⟨rfl, ek⟩ := ek
          obtain ⟨rfl, ep⟩ := ep
          have hka := hk a (by simp)
          have := ih (k := a) (p := b) (i := i + 1) (by simpa using hlen) (List.pairwise_cons.1 hs).1
            (List.pairwise_cons.1 hs).2 ek ep
          simp only [List.map_cons, splitLoop, hka, decide_true, if_true, Option.getD_some, this, Option.map_some,
            splitRes_cons]

theorem splitLoop_mid {half : Nat} {k : K} {p i : Nat} {kl kr : List K} {pl pr : List Nat} {ks ps lk lp}
    (hlen : pl.length = kl.length) (hlen2 : pr.length = kr.length) (hl : ∀ a ∈ kl, a ≤ k) (hk : ∀ a ∈ kr, k < a)
    (hs : kr.Pairwise (· < ·))
    (ek : kl ++ k :: kr = ks ++ [lk]) (ep : pl ++ p :: pr = ps ++ [lp]) :
    splitLoop half k p i ((kl ++ kr).map some) (pl ++ pr) = some (splitRes (half + 1 - i) ks ps lk lp) := by
  induction kl generalizing pl i ks ps with
  | nil =>
    cases pl with
    | nil => exact splitLoop_lt hlen2 hk hs ek ep
    | cons => simp at hlen
  | cons a kl ih =>
    cases pl with
    | nil => simp at hlen
    | cons b pl =>
      cases ks with
      | nil => simp at ek
      | cons x ks =>
        cases ps with
        | nil => simp at ep
        | cons y ps =>
          simp only [List.cons_append, List.cons.injEq] at ek ep
          obtain ⟨rfl, ek⟩ := ek
          obtain ⟨rfl, ep⟩ := ep
          have hka := not_lt.2 (hl a (by simp))
          have := ih (i := i + 1) (by simpa using hlen) (fun x hx => hl x (by simp [hx])) ek ep
          simp only [List.map_cons, List.cons_append, splitLoop, hka, decide_false, Bool.false_eq_true, if_false, this,
            Option.map_some, splitRes_cons]

theorem putFront_set {α : Type} {z x : α} {l : List α} {n : Nat} (h : l.length < n) :
    (putFront l (List.replicate n z)).set l.length x = pad n z (l ++ [x]) := by
  have : n - l.length = (n - l.length - 1) + 1 := by omega
  simp only [putFront, pad, List.drop_replicate]
  rw [this, List.replicate_succ]
  simp
  omega

theorem keep_set {α : Type} {z : α} {c : Nat} {l : List α} (h : c < l.length) :
    (keep z (c + 1) l).set c z = keep z c l := by
  have e : l.take (c + 1) = l.take c ++ [l[c]] := by simp [List.take_concat_get]
  have hl : (l.take c).length = c := by rw [List.length_take]; exact Nat.min_eq_left (Nat.le_of_lt h)
  rw [keep, e, List.append_assoc, List.set_append_right _ _ (Nat.le_of_eq hl), hl]
  have e2 : l.length - c = (l.length - (c + 1)) + 1 := by omega
  simp [keep, e2, List.replicate_succ]

theorem insert_encInt_full {id : Nat} {k : K} {p : Nat} {kl kr : List K} {pl pr : List Nat} {ks1 ks2 ps1 ps2 sk}
    (hid : 2 ≤ id)
    (hlen : pl.length = kl.length + 1) (hlen2 : pr.length = kr.length) (hl : ∀ a ∈ kl, a ≤ k)
    (hk : ∀ a ∈ kr, k < a) (hs : kr.Pairwise (· < ·)) (hfull : (kl ++ kr).length = id)
    (ek : kl ++ k :: kr = ks1 ++ sk :: ks2) (hk1 : ks1.length = (id + 1) / 2)
    (ep : pl ++ p :: pr = ps1 ++ ps2) (hp1 : ps1.length = (id + 1) / 2 + 1) :
    (encInt id (kl ++ kr) (pl ++ pr)).insert k p =
      some (encInt id ks1 ps1, some (sk, encInt id ks2 ps2)) := by
  have hL : (pad id none ((kl ++ kr).map some) : List (Option K)) = (kl ++ kr).map some :=
    pad_full (by simpa using hfull.ge)
  have hP : (pad (id + 1) 0 (pl ++ pr)) = pl ++ pr := pad_full (by simp at hfull ⊢; omega)
  have hle : ((kl ++ kr).map some).length = id := by rw [List.length_map]; exact hfull
  have hkl := congrArg List.length ek
  have hpl := congrArg List.length ep
  simp at hkl hpl hfull
  cases pl with
  | nil => simp at hlen
  | cons p0 pl =>
    have hid2 : 1 ≤ id / 2 := by omega
    obtain ⟨q0, ps2, rfl⟩ : ∃ q ps2', ps2 = q :: ps2' := by
      cases ps2 with
      | nil => simp at hpl hlen; omega
      | cons a b => exact ⟨a, b, rfl⟩
    obtain ⟨ps1, rfl⟩ : ∃ ps1', ps1 = p0 :: ps1' := by
      cases ps1 with
      | nil => simp at hp1
      | cons a b => simp at ep; exact ⟨b, by rw [ep.1]⟩
    obtain ⟨ks2', lk, e1⟩ : ∃ a b, ks2 = a ++ [b] := by
      refine ⟨ks2.dropLast, ks2.getLast ?_, (List.dropLast_concat_getLast _).symm⟩
      intro h; rw [h] at hkl; simp at hkl; omega
    obtain ⟨ps2', lp, e2⟩ : ∃ a b, ps2 = a ++ [b] := by
      refine ⟨ps2.dropLast, ps2.getLast ?_, (List.dropLast_concat_getLast _).symm⟩
      intro h; rw [h] at hpl; simp at hpl hlen hp1; omega
    subst e1 e2
    simp at hkl hpl hp1 hlen
    simp only [List.cons_append, List.cons.injEq, true_and] at ep
    have hsp := splitLoop_mid (half := (id + 1) / 2) (i := 0) (p := p) (pl := pl) (ks := ks1 ++ sk :: ks2')
      (ps := ps1 ++ q0 :: ps2') (lk := lk) (lp := lp)
      hlen hlen2 hl hk hs (by rw [ek]; simp) (by rw [ep]; simp)
    have hrec : encInt id (kl ++ kr) (p0 :: pl ++ pr) = ⟨id, (kl ++ kr).map some, p0 :: (pl ++ pr)⟩ := by
      rw [encInt, hL, hP]; simp; omega
    rw [hrec]
    simp only [INode.insert, hle]
    rw [if_neg (by omega), if_neg (by omega), hsp]
    simp only [splitRes, Nat.sub_zero]
    have g1 : (keep none ((id + 1) / 2 + 1) ((ks1 ++ sk :: ks2').map some))[(id + 1) / 2]? = some (some sk) := by
      rw [keep, List.getElem?_append_left (by simp; omega), List.getElem?_take_of_lt (by omega), ← hk1]
      simp
    have g2 : (p0 :: keep 0 ((id + 1) / 2 + 1) (ps1 ++ q0 :: ps2'))[(id + 1) / 2 + 1]? = some q0 := by
      rw [List.getElem?_cons_succ, keep, List.getElem?_append_left (by simp; omega),
        List.getElem?_take_of_lt (by omega)]
      have : (id + 1) / 2 = ps1.length := by omega
      rw [this]; simp
    simp only [g1, g2]
    have d1 : ((ks1 ++ sk :: ks2').map some).drop ((id + 1) / 2 + 1) = ks2'.map some := by
      rw [← hk1, List.map_append, List.drop_append]; simp
    have d2 : (ps1 ++ q0 :: ps2').drop ((id + 1) / 2 + 1) = ps2' := by
      have : (id + 1) / 2 = ps1.length := by omega
      rw [this, List.drop_append]; simp
    simp only [d1, d2, INode.new]
    have l1 : (id - 2) / 2 = (ks2'.map some).length := by simp; omega
    have l2 : (id - 2) / 2 + 1 = (0 :: ps2').length := by simp; omega
    rw [l2, putFront_set (by simp; omega), show (id - 2) / 2 = (ks2'.map some).length from l1,
      putFront_set (by simp; omega)]
    have k1 : (keep none ((id + 1) / 2 + 1) ((ks1 ++ sk :: ks2').map some)).set ((id + 1) / 2) none =
        pad id none (ks1.map some) := by
      rw [keep_set (by simp; omega), keep, pad, ← hk1]
      simp; omega
    have k2 : (p0 :: keep 0 ((id + 1) / 2 + 1) (ps1 ++ q0 :: ps2')).set ((id + 1) / 2 + 1) 0 =
        pad (id + 1) 0 (p0 :: ps1) := by
      rw [List.set_cons_succ, keep_set (by simp; omega), keep, pad]
      have : (id + 1) / 2 = ps1.length := by omega
      rw [this]
      simp; omega
    rw [k1, k2]
    have k3 : (pad (id + 1) 0 (0 :: ps2' ++ [lp])).set 0 q0 = pad (id + 1) 0 (q0 :: (ps2' ++ [lp])) := by
      simp [pad]
    rw [k3]
    simp [encInt, hk1]
    omega

end insertInt

theorem removeAt_encInt {id : Nat} {k : K} {q : Nat} {kl kr : List K} {pl pr : List Nat} {right : Bool}
    (hpl : pl.length = if right then kl.length + 1 else kl.length)
    (hps : pl.length + pr.length = kl.length + kr.length + 1) (hle : (kl ++ k :: kr).length ≤ id) :
    (encInt id (kl ++ k :: kr) (pl ++ q :: pr)).removeAt kl.length right =
      some (encInt id (kl ++ kr) (pl ++ pr), k, q) := by
  simp at hle
  have e1 : (pad id none ((kl ++ k :: kr).map some)).take (kl ++ k :: kr).length = (kl ++ k :: kr).map some := by
    have : (kl ++ k :: kr).length = ((kl ++ k :: kr).map some).length := by simp
    rw [this, pad_take]
  have e2 : (pad (id + 1) 0 (pl ++ q :: pr)).take ((kl ++ k :: kr).length + 1) = pl ++ q :: pr := by
    have : (kl ++ k :: kr).length + 1 = (pl ++ q :: pr).length := by simp; omega
    rw [this, pad_take]
  have e3 : (pad id none ((kl ++ k :: kr).map some)).drop (kl ++ k :: kr).length =
      List.replicate (id - (kl ++ k :: kr).length) none := by
    have : (kl ++ k :: kr).length = ((kl ++ k :: kr).map some).length := by simp
    rw [this, pad_drop]
  have e4 : (pad (id + 1) 0 (pl ++ q :: pr)).drop ((kl ++ k :: kr).length + 1) =
      List.replicate (id - (kl ++ k :: kr).length) 0 := by
    have : (kl ++ k :: kr).length + 1 = (pl ++ q :: pr).length := by simp; omega
    rw [this, pad_drop]; congr 1; omega
  have e5 : (pad id none ((kl ++ k :: kr).map some)).take kl.length = kl.map some := by
    rw [pad, List.map_append, List.append_assoc, List.take_append_of_le_length (by simp), ← List.length_map (f := some), List.take_length]
  have e6 : (pad (id + 1) 0 (pl ++ q :: pr)).take pl.length = pl := by
    rw [pad, List.append_assoc, List.take_append_of_le_length (by simp)]; simp
  unfold encInt
  simp only [INode.removeAt]
  rw [if_pos (by simp)]
  simp only [← hpl]
  rw [e1, e2, e3, e4, e5, e6]
  rw [List.map_append, List.drop_append_of_le_length (by simp), List.drop_append_of_le_length (by simp)]
  simp only [List.length_map, List.drop_length, List.nil_append, List.map_cons]
  rw [show List.drop kl.length (List.map some kl) = [] by simp]
  simp only [List.nil_append, bubble_cons, takeLast_snoc]
  simp only [pad, Option.some.injEq, Prod.mk.injEq, INode.mk.injEq, and_true]
  refine ⟨by simp, ?_, ?_⟩
  · have : id - ((kl ++ kr).map some).length = (id - (kl ++ k :: kr).length) + 1 := by simp; omega
    rw [this, List.replicate_succ]; simp
  · have : id + 1 - (pl ++ pr).length = (id - (kl ++ k :: kr).length) + 1 := by simp; omega
    rw [this, List.replicate_succ]; simp

theorem merge_encInt {id : Nat} {k : K} {ks1 ks2 : List K} {ps1 ps2 : List Nat}
    (h1 : ps1.length = ks1.length + 1) (h2 : ps2.length = ks2.length + 1) (hle : ks1.length + ks2.length < id) :
    (encInt id ks1 ps1).merge k (encInt id ks2 ps2) = some (encInt id (ks1 ++ k :: ks2) (ps1 ++ ps2)) := by
  have hL : (pad id none (ks1.map some) : List (Option K)).length = id := pad_length (by (try simp); (try simp at hroom); (try simp at hfull); (try simp at hle); omega)
  unfold encInt
  simp only [INode.merge]
  rw [if_pos (by rw [hL]; omega)]
  have e1 : (pad id none (ks1.map some)).take ks1.length = ks1.map some := by
    have := pad_take (n := id) (z := (none : Option K)) (l := ks1.map some); simpa using this
  have e2 : (pad id none (ks2.map some)).take ks2.length = ks2.map some := by
    have := pad_take (n := id) (z := (none : Option K)) (l := ks2.map some); simpa using this
  have e3 : (pad (id + 1) 0 ps1).take (ks1.length + 1) = ps1 := by rw [← h1, pad_take]
  have e4 : (pad (id + 1) 0 ps2).take (ks2.length + 1) = ps2 := by rw [← h2, pad_take]
  have e5 : (pad id none (ks1.map some)).drop (ks1.length + ks2.length + 1) =
      List.replicate (id - (ks1.length + ks2.length + 1)) none := by
    rw [pad, List.drop_append, List.drop_of_length_le (by (try simp); omega)]
    simp [List.drop_replicate]; omega
  have e6 : (pad (id + 1) 0 ps1).drop (ks1.length + ks2.length + 2) =
      List.replicate (id - (ks1.length + ks2.length + 1)) 0 := by
    rw [pad, List.drop_append, List.drop_of_length_le (by (try simp); omega)]
    simp [List.drop_replicate]; omega
  rw [e1, e2, e3, e4, e5, e6]
  simp [pad]
  refine ⟨by omega, by omega, by omega⟩

section leaf
variable [LinearOrder K]

theorem leafRoom_lt {e : K × V} {er : List (K × V)} {rest}
    (hr : ∀ a ∈ er, e.1 < a.1) (hs : SL.Sorted er) :
    ∃ c, leafRoom e (er.map some ++ none :: rest) = some (.fin (some e :: er.map some ++ rest) [] c) := by
  induction er generalizing e with
  | nil => exact ⟨e, rfl⟩
  | cons a er ih =>
    have h := hr a (by simp)
    obtain ⟨c, hc⟩ := ih (List.pairwise_cons.1 hs).1 (List.pairwise_cons.1 hs).2
    refine ⟨c, ?_⟩
    simp only [List.map_cons, List.cons_append, leafRoom]
    rw [if_pos (le_of_lt h), if_neg (ne_of_gt h), hc]
    simp [LeafLoop.cons]

theorem leafRoom_absent {e : K × V} {el er : List (K × V)} {rest}
    (hl : ∀ a ∈ el, a.1 < e.1) (hr : ∀ a ∈ er, e.1 < a.1) (hs : SL.Sorted er) :
    ∃ c, leafRoom e ((el ++ er).map some ++ none :: rest) =
      some (.fin ((el ++ e :: er).map some ++ rest) [] c) := by
  induction el with
  | nil => exact leafRoom_lt hr hs
  | cons a el ih =>
    obtain ⟨c, hc⟩ := ih fun x hx => hl x (by simp [hx])
    refine ⟨c, ?_⟩
    simp only [List.map_cons, List.cons_append, leafRoom]
    rw [if_neg (not_le.2 (hl a (by simp))), hc]
    simp [LeafLoop.cons]

theorem leafRoom_present {e : K × V} {o : V} {el er : List (K × V)} {rest}
    (hl : ∀ a ∈ el, a.1 < e.1) :
    leafRoom e ((el ++ (e.1, o) :: er).map some ++ rest) =
      some (.dup ((el ++ e :: er).map some ++ rest) (e.1, o)) := by
  induction el with
  | nil => simp [leafRoom]
  | cons a el ih =>
    have hc := ih fun x hx => hl x (by simp [hx])
    simp only [List.map_cons, List.cons_append, leafRoom]
    rw [if_neg (not_le.2 (hl a (by simp))), hc]
    simp [LeafLoop.cons]

theorem insert_encLeaf_room {ld : Nat} {e : K × V} {el er : List (K × V)} {nxt}
    (hl : ∀ a ∈ el, a.1 < e.1) (hr : ∀ a ∈ er, e.1 < a.1) (hs : SL.Sorted er) (hroom : (el ++ er).length < ld) :
    (encLeaf ld (el ++ er) nxt).insert e = some (encLeaf ld (el ++ e :: er) nxt, .done) := by
  have hL : (pad ld none ((el ++ er).map some) : List (Option (K × V))).length = ld :=
    pad_length (by (try simp); (try simp at hroom); (try simp at hfull); (try simp at hle); omega)
  simp only [LNode.insert]
  rw [if_pos (by simpa only [encLeaf, hL] using hroom)]
  simp only [encLeaf]
  rw [pad_room (by (try simp); (try simp at hroom); (try simp at hfull); (try simp at hle); omega)]
  obtain ⟨c, hc⟩ := leafRoom_absent (rest := List.replicate (ld - ((el ++ er).map some).length - 1) none) hl hr hs
  rw [hc]
  simp at hroom
  simp [pad]
  refine ⟨by omega, by omega⟩

theorem leafSplit_present {half : Nat} {e : K × V} {o : V} {el er : List (K × V)} {i : Nat}
    (hl : ∀ a ∈ el, a.1 < e.1) (hi : el = [] ∨ i + el.length ≤ half + 1) :
    leafSplit half e i ((el ++ (e.1, o) :: er).map some) = .dup ((el ++ e :: er).map some) (e.1, o) := by
  induction el generalizing i with
  | nil => simp [leafSplit]
  | cons a el ih =>
    simp at hi
    have hc := ih (i := i + 1) (fun x hx => hl x (by simp [hx])) (by right; omega)
    simp only [List.map_cons, List.cons_append, leafSplit]
    rw [if_neg (not_le.2 (hl a (by simp))), hc, if_neg (by omega)]
    simp [LeafLoop.cons]

theorem insert_encLeaf_present {ld : Nat} {e : K × V} {o : V} {el er : List (K × V)} {nxt}
    (hl : ∀ a ∈ el, a.1 < e.1)
    (hle : (el ++ (e.1, o) :: er).length ≤ ld)
    (hsafe : (el ++ (e.1, o) :: er).length < ld ∨ el.length ≤ ld / 2 + 1) :
    (encLeaf ld (el ++ (e.1, o) :: er) nxt).insert e = some (encLeaf ld (el ++ e :: er) nxt, .entry (e.1, o)) := by
  have hL : (pad ld none ((el ++ (e.1, o) :: er).map some) : List (Option (K × V))).length = ld :=
    pad_length (by simpa using hle)
  simp only [LNode.insert]
  by_cases hroom : (el ++ (e.1, o) :: er).length < ld
  · rw [if_pos (by simpa only [encLeaf, hL] using hroom)]
    simp only [encLeaf]
    rw [pad, leafRoom_present hl]
    simp [pad]
  · have e1 : (el ++ (e.1, o) :: er).length = ld := by omega
    have e2 : el.length ≤ ld / 2 + 1 := by omega
    rw [if_neg (by simpa only [encLeaf, hL] using hroom)]
    simp only [encLeaf, hL]
    rw [pad_full (by simp at e1 ⊢; omega), leafSplit_present hl (by right; omega)]
    simp [pad]
    simp at e1; omega

def leafRes (c : Nat) (es : List (K × V)) (e : K × V) : LeafLoop K V :=
  .fin (keep none c (es.map some)) ((es.map some).drop c) e

omit [LinearOrder K] in
theorem leafRes_cons {half i : Nat} {a : K × V} {es e} :
    leafRes (half + 1 - i) (a :: es) e =
      (if half < i then LeafLoop.move (some a) else LeafLoop.cons (some a)) (leafRes (half + 1 - (i + 1)) es e) := by
  by_cases h : half < i
  · have e1 : half + 1 - i = 0 := by omega
    have e2 : half + 1 - (i + 1) = 0 := by omega
    simp [leafRes, e1, e2, h, keep_zero, LeafLoop.move]
  · have e1 : half + 1 - i = (half + 1 - (i + 1)) + 1 := by omega
    simp only [h, if_false, e1]
    simp [leafRes, keep_succ, LeafLoop.cons]

theorem leafSplit_lt {half : Nat} {e : K × V} {i : Nat} {er es : List (K × V)} {le}
    (hk : ∀ a ∈ er, e.1 < a.1) (hs : SL.Sorted er) (ek : e :: er = es ++ [le]) :
    leafSplit half e i (er.map some) = leafRes (half + 1 - i) es le := by
  induction er generalizing e i es with
  | nil =>
    have h1 : es = [] := by cases es <;> simp_all
    subst h1
    simp at ek
    simp [leafSplit, leafRes, keep, ek]
  | cons a kr ih =>
    cases es with
    | nil => simp at ek
    | cons x ks =>
      simp only [List.cons_append, List.cons.injEq] at ek
      obtain ⟨rfl, ek⟩ := ek
      have hka := hk a (by simp)
      have := ih (e := a) (i := i + 1) (List.pairwise_cons.1 hs).1 (List.pairwise_cons.1 hs).2 ek
      simp only [List.map_cons, leafSplit]
      rw [if_pos (le_of_lt hka), if_neg (ne_of_gt hka), this, ← leafRes_cons]

theorem leafSplit_absent {half : Nat} {e : K × V} {i : Nat} {el er es : List (K × V)} {le}
    (hl : ∀ a ∈ el, a.1 < e.1) (hk : ∀ a ∈ er, e.1 < a.1) (hs : SL.Sorted er) (ek : el ++ e :: er = es ++ [le]) :
    leafSplit half e i ((el ++ er).map some) = leafRes (half + 1 - i) es le := by
  induction el generalizing i es with
  | nil => exact leafSplit_lt hk hs ek
  | cons a kl ih =>
    cases es with
    | nil => simp at ek
    | cons x ks =>
      simp only [List.cons_append, List.cons.injEq] at ek
      obtain ⟨rfl, ek⟩ := ek
      have hka := not_le.2 (hl a (by simp))
      have := ih (i := i + 1) (fun x hx => hl x (by simp [hx])) ek
      simp only [List.map_cons, List.cons_append, leafSplit]
      rw [if_neg hka, this, ← leafRes_cons]

theorem insert_encLeaf_full {ld : Nat} {e : K × V} {el er es1 es2 : List (K × V)} {s nxt}
    (hld : 1 ≤ ld) (hl : ∀ a ∈ el, a.1 < e.1) (hk : ∀ a ∈ er, e.1 < a.1) (hs : SL.Sorted er)
    (hfull : (el ++ er).length = ld) (ek : el ++ e :: er = es1 ++ s :: es2) (h1 : es1.length = ld / 2 + 1) :
    (encLeaf ld (el ++ er) nxt).insert e =
      some (encLeaf ld es1 nxt, .split s.1 (encLeaf ld (s :: es2) nxt)) := by
  have hL : (pad ld none ((el ++ er).map some) : List (Option (K × V))) = (el ++ er).map some :=
    pad_full (by simpa using hfull.ge)
  have hle : ((el ++ er).map some).length = ld := by rw [List.length_map]; exact hfull
  have hlen := congrArg List.length ek
  simp at hlen hfull
  obtain ⟨m, le, e1⟩ : ∃ a b, s :: es2 = a ++ [b] :=
    ⟨(s :: es2).dropLast, (s :: es2).getLast (by simp), (List.dropLast_concat_getLast _).symm⟩
  have hm := congrArg List.length e1
  simp at hm
  have hsp := leafSplit_absent (half := ld / 2) (i := 0) (es := es1 ++ m) (le := le) hl hk hs (by rw [ek, e1]; simp)
  have hrec : encLeaf ld (el ++ er) nxt = ⟨ld, (el ++ er).map some, nxt⟩ := by
    rw [encLeaf, hL]; simp; omega
  rw [hrec]
  simp only [LNode.insert, hle]
  rw [if_neg (by omega), hsp]
  simp only [leafRes, Nat.sub_zero]
  rw [if_neg (by omega)]
  have d1 : ((es1 ++ m).map some).drop (ld / 2 + 1) = m.map some := by
    rw [← h1, List.map_append, List.drop_append]; simp
  have k1 : keep none (ld / 2 + 1) ((es1 ++ m).map some) = pad ld none (es1.map some) := by
    rw [keep, pad, ← h1]; simp; omega
  have l1 : (ld - 1) / 2 = (m.map some).length := by simp; omega
  simp only [d1, k1, LNode.new]
  rw [l1, putFront_set (by simp; omega)]
  have e2 : m.map some ++ [some le] = (s :: es2).map some := by rw [e1]; simp
  rw [e2]
  have g : (pad ld none ((s :: es2).map some))[0]? = some (some s) := by simp [pad]
  simp only [g, encLeaf, h1, List.length_cons]
  simp
  omega

theorem removeLoop_cons {key : K} {x y : Option (K × V)} {l} : removeLoop key (x :: y :: l) =
    if holdsKey key x then (y :: (removeLoop key (x :: l)).1, true)
    else (x :: (removeLoop key (y :: l)).1, (removeLoop key (y :: l)).2) := rfl

theorem removeLoop_absent {key : K} {l : List (K × V)} (h : ∀ a ∈ l, a.1 ≠ key) :
    removeLoop key (l.map some) = (l.map some, false) := by
  induction l with
  | nil => simp [removeLoop, removeFrom, holdsKey]
  | cons a l ih =>
    have ha := h a (by simp)
    have := ih fun x hx => h x (by simp [hx])
    cases l with
    | nil => simp [removeLoop, removeFrom, holdsKey, Ne.symm ha]
    | cons b l =>
      simp only [List.map_cons] at this ⊢
      rw [removeLoop_cons]
      simp [holdsKey, this, Ne.symm ha]

theorem removeLoop_match {key : K} {o : V} {l : List (K × V)} :
    removeLoop key (some (key, o) :: l.map some) = (l.map some ++ [some (key, o)], true) := by
  induction l with
  | nil => simp [removeLoop, removeFrom, holdsKey]
  | cons b l ih =>
    simp only [List.map_cons]
    rw [removeLoop_cons]
    simp [holdsKey, ih]

theorem removeLoop_present {key : K} {o : V} {el er : List (K × V)} (h : ∀ a ∈ el, a.1 ≠ key) :
    removeLoop key ((el ++ (key, o) :: er).map some) = ((el ++ er).map some ++ [some (key, o)], true) := by
  induction el with
  | nil => exact removeLoop_match
  | cons a l ih =>
    have ha := h a (by simp)
    have := ih fun x hx => h x (by simp [hx])
    cases l with
    | nil =>
      simp only [List.map_cons, List.nil_append, List.cons_append] at this ⊢
      rw [removeLoop_cons]
      simp [holdsKey, this, Ne.symm ha]
    | cons b l =>
      simp only [List.map_cons, List.cons_append] at this ⊢
      rw [removeLoop_cons, this]
      simp [holdsKey, Ne.symm ha]

theorem remove_encLeaf_absent {ld : Nat} {key : K} {es : List (K × V)} {nxt} (h : ∀ a ∈ es, a.1 ≠ key) :
    (encLeaf ld es nxt).remove key = some (encLeaf ld es nxt, none) := by
  have e1 : (pad ld none (es.map some)).take es.length = es.map some := by
    have := pad_take (n := ld) (z := (none : Option (K × V))) (l := es.map some); simpa using this
  have e2 : (pad ld none (es.map some)).drop es.length = List.replicate (ld - es.length) none := by
    have := pad_drop (n := ld) (z := (none : Option (K × V))) (l := es.map some); simpa using this
  simp only [LNode.remove, encLeaf, e1, e2, removeLoop_absent h]
  simp [pad]

theorem remove_encLeaf_present {ld : Nat} {key : K} {o : V} {el er : List (K × V)} {nxt}
    (h : ∀ a ∈ el, a.1 ≠ key) (hle : (el ++ (key, o) :: er).length ≤ ld) :
    (encLeaf ld (el ++ (key, o) :: er) nxt).remove key = some (encLeaf ld (el ++ er) nxt, some (key, o)) := by
  have e1 : (pad ld none ((el ++ (key, o) :: er).map some)).take (el ++ (key, o) :: er).length =
      (el ++ (key, o) :: er).map some := by
    have := pad_take (n := ld) (z := (none : Option (K × V))) (l := (el ++ (key, o) :: er).map some); simpa using this
  have e2 : (pad ld none ((el ++ (key, o) :: er).map some)).drop (el ++ (key, o) :: er).length =
      List.replicate (ld - (el ++ (key, o) :: er).length) none := by
    have := pad_drop (n := ld) (z := (none : Option (K × V))) (l := (el ++ (key, o) :: er).map some); simpa using this
  simp only [LNode.remove, encLeaf, e1, e2, removeLoop_present h, takeLast_snoc, if_true]
  simp at hle
  have : ld - (el.length + er.length) = (ld - (el.length + (er.length + 1))) + 1 := by omega
  simp [pad, this, List.replicate_succ]

end leaf

theorem removeAt_encLeaf {ld : Nat} {e : K × V} {el er : List (K × V)} {nxt}
    (hle : (el ++ e :: er).length ≤ ld) :
    (encLeaf ld (el ++ e :: er) nxt).removeAt el.length = some (encLeaf ld (el ++ er) nxt, e) := by
  have e1 : (pad ld none ((el ++ e :: er).map some)).take (el ++ e :: er).length =
      (el ++ e :: er).map some := by
    have := pad_take (n := ld) (z := (none : Option (K × V))) (l := (el ++ e :: er).map some); simpa using this
  have e2 : (pad ld none ((el ++ e :: er).map some)).drop (el ++ e :: er).length =
      List.replicate (ld - (el ++ e :: er).length) none := by
    have := pad_drop (n := ld) (z := (none : Option (K × V))) (l := (el ++ e :: er).map some); simpa using this
  have e5 : (pad ld none ((el ++ e :: er).map some)).take el.length = el.map some := by
    rw [pad, List.map_append, List.append_assoc, List.take_append_of_le_length (by simp), ← List.length_map (f := some), List.take_length]
  unfold encLeaf
  simp only [LNode.removeAt]
  rw [if_pos (by simp), e1, e2, e5, List.map_append, List.drop_append_of_le_length (by simp)]
  rw [show List.drop el.length (List.map some el) = [] by simp]
  simp only [List.nil_append, List.map_cons, bubble_cons, takeLast_snoc]
  simp at hle
  have : ld - (el.length + er.length) = (ld - (el.length + (er.length + 1))) + 1 := by omega
  simp [pad, this, List.replicate_succ]

theorem merge_encLeaf {ld : Nat} {es1 es2 : List (K × V)} {n1 n2} (hle : es1.length + es2.length ≤ ld) :
    (encLeaf ld es1 n1).merge (encLeaf ld es2 n2) = some (encLeaf ld (es1 ++ es2) n2) := by
  have hL : (pad ld none (es1.map some) : List (Option (K × V))).length = ld := pad_length (by (try simp); (try simp at hroom); (try simp at hfull); (try simp at hle); omega)
  unfold encLeaf
  simp only [LNode.merge]
  rw [if_pos (by rw [hL]; omega)]
  have e1 : (pad ld none (es1.map some)).take es1.length = es1.map some := by
    have := pad_take (n := ld) (z := (none : Option (K × V))) (l := es1.map some); simpa using this
  have e2 : (pad ld none (es2.map some)).take es2.length = es2.map some := by
    have := pad_take (n := ld) (z := (none : Option (K × V))) (l := es2.map some); simpa using this
  have e5 : (pad ld none (es1.map some)).drop (es1.length + es2.length) =
      List.replicate (ld - (es1.length + es2.length)) none := by
    rw [pad, List.drop_append, List.drop_of_length_le (by simp)]
    simp [List.drop_replicate]; omega
  rw [e1, e2, e5]
  simp [pad]

end Verif.Bp
