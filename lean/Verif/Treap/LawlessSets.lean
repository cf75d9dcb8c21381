/- The set operations and `split_off` of `TreapMap` with arbitrary answers of the comparisons. -/
import Verif.Treap.Lawless
import Verif.Spec.Align

namespace Verif.Treap

open Verif.Bst Verif.Spec

variable {K V : Type}

/-- The answers that a set operation gets: `c p i k x` answers `k.cmp(x)` where `k` is the key of the node that becomes
the root at the place `p` of the recursion and `x` is the `i`-th key with which it is compared while the other tree is
split.  All comparisons of one operation have different `p` or `i`, so the answers are independent. -/
abbrev SetAnswers (K : Type) := List Bool → Nat → K → K → Ordering

/-- A comparison has said that the two are equal. -/
def SetAnswers.SaidEqual (c : SetAnswers K) (e e' : K × V) : Prop :=
  ∃ p i, c p i e.1 e'.1 = .eq ∨ c p i e'.1 e.1 = .eq

/-- treap/tree.rs:222-240, the body of `union` after the swap, with the answers `c` at the place `p`. -/
def unionNA (c : SetAnswers K) (p : List Bool) (f : List Bool → TTree K V → TTree K V → Bool → Option (TTree K V))
    (a : Ann) (l : TTree K V) (k : K) (v : V) (r : TTree K V) (o : TTree K V) (sw : Bool) : Option (TTree K V) :=
  let (ol, dup, or) := splitA (fun i => c p i k) 0 o
  do
    let l' ← f (false :: p) l ol sw
    let r' ← f (true :: p) r or sw
    let e := if sw then (entry dup).getD (k, v) else (k, v)
    return mk a.prio l' e.1 e.2 r'

/-- treap/tree.rs:212-245 `union` with the answers `c` (the number bounds the recursion depth). -/
def unionA (c : SetAnswers K) : Nat → List Bool → TTree K V → TTree K V → Bool → Option (TTree K V)
  | 0, _, _, _, _ => none
  | n + 1, p, .node a ll k v lr, .node b rl x w rr, sw =>
    if a.prio < b.prio then unionNA c p (unionA c n) b rl x w rr (.node a ll k v lr) (!sw)
    else unionNA c p (unionA c n) a ll k v lr (.node b rl x w rr) sw
  | _ + 1, _, .nil, r, _ => some r
  | _ + 1, _, .node a ll k v lr, .nil, _ => some (.node a ll k v lr)

/-- treap/tree.rs:262-285, the body of `intersection` after the swap, with the answers `c`. -/
def interNA (c : SetAnswers K) (p : List Bool) (f : List Bool → TTree K V → TTree K V → Bool → Option (TTree K V))
    (a : Ann) (l : TTree K V) (k : K) (v : V) (r : TTree K V) (o : TTree K V) (sw : Bool) : Option (TTree K V) :=
  let (ol, dup, or) := splitA (fun i => c p i k) 0 o
  do
    let l' ← f (false :: p) l ol sw
    let r' ← f (true :: p) r or sw
    match entry dup with
    | some e => let e := if sw then e else (k, v); return mk a.prio l' e.1 e.2 r'
    | none => return merge l' r'

/-- treap/tree.rs:247-289 `intersection` with the answers `c`. -/
def interA (c : SetAnswers K) : Nat → List Bool → TTree K V → TTree K V → Bool → Option (TTree K V)
  | 0, _, _, _, _ => none
  | n + 1, p, .node a ll k v lr, .node b rl x w rr, sw =>
    if a.prio < b.prio then interNA c p (interA c n) b rl x w rr (.node a ll k v lr) (!sw)
    else interNA c p (interA c n) a ll k v lr (.node b rl x w rr) sw
  | _ + 1, _, .nil, _, _ => some .nil
  | _ + 1, _, .node .., .nil, _ => some .nil

/-- treap/tree.rs:307-329, the body of `difference` after the swap, with the answers `c`. -/
def diffNA (c : SetAnswers K) (p : List Bool) (f : List Bool → TTree K V → TTree K V → Bool → Option (TTree K V))
    (a : Ann) (l : TTree K V) (k : K) (v : V) (r : TTree K V) (o : TTree K V) (sw sym : Bool) : Option (TTree K V) :=
  let (ol, dup, or) := splitA (fun i => c p i k) 0 o
  do
    let l' ← f (false :: p) l ol sw
    let r' ← f (true :: p) r or sw
    if (entry dup).isSome || (sw && !sym) then return merge l' r'
    else return mk a.prio l' k v r'

/-- treap/tree.rs:291-342 `difference` with the answers `c`. -/
def diffA (c : SetAnswers K) (sym : Bool) : Nat → List Bool → TTree K V → TTree K V → Bool → Option (TTree K V)
  | 0, _, _, _, _ => none
  | n + 1, p, .node a ll k v lr, .node b rl x w rr, sw =>
    if a.prio < b.prio then diffNA c p (diffA c sym n) b rl x w rr (.node a ll k v lr) (!sw) sym
    else diffNA c p (diffA c sym n) a ll k v lr (.node b rl x w rr) sw sym
  | _ + 1, _, .nil, r, sw => some (diffBase .nil r sw sym)
  | _ + 1, _, .node a ll k v lr, .nil, sw => some (diffBase (.node a ll k v lr) .nil sw sym)

/-- The set operations of treap/map.rs with the answers `c`: `union` 368-383, `intersection` 407-419, `difference` 444-456,
`symmetric_difference` 480-495. -/
def TreapMap.setOpA (c : SetAnswers K) (l r : TreapMap K V) : PairOp → Option (TreapMap K V)
  | .union => (unionA c (depthBound l.tree r.tree) [] l.tree r.tree false).map TreapMap.mk
  | .intersection => (interA c (depthBound l.tree r.tree) [] l.tree r.tree false).map TreapMap.mk
  | .difference => (diffA c false (depthBound l.tree r.tree) [] l.tree r.tree false).map TreapMap.mk
  | .symmetricDifference => (diffA c true (depthBound l.tree r.tree) [] l.tree r.tree false).map TreapMap.mk

/-- treap/map.rs:323-343 `split_off` with the answers `c`: (the receiver afterwards, the returned map). -/
def TreapMap.splitOffA (c : Nat → K → Ordering) (m : TreapMap K V) (inclusive : Bool) : TreapMap K V × TreapMap K V :=
  let (t, d, r) := splitA c 0 m.tree
  if inclusive then (⟨merge t d⟩, ⟨r⟩) else (⟨t⟩, ⟨merge d r⟩)

/-- `Aligned`, where the flag says that the two lists are given in the other order. -/
def AlignedSw (op : PairOp) (Eq : (K × V) → (K × V) → Prop) (sw : Bool) (a b res : List (K × V))
    (T : List (Slot (K × V))) : Prop :=
  if sw then Aligned op Eq b a res T else Aligned op Eq a b res T

/-- What is proved of one level of the recursion. -/
def DeliversA (op : PairOp) (c : SetAnswers K) (n : Nat)
    (f : List Bool → TTree K V → TTree K V → Bool → Option (TTree K V)) : Prop :=
  ∀ (p : List Bool) (l r : TTree K V) (sw : Bool) (b : Nat), l.toList.length + r.toList.length < n →
    Wf b l → Wf b r → ∃ t T, f p l r sw = some t ∧ Wf b t ∧ AlignedSw op c.SaidEqual sw l.toList r.toList t.toList T

theorem alignedSw_not {op : PairOp} {Eq : (K × V) → (K × V) → Prop} {sw : Bool} {a b res : List (K × V)}
    {T : List (Slot (K × V))} (h : AlignedSw op Eq (!sw) a b res T) : AlignedSw op Eq sw b a res T := by
  cases sw <;> simpa [AlignedSw] using h

/-- The place of the root: alone or paired with what the split has found. -/
def rootSlot (sw : Bool) (e : K × V) : Option (K × V) → Slot (K × V)
  | none => if sw then .right e else .left e
  | some e' => if sw then .both e' e else .both e e'

theorem aligned_append {op : PairOp} {Eq : (K × V) → (K × V) → Prop} {a b res a' b' res' : List (K × V)}
    {T T' : List (Slot (K × V))} (h : Aligned op Eq a b res T) (h' : Aligned op Eq a' b' res' T') :
    Aligned op Eq (a ++ a') (b ++ b') (res ++ res') (T ++ T') :=
  ⟨by rw [List.filterMap_append, h.left, h'.left], by rw [List.filterMap_append, h.right, h'.right],
    by rw [List.filterMap_append, h.result, h'.result], fun e e' hm => by
      rcases List.mem_append.1 hm with hm | hm
      · exact h.paired e e' hm
      · exact h'.paired e e' hm⟩

theorem aligned_root (op : PairOp) {c : SetAnswers K} (sw : Bool) (e : K × V) (d : Option (K × V))
    (hd : ∀ e', d = some e' → SetAnswers.SaidEqual c e e') :
    AlignedSw op (SetAnswers.SaidEqual c) sw [e] d.toList (op.pick (rootSlot sw e d)).toList [rootSlot sw e d] := by
  have hp : ∀ e', d = some e' → SetAnswers.SaidEqual c e' e := fun e' h => by
    obtain ⟨p, i, h⟩ := hd e' h
    exact ⟨p, i, h.symm⟩
  have hres : [rootSlot sw e d].filterMap op.pick = (op.pick (rootSlot sw e d)).toList := by
    cases h : op.pick (rootSlot sw e d) <;> simp [h]
  cases sw <;> cases d <;> simp only [AlignedSw, rootSlot] at * <;>
    refine ⟨by simp [Slot.l?], by simp [Slot.r?], hres, fun x y h => ?_⟩ <;> simp at h
  · obtain ⟨rfl, rfl⟩ := h; exact hd _ rfl
  · obtain ⟨rfl, rfl⟩ := h; exact hp _ rfl

theorem alignedSw_node {op : PairOp} {c : SetAnswers K} {sw : Bool} {l r : List (K × V)} {e : K × V}
    {ol or : List (K × V)} {d : Option (K × V)} {rl rr : List (K × V)} {Tl Tr : List (Slot (K × V))}
    (hl : AlignedSw op (SetAnswers.SaidEqual c) sw l ol rl Tl) (hr : AlignedSw op (SetAnswers.SaidEqual c) sw r or rr Tr)
    (hd : ∀ e', d = some e' → SetAnswers.SaidEqual c e e') :
    AlignedSw op (SetAnswers.SaidEqual c) sw (l ++ e :: r) (ol ++ d.toList ++ or)
      (rl ++ (op.pick (rootSlot sw e d)).toList ++ rr) (Tl ++ [rootSlot sw e d] ++ Tr) := by
  have hm := aligned_root op sw e d hd
  cases sw <;> simp only [AlignedSw, if_true, Bool.false_eq_true, if_false] at *
  · have := aligned_append (aligned_append hl hm) hr
    simpa using this
  · have := aligned_append (aligned_append hl hm) hr
    simpa using this

/-- The part of a recursion step that the three operations share: the two recursive calls. -/
theorem callsA {op : PairOp} {c : SetAnswers K} {n : Nat}
    {f : List Bool → TTree K V → TTree K V → Bool → Option (TTree K V)} (hf : DeliversA op c n f) (p : List Bool)
    {a : Ann} {l r o : TTree K V} {k : K} {v : V} {sw : Bool}
    (hn : l.toList.length + r.toList.length + o.toList.length < n)
    (hl : Wf a.prio l) (hr : Wf a.prio r) (ho : Wf a.prio o) :
    ∃ l' r' T, f (false :: p) l (splitA (fun i => c p i k) 0 o).1 sw = some l' ∧
      f (true :: p) r (splitA (fun i => c p i k) 0 o).2.2 sw = some r' ∧ Wf a.prio l' ∧ Wf a.prio r' ∧
      AlignedSw op c.SaidEqual sw (l.toList ++ (k, v) :: r.toList) o.toList
        (l'.toList ++ (op.pick (rootSlot sw (k, v) (entry (splitA (fun i => c p i k) 0 o).2.1))).toList ++ r'.toList)
        T := by
  obtain ⟨s1, _, s3⟩ := splitA_toList (fun i => c p i k) o 0
  obtain ⟨w1, _, w3⟩ := wf_splitA (fun i => c p i k) ho 0
  have hlen := congrArg List.length s1
  simp only [List.length_append] at hlen
  obtain ⟨l', Tl, e1, e2, e3⟩ := hf (false :: p) l _ sw a.prio (by omega) hl w1
  obtain ⟨r', Tr, f1, f2, f3⟩ := hf (true :: p) r _ sw a.prio (by omega) hr w3
  refine ⟨l', r', Tl ++ [rootSlot sw (k, v) (entry (splitA (fun i => c p i k) 0 o).2.1)] ++ Tr, e1, f1, e2, f2, ?_⟩
  have h := alignedSw_node (e := (k, v)) (d := entry (splitA (fun i => c p i k) 0 o).2.1) e3 f3 fun e' he => by
    obtain ⟨j, hj⟩ := s3 e' he
    exact ⟨p, j, .inl hj⟩
  rw [← s1] at h
  exact h

theorem unionNA_spec {c : SetAnswers K} {n : Nat} {f : List Bool → TTree K V → TTree K V → Bool → Option (TTree K V)}
    (hf : DeliversA .union c n f) (p : List Bool) {b : Nat} {a : Ann} {l r o : TTree K V} {k : K} {v : V} {sw : Bool}
    (hn : l.toList.length + r.toList.length + o.toList.length < n)
    (ha : a.prio ≤ b) (hl : Wf a.prio l) (hr : Wf a.prio r) (ho : Wf a.prio o) :
    ∃ t T, unionNA c p f a l k v r o sw = some t ∧ Wf b t ∧
      AlignedSw .union c.SaidEqual sw (l.toList ++ (k, v) :: r.toList) o.toList t.toList T := by
  obtain ⟨l', r', T, h1, h2, h3, h4, h5⟩ := callsA hf p (v := v) (k := k) (sw := sw) hn hl hr ho
  refine ⟨_, T, by simp only [unionNA, h1, h2]; rfl, wf_mk ha h3 h4, ?_⟩
  rw [toList_mk]
  have : (PairOp.union.pick (rootSlot sw (k, v) (entry (splitA (fun i => c p i k) 0 o).2.1))).toList =
      [if sw then (entry (splitA (fun i => c p i k) 0 o).2.1).getD (k, v) else (k, v)] := by
    cases sw <;> cases entry (splitA (fun i => c p i k) 0 o).2.1 <;> rfl
  rw [this] at h5
  simpa using h5

theorem interNA_spec {c : SetAnswers K} {n : Nat} {f : List Bool → TTree K V → TTree K V → Bool → Option (TTree K V)}
    (hf : DeliversA .intersection c n f) (p : List Bool) {b : Nat} {a : Ann} {l r o : TTree K V} {k : K} {v : V}
    {sw : Bool} (hn : l.toList.length + r.toList.length + o.toList.length < n)
    (ha : a.prio ≤ b) (hl : Wf a.prio l) (hr : Wf a.prio r) (ho : Wf a.prio o) :
    ∃ t T, interNA c p f a l k v r o sw = some t ∧ Wf b t ∧
      AlignedSw .intersection c.SaidEqual sw (l.toList ++ (k, v) :: r.toList) o.toList t.toList T := by
  obtain ⟨l', r', T, h1, h2, h3, h4, h5⟩ := callsA hf p (v := v) (k := k) (sw := sw) hn hl hr ho
  simp only [interNA, h1, h2, Option.bind_eq_bind, Option.bind_some]
  cases he : entry (splitA (fun i => c p i k) 0 o).2.1 with
  | none =>
    refine ⟨_, T, rfl, wf_merge (h3.mono ha) (h4.mono ha), ?_⟩
    rw [he] at h5
    rw [toList_merge]
    cases sw <;> simpa [rootSlot, PairOp.pick] using h5
  | some e =>
    refine ⟨_, T, rfl, wf_mk ha h3 h4, ?_⟩
    rw [he] at h5
    rw [toList_mk]
    cases sw <;> simpa [rootSlot, PairOp.pick] using h5

/-- The operation that `diffA` performs. -/
def diffOp (sym : Bool) : PairOp := if sym then .symmetricDifference else .difference

theorem diffNA_spec {sym : Bool} {c : SetAnswers K} {n : Nat}
    {f : List Bool → TTree K V → TTree K V → Bool → Option (TTree K V)} (hf : DeliversA (diffOp sym) c n f) (p : List Bool)
    {b : Nat} {a : Ann} {l r o : TTree K V} {k : K} {v : V} {sw : Bool}
    (hn : l.toList.length + r.toList.length + o.toList.length < n)
    (ha : a.prio ≤ b) (hl : Wf a.prio l) (hr : Wf a.prio r) (ho : Wf a.prio o) :
    ∃ t T, diffNA c p f a l k v r o sw sym = some t ∧ Wf b t ∧
      AlignedSw (diffOp sym) c.SaidEqual sw (l.toList ++ (k, v) :: r.toList) o.toList t.toList T := by
  obtain ⟨l', r', T, h1, h2, h3, h4, h5⟩ := callsA hf p (v := v) (k := k) (sw := sw) hn hl hr ho
  simp only [diffNA, h1, h2, Option.bind_eq_bind, Option.bind_some]
  by_cases hc : ((entry (splitA (fun i => c p i k) 0 o).2.1).isSome || (sw && !sym)) = true
  · rw [if_pos hc]
    refine ⟨_, T, rfl, wf_merge (h3.mono ha) (h4.mono ha), ?_⟩
    have : ((diffOp sym).pick (rootSlot sw (k, v) (entry (splitA (fun i => c p i k) 0 o).2.1))) = none := by
      revert hc
      cases entry (splitA (fun i => c p i k) 0 o).2.1 <;> cases sw <;> cases sym <;> simp [rootSlot, diffOp, PairOp.pick]
    rw [this] at h5
    rw [toList_merge]; simpa using h5
  · rw [if_neg hc]
    refine ⟨_, T, rfl, wf_mk ha h3 h4, ?_⟩
    have : ((diffOp sym).pick (rootSlot sw (k, v) (entry (splitA (fun i => c p i k) 0 o).2.1))) = some (k, v) := by
      revert hc
      cases entry (splitA (fun i => c p i k) 0 o).2.1 <;> cases sw <;> cases sym <;> simp [rootSlot, diffOp, PairOp.pick]
    rw [this] at h5
    rw [toList_mk]; simpa using h5

/-- One of the lists is empty. -/
theorem aligned_left_only (op : PairOp) (Eq : (K × V) → (K × V) → Prop) (l : List (K × V)) :
    Aligned op Eq l [] (if op = .intersection then [] else l) (l.map Slot.left) := by
  refine ⟨?_, ?_, ?_, by simp⟩
  · simp only [List.filterMap_map]; exact List.filterMap_some
  · simp only [List.filterMap_map]; exact List.filterMap_eq_nil_iff.2 fun _ _ => rfl
  · simp only [List.filterMap_map]
    cases op
    · exact List.filterMap_some
    · exact List.filterMap_eq_nil_iff.2 fun _ _ => rfl
    · exact List.filterMap_some
    · exact List.filterMap_some

theorem aligned_right_only (op : PairOp) (Eq : (K × V) → (K × V) → Prop) (r : List (K × V)) :
    Aligned op Eq [] r (if op = .intersection ∨ op = .difference then [] else r) (r.map Slot.right) := by
  refine ⟨?_, ?_, ?_, by simp⟩
  · simp only [List.filterMap_map]; exact List.filterMap_eq_nil_iff.2 fun _ _ => rfl
  · simp only [List.filterMap_map]; exact List.filterMap_some
  · simp only [List.filterMap_map]
    cases op
    · exact List.filterMap_some
    · exact List.filterMap_eq_nil_iff.2 fun _ _ => rfl
    · exact List.filterMap_eq_nil_iff.2 fun _ _ => rfl
    · exact List.filterMap_some

theorem unionA_spec (c : SetAnswers K) (n : Nat) : DeliversA (V := V) .union c n (unionA c n) := by
  induction n with
  | zero => intro p l r sw b h; simp at h
  | succ n ih =>
    intro p l r sw b hn hl hr
    cases l with
    | nil =>
      cases sw
      · exact ⟨r, _, by simp [unionA], hr, aligned_right_only .union _ _⟩
      · exact ⟨r, _, by simp [unionA], hr, aligned_left_only .union _ _⟩
    | node a ll k v lr =>
      cases r with
      | nil =>
        cases sw
        · exact ⟨_, _, rfl, hl, aligned_left_only .union _ _⟩
        · exact ⟨_, _, rfl, hl, aligned_right_only .union _ _⟩
      | node d rl x w rr =>
        rw [wf_node] at hl hr
        simp only [Tree.toList_node, List.length_append, List.length_cons] at hn
        rw [unionA]
        split
        · next h =>
          obtain ⟨t, T, h1, h2, h3⟩ := unionNA_spec (sw := !sw) ih p (k := x) (v := w) (o := .node a ll k v lr)
            (by simp only [Tree.toList_node, List.length_append, List.length_cons]; omega) hr.1 hr.2.2.1 hr.2.2.2
            (wf_node.2 ⟨Nat.le_of_lt h, hl.2⟩)
          exact ⟨t, T, h1, h2, alignedSw_not h3⟩
        · next h =>
          exact unionNA_spec (sw := sw) ih p (k := k) (v := v) (o := .node d rl x w rr)
            (by simp only [Tree.toList_node, List.length_append, List.length_cons]; omega) hl.1 hl.2.2.1 hl.2.2.2
            (wf_node.2 ⟨Nat.le_of_not_lt h, hr.2⟩)

theorem interA_spec (c : SetAnswers K) (n : Nat) : DeliversA (V := V) .intersection c n (interA c n) := by
  induction n with
  | zero => intro p l r sw b h; simp at h
  | succ n ih =>
    intro p l r sw b hn hl hr
    cases l with
    | nil =>
      cases sw
      · exact ⟨.nil, _, by simp [interA], trivial, aligned_right_only .intersection _ _⟩
      · exact ⟨.nil, _, by simp [interA], trivial, aligned_left_only .intersection _ _⟩
    | node a ll k v lr =>
      cases r with
      | nil =>
        cases sw
        · exact ⟨.nil, _, rfl, trivial, aligned_left_only .intersection _ _⟩
        · exact ⟨.nil, _, rfl, trivial, aligned_right_only .intersection _ _⟩
      | node d rl x w rr =>
        rw [wf_node] at hl hr
        simp only [Tree.toList_node, List.length_append, List.length_cons] at hn
        rw [interA]
        split
        · next h =>
          obtain ⟨t, T, h1, h2, h3⟩ := interNA_spec (sw := !sw) ih p (k := x) (v := w) (o := .node a ll k v lr)
            (by simp only [Tree.toList_node, List.length_append, List.length_cons]; omega) hr.1 hr.2.2.1 hr.2.2.2
            (wf_node.2 ⟨Nat.le_of_lt h, hl.2⟩)
          exact ⟨t, T, h1, h2, alignedSw_not h3⟩
        · next h =>
          exact interNA_spec (sw := sw) ih p (k := k) (v := v) (o := .node d rl x w rr)
            (by simp only [Tree.toList_node, List.length_append, List.length_cons]; omega) hl.1 hl.2.2.1 hl.2.2.2
            (wf_node.2 ⟨Nat.le_of_not_lt h, hr.2⟩)

theorem wf_diffBase {b : Nat} {l r : TTree K V} (hl : Wf b l) (hr : Wf b r) (sw sym : Bool) :
    Wf b (diffBase l r sw sym) := by
  unfold diffBase
  split
  · exact wf_merge hl hr
  · split <;> assumption

theorem diffA_spec (sym : Bool) (c : SetAnswers K) (n : Nat) : DeliversA (V := V) (diffOp sym) c n (diffA c sym n) := by
  induction n with
  | zero => intro p l r sw b h; simp at h
  | succ n ih =>
    intro p l r sw b hn hl hr
    cases l with
    | nil =>
      cases sw
      · refine ⟨diffBase .nil r false sym, r.toList.map Slot.right, by simp [diffA], wf_diffBase (l := .nil) trivial hr _ _, ?_⟩
        have h := aligned_right_only (diffOp sym) c.SaidEqual r.toList
        cases sym
        · exact h
        · simp only [diffBase, if_true, toList_merge]; exact h
      · refine ⟨diffBase .nil r true sym, r.toList.map Slot.left, by simp [diffA], wf_diffBase (l := .nil) trivial hr _ _, ?_⟩
        have h := aligned_left_only (diffOp sym) c.SaidEqual r.toList
        cases sym
        · exact h
        · simp only [diffBase, if_true, toList_merge]; exact h
    | node a ll k v lr =>
      cases r with
      | nil =>
        cases sw
        · refine ⟨_, (Tree.node a ll k v lr).toList.map Slot.left, rfl, wf_diffBase (r := .nil) hl trivial _ _, ?_⟩
          have h := aligned_left_only (diffOp sym) c.SaidEqual (Tree.node a ll k v lr).toList
          cases sym
          · exact h
          · simp only [diffBase, if_true, toList_merge, Tree.toList_nil, List.append_nil]; exact h
        · refine ⟨_, (Tree.node a ll k v lr).toList.map Slot.right, rfl, wf_diffBase (r := .nil) hl trivial _ _, ?_⟩
          have h := aligned_right_only (diffOp sym) c.SaidEqual (Tree.node a ll k v lr).toList
          cases sym
          · exact h
          · simp only [diffBase, if_true, toList_merge, Tree.toList_nil, List.append_nil]; exact h
      | node d rl x w rr =>
        rw [wf_node] at hl hr
        simp only [Tree.toList_node, List.length_append, List.length_cons] at hn
        rw [diffA]
        split
        · next h =>
          obtain ⟨t, T, h1, h2, h3⟩ := diffNA_spec (sw := !sw) ih p (k := x) (v := w) (o := .node a ll k v lr)
            (by simp only [Tree.toList_node, List.length_append, List.length_cons]; omega) hr.1 hr.2.2.1 hr.2.2.2
            (wf_node.2 ⟨Nat.le_of_lt h, hl.2⟩)
          exact ⟨t, T, h1, h2, alignedSw_not h3⟩
        · next h =>
          exact diffNA_spec (sw := sw) ih p (k := k) (v := v) (o := .node d rl x w rr)
            (by simp only [Tree.toList_node, List.length_append, List.length_cons]; omega) hl.1 hl.2.2.1 hl.2.2.2
            (wf_node.2 ⟨Nat.le_of_not_lt h, hr.2⟩)

/-- All maps that can come about: by calls of the API with arbitrary answers, by set operations and by `split_off`. -/
inductive Made : TreapMap K V → Prop where
  | new : Made TreapMap.new
  | call {m m' : TreapMap K V} {op : TCall K V} {p : Nat} {r : LRes K V} :
      Made m → stepA m op p = some (m', r) → Made m'
  | setOp {l r m : TreapMap K V} {c : SetAnswers K} {op : PairOp} :
      Made l → Made r → TreapMap.setOpA c l r op = some m → Made m
  | kept {m : TreapMap K V} {c : Nat → K → Ordering} {incl : Bool} : Made m → Made (m.splitOffA c incl).1
  | splitOff {m : TreapMap K V} {c : Nat → K → Ordering} {incl : Bool} : Made m → Made (m.splitOffA c incl).2

theorem setOpA_spec (c : SetAnswers K) (l r : TreapMap K V) (op : PairOp) (hl : ∃ b, Wf b l.tree)
    (hr : ∃ b, Wf b r.tree) :
    ∃ m T, TreapMap.setOpA c l r op = some m ∧ (∃ b, Wf b m.tree) ∧
      Aligned op c.SaidEqual l.tree.toList r.tree.toList m.tree.toList T := by
  obtain ⟨b, hl⟩ := hl
  obtain ⟨b', hr⟩ := hr
  have h1 : Wf (max b b') l.tree := hl.mono (Nat.le_max_left _ _)
  have h2 : Wf (max b b') r.tree := hr.mono (Nat.le_max_right _ _)
  have hn : l.tree.toList.length + r.tree.toList.length < depthBound l.tree r.tree := by
    simp [depthBound, Tree.size_eq_length]
  have key : ∀ {f}, DeliversA op c (depthBound l.tree r.tree) f →
      ∃ m T, (f [] l.tree r.tree false).map TreapMap.mk = some m ∧ (∃ b, Wf b m.tree) ∧
        Aligned op c.SaidEqual l.tree.toList r.tree.toList m.tree.toList T := by
    intro f hf
    obtain ⟨t, T, e1, e2, e3⟩ := hf [] l.tree r.tree false _ hn h1 h2
    exact ⟨⟨t⟩, T, by rw [e1]; rfl, ⟨_, e2⟩, e3⟩
  cases op
  · exact key (unionA_spec c _)
  · exact key (interA_spec c _)
  · exact key (diffA_spec false c _)
  · exact key (diffA_spec true c _)

theorem splitOffA_spec (c : Nat → K → Ordering) (m : TreapMap K V) (incl : Bool) (h : ∃ b, Wf b m.tree) :
    (∃ b, Wf b (m.splitOffA c incl).1.tree) ∧ (∃ b, Wf b (m.splitOffA c incl).2.tree) ∧
      m.tree.toList = (m.splitOffA c incl).1.tree.toList ++ (m.splitOffA c incl).2.tree.toList := by
  obtain ⟨b, h⟩ := h
  obtain ⟨w1, w2, w3⟩ := wf_splitA c h 0
  obtain ⟨s1, s2, _⟩ := splitA_toList c m.tree 0
  cases incl
  · exact ⟨⟨_, w1⟩, ⟨_, wf_merge w2 w3⟩, by
      simp only [TreapMap.splitOffA, Bool.false_eq_true, if_false, toList_merge, s2]
      rw [← List.append_assoc]; exact s1⟩
  · exact ⟨⟨_, wf_merge w1 w2⟩, ⟨_, w3⟩, by
      simp only [TreapMap.splitOffA, if_true, toList_merge, s2]
      exact s1⟩

theorem Made.wf {m : TreapMap K V} (h : Made m) : ∃ b, Wf b m.tree := by
  induction h with
  | new => exact ⟨0, trivial⟩
  | @call m m' op p r _ hs ih =>
    obtain ⟨m'', r', e1, _, e3⟩ := stepA_keeps m op p ih
    cases Option.some.inj (e1.symm.trans hs)
    exact e3
  | @setOp l r m c op _ _ hs ihl ihr =>
    obtain ⟨m', _, e1, e2, _⟩ := setOpA_spec c l r op ihl ihr
    cases Option.some.inj (e1.symm.trans hs)
    exact e2
  | kept _ ih => exact (splitOffA_spec _ _ _ ih).1
  | splitOff _ ih => exact (splitOffA_spec _ _ _ ih).2.1

/-- **C80**, set operations: whatever the comparisons answer, two maps of any history are combined without a panic; the
two lists of entries are interleaved in their orders, some entries being paired because a comparison called them equal,
and the result lists what the operation keeps of each place.  `len` is right. -/
theorem C80_treap_set_ops (c : SetAnswers K) (l r : TreapMap K V) (op : PairOp) (hl : Made l) (hr : Made r) :
    ∃ m T, TreapMap.setOpA c l r op = some m ∧ len m.tree = (Iter.start m.tree).collect.length ∧
      Aligned op c.SaidEqual (Iter.start l.tree).collect (Iter.start r.tree).collect (Iter.start m.tree).collect T := by
  obtain ⟨m, T, e1, ⟨b, e2⟩, e3⟩ := setOpA_spec c l r op hl.wf hr.wf
  simp only [Iter.collect_start]
  exact ⟨m, T, e1, len_eq e2, e3⟩

/-- **C80**, `split_off`: whatever the comparisons answer, the two maps together list the entries of the old one in
the old order, and both know their length. -/
theorem C80_treap_split_off (c : Nat → K → Ordering) (m : TreapMap K V) (incl : Bool) (h : Made m) :
    (Iter.start m.tree).collect =
      (Iter.start (m.splitOffA c incl).1.tree).collect ++ (Iter.start (m.splitOffA c incl).2.tree).collect ∧
    len (m.splitOffA c incl).1.tree = (Iter.start (m.splitOffA c incl).1.tree).collect.length ∧
    len (m.splitOffA c incl).2.tree = (Iter.start (m.splitOffA c incl).2.tree).collect.length := by
  obtain ⟨⟨_, h1⟩, ⟨_, h2⟩, h3⟩ := splitOffA_spec c m incl h.wf
  simp only [Iter.collect_start]
  exact ⟨h3, len_eq h1, len_eq h2⟩

/-- **C80**, histories: all calls of `C79_treap` stay what they are on every map that has come about by set operations
and `split_off` as well. -/
theorem C80_treap_calls (m : TreapMap K V) (op : TCall K V) (p : Nat) (h : Made m) :
    ∃ m' r, stepA m op p = some (m', r) ∧ Made m' ∧
      op.Keeps (Iter.start m.tree).collect r (Iter.start m'.tree).collect ∧
      len m'.tree = (Iter.start m'.tree).collect.length := by
  obtain ⟨m', r, e1, e2, b, e3⟩ := stepA_keeps m op p h.wf
  refine ⟨m', r, e1, h.call e1, ?_, ?_⟩
  · simp only [Iter.collect_start]; exact e2
  · rw [Iter.collect_start, len_eq e3]

section Lawful
variable [LinearOrder K]

/-- The answers of an ordered key type. -/
def SetAnswers.lawful : SetAnswers K := fun _ _ k x => if k < x then .lt else if x < k then .gt else .eq

theorem splitA_lawful' (p : List Bool) (k : K) (t : TTree K V) :
    splitA (fun i => SetAnswers.lawful p i k) 0 t = split k t := splitA_lawful k t 0

theorem unionA_lawful (n : Nat) : ∀ (p : List Bool) (l r : TTree K V) (sw : Bool),
    unionA SetAnswers.lawful n p l r sw = unionF n l r sw := by
  induction n with
  | zero => intro p l r sw; rfl
  | succ n ih =>
    intro p l r sw
    cases l <;> cases r <;> simp only [unionA, unionF, unionNA, unionN, splitA_lawful', ih]

theorem interA_lawful (n : Nat) : ∀ (p : List Bool) (l r : TTree K V) (sw : Bool),
    interA SetAnswers.lawful n p l r sw = interF n l r sw := by
  induction n with
  | zero => intro p l r sw; rfl
  | succ n ih =>
    intro p l r sw
    cases l <;> cases r <;> simp only [interA, interF, interNA, interN, splitA_lawful', ih]; rfl

theorem diffA_lawful (sym : Bool) (n : Nat) : ∀ (p : List Bool) (l r : TTree K V) (sw : Bool),
    diffA SetAnswers.lawful sym n p l r sw = diffF sym n l r sw := by
  induction n with
  | zero => intro p l r sw; rfl
  | succ n ih =>
    intro p l r sw
    cases l <;> cases r <;> simp only [diffA, diffF, diffNA, diffN, splitA_lawful', ih]

/-- With the answers of an ordered key type the operations are those of the model used everywhere else. -/
theorem C80_treap_covers_lawful (l r : TreapMap K V) (k : K) (incl : Bool) :
    TreapMap.setOpA SetAnswers.lawful l r .union = l.union r ∧
    TreapMap.setOpA SetAnswers.lawful l r .intersection = l.intersection r ∧
    TreapMap.setOpA SetAnswers.lawful l r .difference = l.difference r ∧
    TreapMap.setOpA SetAnswers.lawful l r .symmetricDifference = l.symmetricDifference r ∧
    l.splitOffA (TAnswers.lawful k).cmp incl = l.splitOff k incl := by
  refine ⟨?_, ?_, ?_, ?_, ?_⟩
  · simp only [TreapMap.setOpA, TreapMap.union, unionA_lawful]
  · simp only [TreapMap.setOpA, TreapMap.intersection, interA_lawful]
  · simp only [TreapMap.setOpA, TreapMap.difference, diffA_lawful]
  · simp only [TreapMap.setOpA, TreapMap.symmetricDifference, diffA_lawful]
  · simp only [TreapMap.splitOffA, TreapMap.splitOff, splitA_lawful]

end Lawful

/-- Answers that obey no law: at the top the first stored key is "equal" although it is another one, below everything
alternates. -/
def oddSetAnswers : SetAnswers Nat := fun p i _ _ => if p = [] ∧ i = 1 then .eq else if i % 2 = 0 then .gt else .lt

/-- Three entries from calls with lawful answers, and three more. -/
def exLeft : TreapMap Nat Nat := ⟨mk 9 (mk 4 .nil 1 10 .nil) 2 20 (mk 5 .nil 3 30 .nil)⟩
def exRight : TreapMap Nat Nat := ⟨mk 8 (mk 3 .nil 1 11 .nil) 2 21 (mk 7 .nil 5 51 .nil)⟩

theorem made_of_run : ∀ (ops : List (TCall K V × Nat)) {m m' : TreapMap K V} {h}, Made m →
    (lawless K V).run m ops = some (m', h) → Made m'
  | [], _, _, _, hm, hr => by cases Option.some.inj hr; exact hm
  | (op, p) :: ops, m, m', h, hm, hr => by
    obtain ⟨m1, r, e1, e2, _⟩ := C80_treap_calls m op p hm
    have hs : (lawless K V).step m op p = some (m1, r) := e1
    simp only [TImpl.run, hs] at hr
    cases h2 : (lawless K V).run m1 ops with
    | none => rw [h2] at hr; cases hr
    | some q =>
      rw [h2] at hr
      cases Option.some.inj hr
      exact made_of_run ops e2 h2

def exLeftCalls : List (TCall Nat Nat × Nat) :=
  [(.insert 2 20 (.lawful 2), 9), (.insert 1 10 (.lawful 1), 4), (.insert 3 30 (.lawful 3), 5)]
def exRightCalls : List (TCall Nat Nat × Nat) :=
  [(.insert 2 21 (.lawful 2), 8), (.insert 1 11 (.lawful 1), 3), (.insert 5 51 (.lawful 5), 7)]

/-- Both maps come about. -/
example : Made exLeft ∧ Made exRight :=
  ⟨made_of_run exLeftCalls (h := _) .new rfl, made_of_run exRightCalls (h := _) .new rfl⟩

/-- The entry of the key 2 is paired with the one of the key 5, so that 2 is in the union twice, and so is 1. -/
example : (TreapMap.setOpA oddSetAnswers exLeft exRight .union).map (fun m => (Iter.start m.tree).collect) =
      some [(1, 11), (1, 10), (2, 21), (2, 20), (3, 30)] ∧
    (TreapMap.setOpA oddSetAnswers exLeft exRight .intersection).map (fun m => (Iter.start m.tree).collect) =
      some [(2, 20)] ∧
    (TreapMap.setOpA oddSetAnswers exLeft exRight .difference).map (fun m => (Iter.start m.tree).collect) =
      some [(1, 10), (3, 30)] ∧
    (TreapMap.setOpA oddSetAnswers exLeft exRight .symmetricDifference).map (fun m => (Iter.start m.tree).collect) =
      some [(1, 11), (1, 10), (2, 21), (3, 30)] := by
  simp only [Iter.collect_start]; decide +kernel

end Verif.Treap
