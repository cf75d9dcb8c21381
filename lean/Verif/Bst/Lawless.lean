/- The reading functions of the four search trees with arbitrary answers of the comparisons (the counter is the number
of comparisons made before). -/
import Verif.Bst.Lemmas
import Verif.Spec.LawlessTree

namespace Verif.Bst

open Verif.Spec

variable {A K V : Type}

namespace Tree

/-- `tree::get` with the answers `c`: avl_tree/tree.rs:123-134, red_black_tree/tree.rs:174-185,
splay_tree/tree.rs:134-145, treap/tree.rs:128-139. -/
def getA (c : Nat → K → Ordering) : Nat → Tree A K V → Option (K × V)
  | _, nil => none
  | i, node _ l x v r =>
    match c i x with
    | .lt => l.getA c (i + 1)
    | .gt => r.getA c (i + 1)
    | .eq => some (x, v)

/-- `tree::get_mut` with the answers `c`: avl_tree/tree.rs:136-147, red_black_tree/tree.rs:187-198,
treap/tree.rs:141-152 (the caller replaces the value by `f`). -/
def getMutA (c : Nat → K → Ordering) (f : V → V) : Nat → Tree A K V → Option (K × V) × Tree A K V
  | _, nil => (none, nil)
  | i, node a l x v r =>
    match c i x with
    | .lt => ((l.getMutA c f (i + 1)).1, node a (l.getMutA c f (i + 1)).2 x v r)
    | .gt => ((r.getMutA c f (i + 1)).1, node a l x v (r.getMutA c f (i + 1)).2)
    | .eq => (some (x, v), node a l x (f v) r)

/-- `tree::ceil` with the answers `c`: avl_tree/tree.rs:149-163, red_black_tree/tree.rs:200-214,
splay_tree/tree.rs:161-175, treap/tree.rs:154-168. -/
def ceilA (c : Nat → K → Ordering) : Nat → Tree A K V → Option (K × V)
  | _, nil => none
  | i, node _ l x v r =>
    match c i x with
    | .gt => r.ceilA c (i + 1)
    | .lt =>
      match l.ceilA c (i + 1) with
      | none => some (x, v)
      | res => res
    | .eq => some (x, v)

/-- `tree::floor` with the answers `c`: avl_tree/tree.rs:165-179, red_black_tree/tree.rs:216-230,
splay_tree/tree.rs:177-191, treap/tree.rs:170-184. -/
def floorA (c : Nat → K → Ordering) : Nat → Tree A K V → Option (K × V)
  | _, nil => none
  | i, node _ l x v r =>
    match c i x with
    | .lt => l.floorA c (i + 1)
    | .gt =>
      match r.floorA c (i + 1) with
      | none => some (x, v)
      | res => res
    | .eq => some (x, v)

theorem getA_mem {c : Nat → K → Ordering} {t : Tree A K V} {i : Nat} {e : K × V} (h : t.getA c i = some e) :
    e ∈ t.toList ∧ ∃ j, c j e.1 = .eq := by
  induction t generalizing i with
  | nil => simp [getA] at h
  | node a l x v r ihl ihr =>
    simp only [getA] at h
    split at h
    · obtain ⟨h1, h2⟩ := ihl h; exact ⟨by simp [h1], h2⟩
    · obtain ⟨h1, h2⟩ := ihr h; exact ⟨by simp [h1], h2⟩
    · next hc => cases h; exact ⟨by simp, i, hc⟩

theorem ceilA_mem {c : Nat → K → Ordering} {t : Tree A K V} {i : Nat} {e : K × V} (h : t.ceilA c i = some e) :
    e ∈ t.toList ∧ ∃ j, c j e.1 ≠ .gt := by
  induction t generalizing i with
  | nil => simp [ceilA] at h
  | node a l x v r ihl ihr =>
    simp only [ceilA] at h
    split at h
    · obtain ⟨h1, h2⟩ := ihr h; exact ⟨by simp [h1], h2⟩
    · next hc =>
      split at h
      · cases h; exact ⟨by simp, i, by simp [hc]⟩
      · obtain ⟨h1, h2⟩ := ihl h; exact ⟨by simp [h1], h2⟩
    · next hc => cases h; exact ⟨by simp, i, by simp [hc]⟩

theorem floorA_mem {c : Nat → K → Ordering} {t : Tree A K V} {i : Nat} {e : K × V} (h : t.floorA c i = some e) :
    e ∈ t.toList ∧ ∃ j, c j e.1 ≠ .lt := by
  induction t generalizing i with
  | nil => simp [floorA] at h
  | node a l x v r ihl ihr =>
    simp only [floorA] at h
    split at h
    · obtain ⟨h1, h2⟩ := ihl h; exact ⟨by simp [h1], h2⟩
    · next hc =>
      split at h
      · cases h; exact ⟨by simp, i, by simp [hc]⟩
      · obtain ⟨h1, h2⟩ := ihr h; exact ⟨by simp [h1], h2⟩
    · next hc => cases h; exact ⟨by simp, i, by simp [hc]⟩

theorem getMutA_spec (c : Nat → K → Ordering) (f : V → V) (t : Tree A K V) (i : Nat) :
    ((t.getMutA c f i).1 = none ∧ (t.getMutA c f i).2 = t) ∨
      ∃ a k v b, (t.getMutA c f i).1 = some (k, v) ∧ t.toList = a ++ (k, v) :: b ∧
        (t.getMutA c f i).2.toList = a ++ (k, f v) :: b ∧ ∃ j, c j k = .eq := by
  induction t generalizing i with
  | nil => left; exact ⟨rfl, rfl⟩
  | node an l x v r ihl ihr =>
    simp only [getMutA]
    split
    · rcases ihl (i + 1) with ⟨h1, h2⟩ | ⟨a, k, w, b, h1, h2, h3, h4⟩
      · left; simp [h1, h2]
      · right
        exact ⟨a, k, w, b ++ (x, v) :: r.toList, h1, by simp [h2], by simp [h3], h4⟩
    · rcases ihr (i + 1) with ⟨h1, h2⟩ | ⟨a, k, w, b, h1, h2, h3, h4⟩
      · left; simp [h1, h2]
      · right
        exact ⟨l.toList ++ (x, v) :: a, k, w, b, h1, by simp [h2], by simp [h3], h4⟩
    · next hc => right; exact ⟨l.toList, x, v, r.toList, rfl, by simp, by simp, i, hc⟩

section Lawful
variable [LinearOrder K]

theorem getA_lawful (k : K) (t : Tree A K V) (i : Nat) : t.getA (TAnswers.lawful k).cmp i = t.get k := by
  induction t generalizing i with
  | nil => rfl
  | node a l x v r ihl ihr =>
    simp only [getA, get, TAnswers.lawful] at ihl ihr ⊢
    split_ifs <;> simp_all

theorem ceilA_lawful (k : K) (t : Tree A K V) (i : Nat) : t.ceilA (TAnswers.lawful k).cmp i = t.ceil k := by
  induction t generalizing i with
  | nil => rfl
  | node a l x v r ihl ihr =>
    simp only [ceilA, ceil, TAnswers.lawful] at ihl ihr ⊢
    rcases lt_trichotomy k x with h | h | h
    · simp only [h, if_true, not_lt_of_gt h, if_false, ihl]
      cases l.ceil k <;> rfl
    · subst h; simp
    · simp only [h, if_true, not_lt_of_gt h, if_false, ihr]

theorem floorA_lawful (k : K) (t : Tree A K V) (i : Nat) : t.floorA (TAnswers.lawful k).cmp i = t.floor k := by
  induction t generalizing i with
  | nil => rfl
  | node a l x v r ihl ihr =>
    simp only [floorA, floor, TAnswers.lawful] at ihl ihr ⊢
    rcases lt_trichotomy k x with h | h | h
    · simp only [h, if_true, ihl]
    · subst h; simp
    · simp only [h, if_true, not_lt_of_gt h, if_false, ihr]
      cases r.floor k <;> rfl

theorem getMutA_lawful (k : K) (f : V → V) (t : Tree A K V) (i : Nat) :
    t.getMutA (TAnswers.lawful k).cmp f i = t.getMut k f := by
  induction t generalizing i with
  | nil => rfl
  | node a l x v r ihl ihr =>
    simp only [getMutA, getMut, TAnswers.lawful] at ihl ihr ⊢
    split_ifs <;> simp_all

end Lawful

end Tree

/-- The calls that only read, the same in the four map types: `t` is the tree, `n` what `len()` returns.
`get` and `contains_key`, `floor`, `ceil`, `min`, `max`, `iter` of avl_tree/map.rs:123-322,
red_black_tree/map.rs:139-338, splay_tree/map.rs:125-329 and treap/map.rs:130-519. -/
def readA (t : Tree A K V) (n : Nat) : TCall K V → LRes K V
  | .get c => .val ((t.getA c.cmp 0).map (·.2))
  | .floor c => .key ((t.floorA c.cmp 0).map (·.1))
  | .ceil c => .key ((t.ceilA c.cmp 0).map (·.1))
  | .min => .key (t.min.map (·.1))
  | .max => .key (t.max.map (·.1))
  | .len => .num n
  | .iter => .list (Iter.start t).collect
  | _ => .unit

/-- The calls for which `readA` is meant. -/
def Reads : TCall K V → Prop
  | .insert .. => False
  | .remove _ => False
  | .getMut .. => False
  | .clear => False
  | _ => True

theorem readA_keeps (t : Tree A K V) {op : TCall K V} (h : Reads op) :
    op.Keeps t.toList (readA t t.toList.length op) t.toList := by
  cases op with
  | insert | remove | getMut | clear => exact absurd h (by simp [Reads])
  | get c =>
    refine ⟨rfl, _, rfl, fun v hv => ?_⟩
    obtain ⟨⟨k, w⟩, h1, rfl⟩ := Option.map_eq_some_iff.1 hv
    obtain ⟨h2, j, h3⟩ := Tree.getA_mem h1
    exact ⟨k, h2, j, .inl h3⟩
  | floor c =>
    refine ⟨rfl, _, rfl, fun k hk => ?_⟩
    obtain ⟨⟨k, w⟩, h1, rfl⟩ := Option.map_eq_some_iff.1 hk
    obtain ⟨h2, j, h3⟩ := Tree.floorA_mem h1
    exact ⟨w, j, h2, h3⟩
  | ceil c =>
    refine ⟨rfl, _, rfl, fun k hk => ?_⟩
    obtain ⟨⟨k, w⟩, h1, rfl⟩ := Option.map_eq_some_iff.1 hk
    obtain ⟨h2, j, h3⟩ := Tree.ceilA_mem h1
    exact ⟨w, j, h2, h3⟩
  | min => exact ⟨rfl, by simp only [readA, Tree.min_eq]⟩
  | max => exact ⟨rfl, by simp only [readA, Tree.max_eq]⟩
  | len => exact ⟨rfl, rfl⟩
  | iter => exact ⟨rfl, by simp only [readA, Iter.collect_start]⟩

end Verif.Bst
