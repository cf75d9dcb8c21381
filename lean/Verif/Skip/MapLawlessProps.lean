/- C75: wrong comparisons cannot break the memory of a `SkipMap`, as long as they do not change during a call. -/
import Verif.Skip.MapLawlessSim

namespace Verif.Skip.Map

open Verif.Spec

variable {K V : Type}

/-- C75.  Start with an empty map and make any calls.  The comparisons may answer anything; they need not be orders, need
not agree with each other, and may change from call to call; only while one `insert` or `remove` runs must they keep to
their answers.  Then no call touches memory it must not, each does what `LCall.Spec` says to the list of entries (so no
entry is lost or handed out twice), and dropping the map frees all its memory, each node once.

Missing: answers that change during an `insert` or `remove`, for which the claim is false (`C75_violated`). -/
theorem C75_lawless_comparisons_partial (a : Addr) (ops : List (LCall K V × Draw))
    (hops : ∀ x ∈ ops, x.1.Edits → x.1.Steady) :
    ∃ s h l, runL (SkipMap.new a) ops = some (s, h) ∧ h.map (·.1) = ops.map (·.1) ∧ LHistory [] h l ∧
      s.iter = some l ∧ s.len = l.length ∧ ∃ m, s.drop = some m ∧ ∀ b, m b = none := by
  obtain ⟨s, h, C, l, h1, h2, h3, h4⟩ := runL_ok (wgood_new a) ops hops
  exact ⟨s, h, l, h1, h2, h4, iterL_ok h3, by rw [h3.len_eq, h3.length], lawlessDrop_ok h3⟩

theorem perm_move {α : Type} (p o q e I : List α) :
    (p ++ o ++ q ++ (e ++ I)).Perm (o ++ (p ++ (e ++ q) ++ I)) := by
  classical
  refine List.perm_iff_count.2 fun x => ?_
  simp only [List.count_append]
  omega

theorem history_conserves {h : List (LCall K V × LRes K V)} {l l' : List (K × V)} (hh : LHistory l h l')
    (hc : ∀ x ∈ h, (∀ c f, x.1 ≠ .getMut c f) ∧ x.1 ≠ .clear) :
    (l ++ h.flatMap fun x => x.1.putIn).Perm (l' ++ h.flatMap fun x => handedOut x.1 x.2) := by
  induction hh with
  | nil l => simp
  | @cons l l₁ l₂ op r h hs hh ih =>
    have ih := ih fun x hx => hc x (by simp [hx])
    obtain ⟨hm, hcl⟩ := hc (op, r) (by simp)
    have go : ∀ p o q e, l = p ++ o ++ q → l₁ = p ++ (e ++ q) → op.putIn = e → handedOut op r = o →
        (l ++ List.flatMap (fun x => x.1.putIn) ((op, r) :: h)).Perm
          (l₂ ++ List.flatMap (fun x => handedOut x.1 x.2) ((op, r) :: h)) := by
      rintro p o q e rfl rfl rfl rfl
      simp only [List.flatMap_cons]
      refine (perm_move p _ q _ _).trans ((ih.append_left _).trans ?_)
      rw [← List.append_assoc, ← List.append_assoc]
      exact List.perm_append_comm.append_right _
    cases op with
    | insert k v c =>
      obtain ⟨p, o, q, rfl, rfl, rfl, _⟩ := hs
      exact go p o.toList q [(k, v)] rfl rfl rfl rfl
    | remove c =>
      obtain ⟨p, o, q, rfl, rfl, rfl, _⟩ := hs
      exact go p o.toList q [] rfl rfl rfl rfl
    | getMut c f => exact absurd rfl (hm c f)
    | clear => exact absurd rfl hcl
    | _ => obtain ⟨rfl, _⟩ := hs; exact ih

/-- C75 from the side of the caller: if nothing is cleared or changed in place, the entries put in are, in some order,
those handed out by `insert` and `remove` and those that are still there.  Missing: as above. -/
theorem C75_nothing_lost_or_doubled_partial (a : Addr) (ops : List (LCall K V × Draw))
    (hops : ∀ x ∈ ops, x.1.Edits → x.1.Steady)
    (hc : ∀ x ∈ ops, (∀ c f, x.1 ≠ .getMut c f) ∧ x.1 ≠ .clear) :
    ∃ s h l, runL (SkipMap.new a) ops = some (s, h) ∧ s.iter = some l ∧
      (ops.flatMap fun x => x.1.putIn).Perm (l ++ h.flatMap fun x => handedOut x.1 x.2) := by
  obtain ⟨s, h, l, h1, h2, h3, h4, _⟩ := C75_lawless_comparisons_partial a ops hops
  refine ⟨s, h, l, h1, h4, ?_⟩
  have h5 := history_conserves h3 (fun x hx => by
    have : x.1 ∈ ops.map (·.1) := by rw [← h2]; exact List.mem_map.2 ⟨x, hx, rfl⟩
    obtain ⟨y, hy, e⟩ := List.mem_map.1 this
    have := hc y hy
    rw [e] at this
    exact this)
  have e : (ops.flatMap fun x => x.1.putIn) = h.flatMap fun x => x.1.putIn := by
    have e1 : (ops.flatMap fun x => x.1.putIn) = (ops.map (·.1)).flatMap LCall.putIn := by rw [List.flatMap_map]
    have e2 : (h.flatMap fun x => x.1.putIn) = (h.map (·.1)).flatMap LCall.putIn := by rw [List.flatMap_map]
    rw [e1, e2, h2]
  rw [e]
  simpa using h5

/-- With the answers of a linear order, the calls are those of `Skip/MapModel`. -/
theorem C75_covers_lawful [LinearOrder K] (s : SkipMap K V) (k : K) (v : V) (d : Draw) (f : V → V) :
    s.insertL k v (lawful k) d.1 d.2 = s.insert k v d.1 d.2 ∧ s.removeL (lawful k) = s.remove k ∧
      s.getL (lawful k) = s.get k ∧ s.getMutL (lawful k) f = s.getMut k f ∧
      s.floorL (lawful k) = s.floor k ∧ s.ceilL (lawful k) = s.ceil k :=
  ⟨lawful_insert s k v d.1 d.2, lawful_remove s k, lawful_get s k, lawful_getMut s k f, lawful_floor s k,
    lawful_ceil s k⟩

/-- Answers that do not depend on the level. -/
def fixed (lt eq le : K → Bool) : Answers K := ⟨fun _ => lt, fun _ => eq, fun _ => le⟩

theorem fixed_steady (lt eq le : K → Bool) : (fixed lt eq le).Steady := fun _ _ => ⟨rfl, rfl, rfl⟩

/-- A comparison that says "less" to everything appends, one that says "equal" to everything replaces; the towers get
out of step with the keys, a node drops out of level 1 but stays in the map. -/
example : (runL (SkipMap.new 0)
      [(.insert 5 'a' (fixed (fun _ => true) (fun _ => false) fun _ => false), (1, 0)),
       (.insert 2 'b' (fixed (fun _ => true) (fun _ => false) fun _ => false), (0, 0)),
       (.insert 2 'c' (fixed (fun _ => true) (fun _ => true) fun _ => true), (3, 0)),
       (.remove (fixed (fun k => k == 7) (fun k => k == 2) fun _ => false), (0, 0)),
       (.remove (fixed (fun _ => false) (fun _ => true) fun _ => false), (0, 0)),
       (.iter, (0, 0)), (.max, (0, 0))] : Option (SkipMap Nat Char × _)).map (fun x => x.2.map (·.2)) =
    some [.pair none, .pair none, .pair none, .pair none, .pair (some (5, 'a')),
      .list [(2, 'b'), (2, 'c')], .key (some 2)] := by decide +kernel

/-- C75 is false if a comparison changes its answer during a call: a `remove` to which the key is different on level 1
and equal on level 0 frees a node that is still linked on level 1; the next lookup reads freed memory. -/
theorem C75_violated :
    ¬ ∀ (a : Addr) (ops : List (LCall Nat Unit × Draw)), ∃ s h, runL (SkipMap.new a) ops = some (s, h) := by
  intro h
  obtain ⟨s, hh, e⟩ := h 0 [
    (.insert 1 () (fixed (fun _ => false) (fun _ => false) fun _ => false), (1, 0)),
    (.insert 2 () (fixed (fun _ => true) (fun _ => false) fun _ => false), (0, 0)),
    (.remove ⟨fun _ _ => false, fun i _ => i == 0, fun _ _ => false⟩, (0, 0)),
    (.get (fixed (fun _ => false) (fun _ => false) fun _ => false), (0, 0))]
  have : runL (SkipMap.new 0) [
    (.insert 1 () (fixed (fun _ => false) (fun _ => false) fun _ => false), (1, 0)),
    (.insert 2 () (fixed (fun _ => true) (fun _ => false) fun _ => false), (0, 0)),
    (.remove ⟨fun _ _ => false, fun i _ => i == 0, fun _ _ => false⟩, (0, 0)),
    (.get (fixed (fun _ => false) (fun _ => false) fun _ => false), (0, 0))] = (none : Option (SkipMap Nat Unit × _)) := rfl
  rw [this] at e
  simp at e

/-- It is not enough that `==` keeps to its answers: if `<` changes its mind during one `insert`, the two levels list the
nodes in different orders and a later, steady `remove` frees a node that is still linked. -/
theorem C75_violated_lt :
    ∃ ops : List (LCall Nat Unit × Draw), (∀ x ∈ ops, ∀ k v c, x.1 = .insert k v c → ∀ i j k, c.eq i k = c.eq j k) ∧
      (∀ x ∈ ops, ∀ c, x.1 = .remove c → c.Steady) ∧ runL (SkipMap.new 0) ops = none := by
  refine ⟨[(.insert 1 () (fixed (fun _ => false) (fun _ => false) fun _ => false), (1, 0)),
    (.insert 2 () ⟨fun i _ => i == 0, fun _ _ => false, fun _ _ => false⟩, (1, 0)),
    (.remove (fixed (fun _ => false) (fun k => k == 1) fun _ => false), (0, 0)),
    (.get (fixed (fun _ => true) (fun _ => false) fun _ => false), (0, 0))], ?_, ?_, rfl⟩
  · intro x hx k v c hc
    simp only [List.mem_cons, List.not_mem_nil, or_false] at hx
    rcases hx with rfl | rfl | rfl | rfl <;> simp only [LCall.insert.injEq, reduceCtorEq] at hc
    · obtain ⟨_, _, rfl⟩ := hc; intros; rfl
    · obtain ⟨_, _, rfl⟩ := hc; intros; rfl
  · intro x hx c hc
    simp only [List.mem_cons, List.not_mem_nil, or_false] at hx
    rcases hx with rfl | rfl | rfl | rfl <;> simp only [LCall.remove.injEq, reduceCtorEq] at hc
    subst hc; exact fixed_steady _ _ _

end Verif.Skip.Map
