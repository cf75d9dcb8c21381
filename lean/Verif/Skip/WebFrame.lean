/- The set operations of a `SkipMap` in a memory that holds other nodes besides. -/
import Verif.Skip.WebFit
import Verif.Skip.MapSetOpsSim

namespace Verif.Skip.Map.Torn

open Verif.Spec

variable {K V : Type}

/-- The nodes of `m`, and those of `F`. -/
def over (F m : MHeap K V) : MHeap K V := fun a => (m a).or (F a)

/-- `F` has no node at an address where `m` has one. -/
def Apart (F m : MHeap K V) : Prop := ∀ a, m a ≠ none → F a = none

theorem Apart.thins {F m m' : MHeap K V} (h : Apart F m) (ht : Thins m m') : Apart F m' := by
  intro a ha
  cases hm : m' a with
  | none => exact absurd hm ha
  | some n =>
    obtain ⟨n1, h1, -⟩ := ht a n hm
    exact h a (by simp [h1])

theorem over_some {F m : MHeap K V} {a : Addr} {n : Node (K × V) (Option Addr)} (h : m a = some n) : over F m a = some n := by
  simp [over, h]

theorem over_put (F m : MHeap K V) (a : Addr) (n : Node (K × V) (Option Addr)) :
    (over F m).put a n = over F (m.put a n) := by
  funext b
  simp only [over, Heap.put]
  split <;> rfl

theorem getLink_over {F m : MHeap K V} {a : Addr} {i : Nat} {l : Option Addr} (h : getLink m a i = some l) :
    getLink (over F m) a i = some l := by
  unfold getLink at h ⊢
  cases hm : m a with
  | none => simp [hm] at h
  | some n => rw [over_some hm]; simpa [hm] using h

theorem entryAt_over {F m : MHeap K V} {a : Addr} {e : K × V} (h : entryAt m a = some e) :
    entryAt (over F m) a = some e := by
  unfold entryAt at h ⊢
  cases hm : m a with
  | none => simp [hm] at h
  | some n => rw [over_some hm]; simpa [hm] using h

theorem setLink_over {F m m' : MHeap K V} {a : Addr} {i : Nat} {l : Option Addr} (h : setLink m a i l = some m') :
    setLink (over F m) a i l = some (over F m') := by
  unfold setLink at h ⊢
  cases hm : m a with
  | none => simp [hm] at h
  | some n =>
    rw [over_some hm]
    simp only [hm] at h ⊢
    split at h
    · rename_i hi
      cases h
      rw [if_pos hi, over_put]
    · simp at h

theorem zeroLinks_over {F m m' : MHeap K V} {a : Addr} {z : Option Addr} (h : zeroLinks m z a = some m') :
    zeroLinks (over F m) z a = some (over F m') := by
  unfold zeroLinks at h ⊢
  cases hm : m a with
  | none => simp [hm] at h
  | some n =>
    rw [over_some hm]
    simp only [hm] at h ⊢
    cases h
    rw [over_put]

theorem free_over {F m m' : MHeap K V} (hF : Apart F m) {a : Addr} (h : m.free a = some m') :
    (over F m).free a = some (over F m') := by
  unfold Heap.free at h ⊢
  cases hm : m a with
  | none => simp [hm] at h
  | some n =>
    rw [over_some hm]
    simp only [hm] at h ⊢
    cases h
    congr 1
    funext b
    simp only [over]
    split
    · rename_i e
      subst e
      rw [hF b (by simp [hm])]
      rfl
    · rfl

theorem freeAll_over {F m m' : MHeap K V} (hF : Apart F m) {f : Nat} {o : Option Addr} (h : freeAll m f o = some m') :
    freeAll (over F m) f o = some (over F m') := by
  induction f generalizing m o with
  | zero =>
    cases o with
    | none => simp only [freeAll, Option.some.injEq] at h ⊢; rw [h]
    | some a => simp [freeAll] at h
  | succ f ih =>
    cases o with
    | none => simp only [freeAll, Option.some.injEq] at h ⊢; rw [h]
    | some a =>
      simp only [freeAll, Option.bind_eq_bind] at h ⊢
      obtain ⟨l, h1, h⟩ := Option.bind_eq_some_iff.1 h
      obtain ⟨m1, h2, h⟩ := Option.bind_eq_some_iff.1 h
      rw [getLink_over h1, Option.bind_some, free_over hF h2, Option.bind_some]
      exact ih (hF.thins (free_thins h2)) h

theorem drop_over {F m : MHeap K V} {s : SkipMap K V} (hF : Apart F s.mem) (h : s.drop = some m) :
    SkipMap.drop { s with mem := over F s.mem } = some (over F m) := by
  simp only [SkipMap.drop, Option.bind_eq_bind] at h ⊢
  obtain ⟨l, h1, h⟩ := Option.bind_eq_some_iff.1 h
  obtain ⟨m1, h2, h⟩ := Option.bind_eq_some_iff.1 h
  rw [getLink_over h1, Option.bind_some, free_over hF h2, Option.bind_some]
  exact freeAll_over (hF.thins (free_thins h2)) h

/-- The state of a set operation in the larger memory. -/
def ov (F : MHeap K V) (s : Merge K V) : Merge K V := { s with mem := over F s.mem }

theorem relink_over {F : MHeap K V} {next : Addr} {n i : Nat} {m m' : MHeap K V} {c c' : List Addr}
    (h : relink next i n (m, c) = some (m', c')) :
    relink next i n (over F m, c) = some (over F m', c') ∧ Thins m m' := by
  induction n generalizing i m c with
  | zero =>
    simp only [relink, Option.some.injEq, Prod.mk.injEq] at h ⊢
    obtain ⟨rfl, rfl⟩ := h
    exact ⟨⟨rfl, rfl⟩, .refl _⟩
  | succ n ih =>
    simp only [relink] at h ⊢
    cases hc : c[i]? with
    | none =>
      simp only [hc, Option.some.injEq, Prod.mk.injEq] at h ⊢
      obtain ⟨rfl, rfl⟩ := h
      exact ⟨⟨rfl, rfl⟩, .refl _⟩
    | some x =>
      simp only [hc] at h ⊢
      cases hs : setLink m x i (some next) with
      | none => simp [hs] at h
      | some m1 =>
        simp only [hs] at h
        obtain ⟨h1, h2⟩ := ih h
        rw [setLink_over hs]
        exact ⟨h1, (setLink_thins hs).trans h2⟩

theorem append_over {F : MHeap K V} {extra : Nat} {next : Addr} {s s' : Merge K V} (h : append extra next s = some s') :
    append extra next (ov F s) = some (ov F s') ∧ Thins s.mem s'.mem := by
  unfold append at h ⊢
  cases hz : zeroLinks s.mem none next with
  | none => simp [hz] at h
  | some m =>
    simp only [hz] at h
    cases hn : m next with
    | none => simp [hn] at h
    | some n =>
      simp only [hn] at h
      obtain ⟨⟨m1, c1⟩, h1, h2⟩ := Option.map_eq_some_iff.1 h
      cases h2
      obtain ⟨h3, h4⟩ := relink_over (F := F) h1
      refine ⟨?_, (zeroLinks_thins hz).trans h4⟩
      simp only [ov, zeroLinks_over hz, over_some hn, h3, Option.map_some]

theorem popL_over {F : MHeap K V} {s s' : Merge K V} {a : Addr} (h : popL s = some (a, s')) :
    popL (ov F s) = some (a, ov F s') ∧ s'.mem = s.mem := by
  unfold popL at h ⊢
  cases hl : s.left with
  | none => simp [hl] at h
  | some x =>
    simp only [hl] at h
    obtain ⟨l, h1, h2⟩ := Option.map_eq_some_iff.1 h
    cases h2
    simp [ov, hl, getLink_over h1]

theorem popR_over {F : MHeap K V} {s s' : Merge K V} {a : Addr} (h : popR s = some (a, s')) :
    popR (ov F s) = some (a, ov F s') ∧ s'.mem = s.mem := by
  unfold popR at h ⊢
  cases hl : s.right with
  | none => simp [hl] at h
  | some x =>
    simp only [hl] at h
    obtain ⟨l, h1, h2⟩ := Option.map_eq_some_iff.1 h
    cases h2
    simp [ov, hl, getLink_over h1]

theorem freeNode_over {F : MHeap K V} {s s' : Merge K V} {a : Addr} (hF : Apart F s.mem) (h : freeNode s a = some s') :
    freeNode (ov F s) a = some (ov F s') ∧ Thins s.mem s'.mem := by
  unfold freeNode at h ⊢
  obtain ⟨m, h1, h2⟩ := Option.map_eq_some_iff.1 h
  cases h2
  have h3 : (ov F s).mem.free a = some (over F m) := free_over hF h1
  refine ⟨?_, free_thins h1⟩
  rw [h3]
  rfl

theorem takeL_over {F : MHeap K V} {s s' : Merge K V} {o : Option Addr} (h : takeL s = some (s', o)) :
    takeL (ov F s) = some (ov F s', o) ∧ Thins s.mem s'.mem := by
  unfold takeL at h ⊢
  obtain ⟨⟨a, s1⟩, h1, h2⟩ := Option.map_eq_some_iff.1 h
  cases h2
  obtain ⟨h3, h4⟩ := popL_over (F := F) h1
  exact ⟨by simp [h3], by rw [h4]; exact .refl _⟩

theorem takeR_over {F : MHeap K V} {s s' : Merge K V} {o : Option Addr} (h : takeR s = some (s', o)) :
    takeR (ov F s) = some (ov F s', o) ∧ Thins s.mem s'.mem := by
  unfold takeR at h ⊢
  obtain ⟨⟨a, s1⟩, h1, h2⟩ := Option.map_eq_some_iff.1 h
  cases h2
  obtain ⟨h3, h4⟩ := popR_over (F := F) h1
  exact ⟨by simp [h3], by rw [h4]; exact .refl _⟩

theorem dropR_over {F : MHeap K V} {s s' : Merge K V} {o : Option Addr} (hF : Apart F s.mem) (h : dropR s = some (s', o)) :
    dropR (ov F s) = some (ov F s', o) ∧ Thins s.mem s'.mem := by
  simp only [dropR, Option.bind_eq_bind] at h ⊢
  obtain ⟨⟨a, s1⟩, h1, h⟩ := Option.bind_eq_some_iff.1 h
  obtain ⟨s2, h2, h⟩ := Option.bind_eq_some_iff.1 h
  cases h
  obtain ⟨h3, h4⟩ := popR_over (F := F) h1
  obtain ⟨h5, h6⟩ := freeNode_over (F := F) (by rw [h4]; exact hF) h2
  rw [h4] at h6
  exact ⟨by rw [h3, Option.bind_some, h5, Option.bind_some]; rfl, h6⟩

theorem ov_left (F : MHeap K V) (s : Merge K V) : (ov F s).left = s.left := rfl
theorem ov_right (F : MHeap K V) (s : Merge K V) : (ov F s).right = s.right := rfl

/-- An iteration does the same in the larger memory. -/
def Frames (pick : Merge K V → Option (Merge K V × Option Addr)) : Prop :=
  ∀ (F : MHeap K V) (s s' : Merge K V) (o : Option Addr), Apart F s.mem → pick s = some (s', o) →
    pick (ov F s) = some (ov F s', o) ∧ Thins s.mem s'.mem

variable [LinearOrder K]

theorem compareAt_over {F m : MHeap K V} {a b : Addr} {o : Ordering} (h : compareAt m a b = some o) :
    compareAt (over F m) a b = some o := by
  unfold compareAt at h ⊢
  cases h1 : entryAt m a with
  | none => simp [h1] at h
  | some e =>
    cases h2 : entryAt m b with
    | none => simp [h1, h2] at h
    | some e' => rw [entryAt_over h1, entryAt_over h2]; simpa [h1, h2] using h

theorem union_frames : Frames (unionPick (K := K) (V := V)) := by
  intro F s s' o hF h
  unfold unionPick at h ⊢
  rw [ov_left, ov_right]
  cases hl : s.left with
  | none => simp only [hl] at h ⊢; exact takeR_over h
  | some a =>
    cases hr : s.right with
    | none => simp only [hl, hr] at h ⊢; exact takeL_over h
    | some b =>
      simp only [hl, hr] at h ⊢
      cases hc : compareAt s.mem a b with
      | none => simp [hc] at h
      | some x =>
        have hc' : compareAt (ov F s).mem a b = some x := compareAt_over hc
        rw [hc']
        cases x with
        | lt => simp only [hc] at h ⊢; exact takeL_over h
        | gt => simp only [hc] at h ⊢; exact takeR_over h
        | eq => simp only [hc] at h ⊢; exact dropR_over hF h

theorem diff_frames (sym : Bool) : Frames (diffPick (K := K) (V := V) sym) := by
  intro F s s' o hF h
  unfold diffPick at h ⊢
  rw [ov_left, ov_right]
  have hs : (if sym then takeR s else dropR s) = some (s', o) →
      (if sym then takeR (ov F s) else dropR (ov F s)) = some (ov F s', o) ∧ Thins s.mem s'.mem := by
    cases sym with
    | true => simpa using takeR_over
    | false => simpa using dropR_over hF
  cases hl : s.left with
  | none => simp only [hl] at h ⊢; exact hs h
  | some a =>
    cases hr : s.right with
    | none => simp only [hl, hr] at h ⊢; exact takeR_over h
    | some b =>
      simp only [hl, hr] at h ⊢
      cases hc : compareAt s.mem a b with
      | none => simp [hc] at h
      | some x =>
        have hc' : compareAt (ov F s).mem a b = some x := compareAt_over hc
        rw [hc']
        cases x with
        | lt => simp only [hc] at h ⊢; exact takeL_over h
        | gt => simp only [hc] at h ⊢; exact hs h
        | eq =>
          simp only [hc, Option.bind_eq_bind] at h ⊢
          obtain ⟨⟨a1, s1⟩, h1, h⟩ := Option.bind_eq_some_iff.1 h
          obtain ⟨⟨b1, s2⟩, h2, h⟩ := Option.bind_eq_some_iff.1 h
          obtain ⟨s3, h3, h⟩ := Option.bind_eq_some_iff.1 h
          obtain ⟨s4, h4, h⟩ := Option.bind_eq_some_iff.1 h
          cases h
          obtain ⟨i1, j1⟩ := popL_over (F := F) h1
          obtain ⟨i2, j2⟩ := popR_over (F := F) h2
          have hm : s2.mem = s.mem := j2.trans j1
          obtain ⟨i3, j3⟩ := freeNode_over (F := F) (by rw [hm]; exact hF) h3
          rw [hm] at j3
          obtain ⟨i4, j4⟩ := freeNode_over (F := F) (hF.thins j3) h4
          refine ⟨?_, j3.trans j4⟩
          rw [i1, Option.bind_some, i2, Option.bind_some, i3, Option.bind_some, i4, Option.bind_some]
          rfl

omit [LinearOrder K] in
theorem mergeLoop_over {pick : Merge K V → Option (Merge K V × Option Addr)} (hp : Frames pick) {F : MHeap K V}
    {extra f : Nat} {s s' : Merge K V} (hF : Apart F s.mem) (h : mergeLoop pick extra f s = some s') :
    mergeLoop pick extra f (ov F s) = some (ov F s') ∧ Thins s.mem s'.mem := by
  have hnil : ∀ f, s.left = none → s.right = none → mergeLoop pick extra f s = some s' →
      mergeLoop pick extra f (ov F s) = some (ov F s') ∧ Thins s.mem s'.mem := by
    intro f hl hr h
    rw [mergeLoop.eq_def] at h ⊢
    simp only [ov_left, ov_right, hl, hr, Option.some.injEq] at h ⊢
    subst h
    exact ⟨rfl, .refl _⟩
  induction f generalizing s with
  | zero =>
    by_cases hn : s.left = none ∧ s.right = none
    · exact hnil 0 hn.1 hn.2 h
    · rw [mergeLoop_zero (by tauto)] at h
      simp at h
  | succ f ih =>
    by_cases hn : s.left = none ∧ s.right = none
    · exact hnil (f + 1) hn.1 hn.2 h
    · have hn' : s.left ≠ none ∨ s.right ≠ none := by tauto
      rw [mergeLoop_step hn'] at h
      rw [mergeLoop_step (s := ov F s) hn']
      have ih := fun {s : Merge K V} (hF : Apart F s.mem) (h : mergeLoop pick extra f s = some s') =>
        ih hF h fun f hl hr h => by
          rw [mergeLoop.eq_def] at h ⊢
          simp only [ov_left, ov_right, hl, hr, Option.some.injEq] at h ⊢
          subst h
          exact ⟨rfl, .refl _⟩
      cases hpk : pick s with
      | none => simp [hpk] at h
      | some x =>
        obtain ⟨s1, o⟩ := x
        obtain ⟨h1, h2⟩ := hp F s s1 o hF hpk
        cases o with
        | none =>
          simp only [hpk, h1] at h ⊢
          obtain ⟨h3, h4⟩ := ih (hF.thins h2) h
          exact ⟨h3, h2.trans h4⟩
        | some next =>
          simp only [hpk, h1] at h ⊢
          cases ha : append extra next s1 with
          | none => simp [ha] at h
          | some s2 =>
            simp only [ha] at h
            obtain ⟨h3, h4⟩ := append_over (F := F) ha
            rw [h3]
            obtain ⟨h5, h6⟩ := ih (hF.thins (h2.trans h4)) h
            exact ⟨h5, (h2.trans h4).trans h6⟩

/-- A difference that crashes also crashes in the larger memory. -/
theorem diff_crash_over (sym : Bool) {F : MHeap K V} {f : Nat} {s : Merge K V} {head lh rh : Addr}
    {O L R : List (Tower (K × V))} (hF : Apart F s.mem) (hi : MInv s head lh rh O L R [])
    (h : mergeLoop (diffPick sym) 0 f s = none) : mergeLoop (diffPick sym) 0 f (ov F s) = none := by
  induction f generalizing s O L R with
  | zero =>
    by_cases hn : s.left = none ∧ s.right = none
    · rw [mergeLoop.eq_def] at h
      simp [hn.1, hn.2] at h
    · exact mergeLoop_zero (s := ov F s) (by simp only [ov_left, ov_right]; tauto)
  | succ f ih =>
    by_cases hLR : L = [] ∧ R = []
    · obtain ⟨rfl, rfl⟩ := hLR
      have h1 : s.left = none := hi.left.1
      have h2 : s.right = none := hi.right.1
      rw [mergeLoop.eq_def] at h
      simp [h1, h2] at h
    · have hne : L ≠ [] ∨ R ≠ [] := by tauto
      have hn' := hi.nonempty hne
      rw [mergeLoop_step hn'] at h
      rw [mergeLoop_step (s := ov F s) hn']
      have hp1 := diff_implements sym s head lh rh O L R hi hne
      cases hP : diffP sym L R with
      | none =>
        cases L with
        | nil => cases R <;> simp [diffP] at hP
        | cons a L =>
          cases R with
          | cons b R =>
            simp only [diffP] at hP
            split at hP <;> simp at hP
          | nil =>
            have h1 : s.left = some a.addr := hi.left.1
            have h2 : s.right = none := hi.right.1
            have : diffPick sym (ov F s) = none := by
              unfold diffPick
              simp only [ov_left, ov_right, h1, h2, takeR, popR, Option.map_none]
            rw [this]
      | some x =>
        obtain ⟨L', R', ot⟩ := x
        rw [hP] at hp1
        obtain ⟨s1, h1, h2⟩ := hp1
        obtain ⟨h3, h4⟩ := diff_frames sym F s s1 _ hF h1
        cases ot with
        | none =>
          simp only [h1, h3, Option.map_none] at h ⊢
          exact ih (hF.thins h4) h2 h
        | some t =>
          simp only [h1, h3, Option.map_some] at h ⊢
          obtain ⟨s2, g1, g2, -⟩ := append_ok h2
          rw [g1] at h
          obtain ⟨g3, g4⟩ := append_over (F := F) g1
          rw [g3]
          exact ih (hF.thins (h4.trans g4)) g2 h

end Verif.Skip.Map.Torn
