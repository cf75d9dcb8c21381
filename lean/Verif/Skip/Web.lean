/- The links of a `SkipMap` whose `insert` may have stopped halfway (C90).

A node that was linked at its upper levels only is the start of chains of its own at the lower levels.  The chains of
a level are therefore no longer one list.  What remains true at every moment is collected in `Web`. -/
import Verif.Skip.MapPanicSim
import Mathlib.Logic.Relation

namespace Verif.Skip.Map.Torn

open Verif.Spec Relation

variable {K V : Type}

/-- The link of a node at a level (`none`: there is no such link). -/
abbrev Links := Addr → Nat → Option (Option Addr)

/-- `b` follows `a` at level `i`. -/
def Nx (g : Links) (i : Nat) (a b : Addr) : Prop := g a i = some (some b)

/-- `b` comes after `a` at level `i`. -/
abbrev Path (g : Links) (i : Nat) : Addr → Addr → Prop := TransGen (Nx g i)

theorem nx_fun {g : Links} {i : Nat} {a b c : Addr} (h : Nx g i a b) (h' : Nx g i a c) : b = c := by
  unfold Nx at h h'; rw [h] at h'; simpa using h'

/-- The path starts with the link of `a`. -/
theorem path_first {g : Links} {i : Nat} {a b c : Addr} (h : Nx g i a b) (h' : Path g i a c) : c = b ∨ Path g i b c := by
  rcases TransGen.head'_iff.1 h' with ⟨x, h1, h2⟩
  obtain rfl := nx_fun h h1
  rcases reflTransGen_iff_eq_or_transGen.1 h2 with h3 | h3
  · exact .inl h3
  · exact .inr h3

variable [LinearOrder K]

/-- The key of `a` is smaller than the key of `b`. -/
def Lt (ent : Addr → Option (K × V)) (a b : Addr) : Prop := ∃ e e', ent a = some e ∧ ent b = some e' ∧ e.1 < e'.1

theorem Lt.trans {ent : Addr → Option (K × V)} {a b c : Addr} (h : Lt ent a b) (h' : Lt ent b c) : Lt ent a c := by
  obtain ⟨x, y, h1, h2, h3⟩ := h
  obtain ⟨y', z, h4, h5, h6⟩ := h'
  rw [h2] at h4; cases h4
  exact ⟨x, z, h1, h5, h3.trans h6⟩

theorem Lt.irrefl {ent : Addr → Option (K × V)} {a : Addr} (h : Lt ent a a) : False := by
  obtain ⟨x, y, h1, h2, h3⟩ := h
  rw [h1] at h2; cases h2
  exact lt_irrefl _ h3

/-- The links that calls may follow.  `A i a`: a call may come to node `a` at level `i`; then the link is there and
leads to a node of the same kind with a greater key, which has no other predecessor, and the call may go on below.
Nodes of level `i + 1` that are on one chain at level `i` are on one chain at level `i + 1`. -/
structure Web (g : Links) (ent : Addr → Option (K × V)) (head : Addr) (A : Nat → Addr → Prop) : Prop where
  hd : ∀ i ≤ maxHeight, A i head
  top : ∀ {i a}, A i a → i ≤ maxHeight
  down : ∀ {i a}, A (i + 1) a → A i a
  link : ∀ {i a}, A i a → ∃ l, g a i = some l
  some_ent : ∀ {a}, A 0 a → a ≠ head → ∃ e, ent a = some e
  no_ent : ent head = none
  step : ∀ {i a b}, A i a → Nx g i a b → A i b ∧ b ≠ head
  inj : ∀ {i a a' b}, A i a → A i a' → Nx g i a b → Nx g i a' b → a = a'
  asc : ∀ {i a b}, A i a → a ≠ head → Nx g i a b → Lt ent a b
  nest : ∀ {i a b}, A (i + 1) a → A (i + 1) b → Path g i a b → Path g (i + 1) a b

namespace Web

variable {g : Links} {ent : Addr → Option (K × V)} {head : Addr} {A : Nat → Addr → Prop}

theorem zero (h : Web g ent head A) {i : Nat} {a : Addr} (ha : A i a) : A 0 a := by
  induction i with
  | zero => exact ha
  | succ i ih => exact ih (h.down ha)

theorem le (h : Web g ent head A) {i j : Nat} {a : Addr} (ha : A i a) (hj : j ≤ i) : A j a := by
  induction i with
  | zero => obtain rfl : j = 0 := by omega
            exact ha
  | succ i ih =>
    rcases Nat.lt_or_ge i j with hlt | hge
    · obtain rfl : j = i + 1 := by omega
      exact ha
    · exact ih (h.down ha) hge

theorem lt_ne_head (h : Web g ent head A) {a b : Addr} (hl : Lt ent a b) : a ≠ head ∧ b ≠ head := by
  obtain ⟨x, y, h1, h2, _⟩ := hl
  constructor
  · rintro rfl; rw [h.no_ent] at h1; simp at h1
  · rintro rfl; rw [h.no_ent] at h2; simp at h2

theorem path (h : Web g ent head A) {i : Nat} {a b : Addr} (ha : A i a) (hp : Path g i a b) : A i b ∧ b ≠ head := by
  induction hp with
  | single h1 => exact h.step ha h1
  | tail _ h1 ih => exact h.step ih.1 h1

theorem path_lt (h : Web g ent head A) {i : Nat} {a b : Addr} (ha : A i a) (hn : a ≠ head) (hp : Path g i a b) :
    Lt ent a b := by
  induction hp with
  | single h1 => exact h.asc ha hn h1
  | tail h0 h1 ih =>
    have := h.path ha h0
    exact ih.trans (h.asc this.1 this.2 h1)

theorem path_irrefl (h : Web g ent head A) {i : Nat} {a : Addr} (ha : A i a) (hp : Path g i a a) : False := by
  by_cases hn : a = head
  · exact (h.path ha hp).2 hn
  · exact (h.path_lt ha hn hp).irrefl

/-- Two nodes before the same node are on one chain. -/
theorem path_total (h : Web g ent head A) {i : Nat} {a b c : Addr} (ha : A i a) (hb : A i b)
    (h1 : ReflTransGen (Nx g i) a c) (h2 : ReflTransGen (Nx g i) b c) : a = b ∨ Path g i a b ∨ Path g i b a := by
  induction h1 with
  | refl =>
    rcases reflTransGen_iff_eq_or_transGen.1 h2 with h3 | h3
    · exact .inl h3
    · exact .inr (.inr h3)
  | tail h3 h4 ih =>
    rename_i x y
    rcases reflTransGen_iff_eq_or_transGen.1 h2 with h5 | h5
    · subst h5
      exact .inr (.inl (TransGen.tail' h3 h4))
    · obtain ⟨z, h6, h7⟩ := TransGen.tail'_iff.1 h5
      have hx : A i x := by
        rcases reflTransGen_iff_eq_or_transGen.1 h3 with h8 | h8
        · subst h8; exact ha
        · exact (h.path ha h8).1
      have hz : A i z := by
        rcases reflTransGen_iff_eq_or_transGen.1 h6 with h8 | h8
        · subst h8; exact hb
        · exact (h.path hb h8).1
      obtain rfl := h.inj hz hx h7 h4
      exact ih h6

/-- Only the links and entries of the nodes in use matter. -/
theorem congr (h : Web g ent head A) {g' : Links} {ent' : Addr → Option (K × V)}
    (hg : ∀ {i a}, A i a → g' a i = g a i) (he : ∀ {a}, A 0 a → ent' a = ent a) : Web g' ent' head A := by
  have hn : ∀ {i a b}, A i a → (Nx g' i a b ↔ Nx g i a b) := by
    intro i a b ha; unfold Nx; rw [hg ha]
  have hp : ∀ {i a b}, A i a → Path g' i a b → Path g i a b := by
    intro i a b ha hp
    induction hp with
    | single h1 => exact .single ((hn ha).1 h1)
    | tail _ h1 ih => exact .tail ih ((hn (h.path ha ih).1).1 h1)
  have hp' : ∀ {i a b}, A i a → Path g i a b → Path g' i a b := by
    intro i a b ha hp
    induction hp with
    | single h1 => exact .single ((hn ha).2 h1)
    | tail h0 h1 ih => exact .tail ih ((hn (h.path ha h0).1).2 h1)
  refine ⟨h.hd, h.top, h.down, fun ha => by rw [hg ha]; exact h.link ha, fun ha hne => ?_, ?_, fun ha h1 => ?_,
    fun ha ha' h1 h2 => ?_, fun ha hne h1 => ?_, fun ha hb h1 => ?_⟩
  · rw [he ha]; exact h.some_ent ha hne
  · rw [he (h.hd 0 (by decide))]; exact h.no_ent
  · exact h.step ha ((hn ha).1 h1)
  · exact h.inj ha ha' ((hn ha).1 h1) ((hn ha').1 h2)
  · have h2 := h.asc ha hne ((hn ha).1 h1)
    have h3 := (h.step ha ((hn ha).1 h1)).1
    obtain ⟨x, y, h4, h5, h6⟩ := h2
    exact ⟨x, y, by rw [he (h.zero ha)]; exact h4, by rw [he (h.zero h3)]; exact h5, h6⟩
  · exact hp' ha (h.nest ha hb (hp (h.down ha) h1))

end Web

/-- One link is written. -/
def relinked (g : Links) (a : Addr) (i : Nat) (l : Option Addr) : Links :=
  fun b j => if b = a ∧ j = i then some l else g b j

theorem relinked_other {g : Links} {a : Addr} {i : Nat} {l : Option Addr} {b : Addr} {j : Nat} (h : ¬ (b = a ∧ j = i)) :
    relinked g a i l b j = g b j := by simp [relinked, h]

theorem path_level {g g' : Links} {i : Nat} (h : ∀ a, g' a i = g a i) {a b : Addr} : Path g' i a b ↔ Path g i a b := by
  have : Nx g' i = Nx g i := by funext a b; simp [Nx, h]
  simp [Path, this]

/-- The node is taken out of level `i`. -/
def without (A : Nat → Addr → Prop) (i : Nat) (b : Addr) : Nat → Addr → Prop := fun j a => A j a ∧ ¬ (j = i ∧ a = b)

namespace Web

variable {g : Links} {ent : Addr → Option (K × V)} {head : Addr} {A : Nat → Addr → Prop}

/-- Unlinking a node at one level, when it is no longer linked above. -/
theorem unlink (h : Web g ent head A) {i : Nat} {cur b : Addr} {l : Option Addr} (hc : A i cur) (hb : Nx g i cur b)
    (hl : g b i = some l) (hup : ¬ A (i + 1) b) : Web (relinked g cur i l) ent head (without A i b) := by
  have hcb : cur ≠ b := by
    rintro rfl
    exact h.path_irrefl hc (.single hb)
  have hbA := h.step hc hb
  have nx_ne : ∀ {j a x}, ¬ (a = cur ∧ j = i) → (Nx (relinked g cur i l) j a x ↔ Nx g j a x) := by
    intro j a x hne; unfold Nx; rw [relinked_other hne]
  have nx_cur : ∀ {x}, Nx (relinked g cur i l) i cur x ↔ Nx g i b x := by
    intro x; unfold Nx; rw [hl]; simp [relinked]
  have hlev : ∀ j, j ≠ i → ∀ a, relinked g cur i l a j = g a j := fun j hj a => relinked_other (fun x => hj x.2)
  -- paths at level `i`
  have back : ∀ {x y}, Path (relinked g cur i l) i x y → Path g i x y := by
    intro x y hp
    have one : ∀ {x y}, Nx (relinked g cur i l) i x y → Path g i x y := by
      intro x y h1
      by_cases hx : x = cur
      · subst hx
        exact .head hb (.single (nx_cur.1 h1))
      · exact .single ((nx_ne (fun z => hx z.1)).1 h1)
    induction hp with
    | single h1 => exact one h1
    | tail _ h1 ih => exact ih.trans (one h1)
  have forth : ∀ {x y}, A i x → x ≠ b → Path g i x y →
      (y ≠ b → Path (relinked g cur i l) i x y) ∧ (y = b → x = cur ∨ Path (relinked g cur i l) i x cur) := by
    intro x y hx hxb hp
    induction hp with
    | single h1 =>
      constructor
      · intro hy
        have : x ≠ cur := by rintro rfl; exact hy (nx_fun h1 hb)
        exact .single ((nx_ne (fun z => this z.1)).2 h1)
      · rintro rfl
        exact .inl (h.inj hx hc h1 hb)
    | tail h0 h1 ih =>
      rename_i z y
      have hz := (h.path hx h0).1
      by_cases hzb : z = b
      · subst hzb
        have hy : y ≠ z := by rintro rfl; exact h.path_irrefl hz (.single h1)
        refine ⟨fun _ => ?_, fun e => absurd e hy⟩
        rcases ih.2 rfl with h2 | h2
        · rw [h2]
          exact .single (nx_cur.2 h1)
        · exact .tail h2 (nx_cur.2 h1)
      · have h2 := ih.1 hzb
        by_cases hzc : z = cur
        · subst hzc
          obtain rfl := nx_fun h1 hb
          exact ⟨fun e => absurd rfl e, fun _ => .inr h2⟩
        · refine ⟨fun _ => .tail h2 ((nx_ne (fun q => hzc q.1)).2 h1), ?_⟩
          rintro rfl
          exact absurd (h.inj hz hc h1 hb) hzc
  refine ⟨fun j hj => ⟨h.hd j hj, fun x => hbA.2 x.2.symm⟩, fun ha => h.top ha.1, fun {j a} ha => ⟨h.down ha.1, ?_⟩,
    fun {j a} ha => ?_, fun ha => h.some_ent ha.1, h.no_ent, fun {j a x} ha h1 => ?_, fun {j a a' x} ha ha' h1 h2 => ?_,
    fun {j a x} ha hne h1 => ?_, fun {j a x} ha hx h1 => ?_⟩
  · rintro ⟨rfl, rfl⟩
    exact hup ha.1
  · by_cases he : a = cur ∧ j = i
    · exact ⟨l, by simp [relinked, he]⟩
    · rw [relinked_other he]; exact h.link ha.1
  · by_cases he : a = cur ∧ j = i
    · obtain ⟨rfl, rfl⟩ := he
      have h2 := nx_cur.1 h1
      have h3 := h.step hbA.1 h2
      refine ⟨⟨h3.1, ?_⟩, h3.2⟩
      rintro ⟨-, rfl⟩
      exact h.path_irrefl hbA.1 (.single h2)
    · have h2 := (nx_ne he).1 h1
      have h3 := h.step ha.1 h2
      refine ⟨⟨h3.1, ?_⟩, h3.2⟩
      rintro ⟨rfl, rfl⟩
      exact he ⟨h.inj ha.1 hc h2 hb, rfl⟩
  · by_cases he : a = cur ∧ j = i
    · obtain ⟨rfl, rfl⟩ := he
      have h3 := nx_cur.1 h1
      by_cases he' : a' = a
      · exact he'.symm
      · have h4 := (nx_ne (fun q => he' q.1)).1 h2
        exact absurd ⟨rfl, h.inj ha'.1 hbA.1 h4 h3⟩ ha'.2
    · have h3 := (nx_ne he).1 h1
      by_cases he' : a' = cur ∧ j = i
      · obtain ⟨rfl, rfl⟩ := he'
        exact absurd ⟨rfl, h.inj ha.1 hbA.1 h3 (nx_cur.1 h2)⟩ ha.2
      · exact h.inj ha.1 ha'.1 h3 ((nx_ne he').1 h2)
  · by_cases he : a = cur ∧ j = i
    · obtain ⟨rfl, rfl⟩ := he
      exact (h.asc hc hne hb).trans (h.asc hbA.1 hbA.2 (nx_cur.1 h1))
    · exact h.asc ha.1 hne ((nx_ne he).1 h1)
  · by_cases hj : j = i
    · subst hj
      have h2 := h.nest ha.1 hx.1 (back h1)
      exact (path_level (hlev (j + 1) (by omega))).2 h2
    · have h2 := h.nest ha.1 hx.1 ((path_level (hlev j hj)).1 h1)
      by_cases hj' : j + 1 = i
      · subst hj'
        exact (forth ha.1 (fun e => ha.2 ⟨rfl, e⟩) h2).1 (fun e => hx.2 ⟨rfl, e⟩)
      · exact (path_level (hlev (j + 1) hj')).2 h2

/-- Linking a node at one level, after it was linked one level up. -/
theorem link_new (h : Web g ent head A) {i : Nat} {cur new : Addr} {l : Option Addr} (hc : A i cur) (hn : A i new)
    (hnh : new ≠ head) (hl : g cur i = some l) (hnew : g new i = some none) (hno : ∀ a, A i a → ¬ Nx g i a new)
    (hlt : cur = head ∨ Lt ent cur new) (hgt : ∀ c, l = some c → Lt ent new c)
    (hup : A (i + 1) new → ∃ c, A (i + 1) c ∧ Nx g (i + 1) c new ∧ ReflTransGen (Nx g i) c cur) :
    Web (relinked (relinked g cur i (some new)) new i l) ent head A := by
  have hcn : cur ≠ new := by
    rintro rfl
    rcases hlt with h1 | h1
    · exact hnh h1
    · exact h1.irrefl
  have g_cur : relinked (relinked g cur i (some new)) new i l cur i = some (some new) := by
    simp [relinked, hcn]
  have g_new : relinked (relinked g cur i (some new)) new i l new i = some l := by simp [relinked]
  have g_ne : ∀ {j a}, ¬ (j = i ∧ (a = cur ∨ a = new)) →
      relinked (relinked g cur i (some new)) new i l a j = g a j := by
    intro j a hne
    rw [relinked_other (fun q => hne ⟨q.2, .inr q.1⟩), relinked_other (fun q => hne ⟨q.2, .inl q.1⟩)]
  generalize hg' : relinked (relinked g cur i (some new)) new i l = g' at *
  have hlev : ∀ j, j ≠ i → ∀ a, g' a j = g a j := fun j hj a => g_ne (fun x => hj x.1)
  have nx_ne : ∀ {j a x}, ¬ (j = i ∧ (a = cur ∨ a = new)) → (Nx g' j a x ↔ Nx g j a x) := by
    intro j a x hne; unfold Nx; rw [g_ne hne]
  have nx_cur : ∀ {x}, Nx g' i cur x ↔ x = new := by
    intro x; unfold Nx; rw [g_cur]; simp [eq_comm]
  have nx_new : ∀ {x}, Nx g' i new x ↔ Nx g i cur x := by
    intro x; unfold Nx; rw [g_new, hl]
  have no_new : ∀ {x}, ¬ Nx g i new x := by intro x; unfold Nx; rw [hnew]; simp
  have no_path_new : ∀ {x}, ¬ Path g i new x := by
    intro x hp
    rcases TransGen.head'_iff.1 hp with ⟨y, h1, _⟩
    exact no_new h1
  have forth : ∀ {x y}, Path g i x y → Path g' i x y := by
    intro x y hp
    have one : ∀ {x y}, Nx g i x y → Path g' i x y := by
      intro x y h1
      by_cases hx : x = cur
      · subst hx
        exact .head (nx_cur.2 rfl) (.single (nx_new.2 h1))
      · by_cases hx' : x = new
        · subst hx'; exact absurd h1 no_new
        · exact .single ((nx_ne (by rintro ⟨_, q | q⟩ <;> contradiction)).2 h1)
    induction hp with
    | single h1 => exact one h1
    | tail _ h1 ih => exact ih.trans (one h1)
  -- where paths come from
  have back : ∀ {x y}, A i x → Path g' i x y →
      (x ≠ new → y ≠ new → Path g i x y) ∧ (x ≠ new → y = new → ReflTransGen (Nx g i) x cur) ∧
      (x = new → y ≠ new ∧ Path g i cur y) := by
    intro x y hx hp
    induction hp with
    | single h1 =>
      rename_i y
      refine ⟨fun hxn hyn => ?_, fun hxn hyn => ?_, fun hxn => ?_⟩
      · have hxc : x ≠ cur := by rintro rfl; exact hyn (nx_cur.1 h1)
        exact .single ((nx_ne (by rintro ⟨_, q | q⟩ <;> contradiction)).1 h1)
      · by_cases hxc : x = cur
        · rw [hxc]
        · have := (nx_ne (by rintro ⟨_, q | q⟩ <;> contradiction)).1 h1
          rw [hyn] at this
          exact absurd this (hno x hx)
      · subst hxn
        have h2 := nx_new.1 h1
        refine ⟨?_, .single h2⟩
        rintro rfl
        exact hno cur hc h2
    | tail h0 h1 ih =>
      rename_i z y
      obtain ⟨i1, i2, i3⟩ := ih
      refine ⟨fun hxn hyn => ?_, fun hxn hyn => ?_, fun hxn => ?_⟩
      · by_cases hzn : z = new
        · subst hzn
          exact TransGen.tail' (i2 hxn rfl) (nx_new.1 h1)
        · have hzc : z ≠ cur := by rintro rfl; exact hyn (nx_cur.1 h1)
          exact .tail (i1 hxn hzn) ((nx_ne (by rintro ⟨_, q | q⟩ <;> contradiction)).1 h1)
      · by_cases hzn : z = new
        · subst hzn
          have h2 := nx_new.1 h1
          rw [hyn] at h2
          exact absurd h2 (hno cur hc)
        · have h3 := i1 hxn hzn
          by_cases hzc : z = cur
          · subst hzc; exact h3.to_reflTransGen
          · have h4 := (nx_ne (by rintro ⟨_, q | q⟩ <;> contradiction)).1 h1
            rw [hyn] at h4
            exact absurd h4 (hno z (h.path hx h3).1)
      · have h2 := i3 hxn
        have hzc : z ≠ cur := by
          rintro rfl
          exact h.path_irrefl hc h2.2
        have h4 := (nx_ne (by rintro ⟨_, q | q⟩; exacts [hzc q, h2.1 q])).1 h1
        refine ⟨?_, h2.2.tail h4⟩
        rintro rfl
        exact hno z (h.path hc h2.2).1 h4
  refine ⟨h.hd, h.top, h.down, fun {j a} ha => ?_, h.some_ent, h.no_ent, fun {j a x} ha h1 => ?_,
    fun {j a a' x} ha ha' h1 h2 => ?_, fun {j a x} ha hne h1 => ?_, fun {j a x} ha hx h1 => ?_⟩
  · by_cases he : j = i ∧ (a = cur ∨ a = new)
    · obtain ⟨rfl, rfl | rfl⟩ := he
      · exact ⟨_, g_cur⟩
      · exact ⟨_, g_new⟩
    · rw [g_ne he]; exact h.link ha
  · by_cases he : j = i ∧ (a = cur ∨ a = new)
    · obtain ⟨rfl, rfl | rfl⟩ := he
      · obtain rfl := nx_cur.1 h1
        exact ⟨hn, hnh⟩
      · exact h.step hc (nx_new.1 h1)
    · exact h.step ha ((nx_ne he).1 h1)
  · by_cases hj : j = i
    · subst hj
      have key : ∀ {a x}, A j a → Nx g' j a x → (a = cur ∧ x = new) ∨ (a = new ∧ x ≠ new ∧ Nx g j cur x) ∨
          (a ≠ cur ∧ x ≠ new ∧ Nx g j a x) := by
        intro a x ha h1
        by_cases hac : a = cur
        · subst hac; exact .inl ⟨rfl, nx_cur.1 h1⟩
        · by_cases han : a = new
          · subst han
            have h2 := nx_new.1 h1
            refine .inr (.inl ⟨rfl, ?_, h2⟩)
            rintro rfl
            exact hno cur hc h2
          · have h2 := (nx_ne (by rintro ⟨_, q | q⟩ <;> contradiction)).1 h1
            refine .inr (.inr ⟨hac, ?_, h2⟩)
            rintro rfl
            exact hno a ha h2
      rcases key ha h1 with ⟨e1, e2⟩ | ⟨e1, e2, e3⟩ | ⟨e1, e2, e3⟩ <;>
        rcases key ha' h2 with ⟨f1, f2⟩ | ⟨f1, f2, f3⟩ | ⟨f1, f2, f3⟩
      · rw [e1, f1]
      · exact absurd e2 f2
      · exact absurd e2 f2
      · exact absurd f2 e2
      · rw [e1, f1]
      · exact absurd (h.inj ha' hc f3 e3) f1
      · exact absurd f2 e2
      · exact absurd (h.inj ha hc e3 f3) e1
      · exact h.inj ha ha' e3 f3
    · unfold Nx at h1 h2
      rw [hlev j hj] at h1 h2
      exact h.inj ha ha' h1 h2
  · by_cases he : j = i ∧ (a = cur ∨ a = new)
    · obtain ⟨rfl, rfl | rfl⟩ := he
      · obtain rfl := nx_cur.1 h1
        exact hlt.resolve_left hne
      · have h2 := nx_new.1 h1
        unfold Nx at h2
        rw [hl] at h2
        exact hgt x (by simpa using h2)
    · exact h.asc ha hne ((nx_ne he).1 h1)
  · by_cases hj : j = i
    · subst hj
      rw [path_level (hlev (j + 1) (by omega))]
      obtain ⟨b1, b2, b3⟩ := back (h.down ha) h1
      by_cases han : a = new
      · subst han
        obtain ⟨b4, b5⟩ := b3 rfl
        obtain ⟨c, c1, c2, c3⟩ := hup ha
        have h2 := h.nest c1 hx (TransGen.trans_right c3 b5)
        exact (path_first c2 h2).resolve_left b4
      · by_cases hxn : x = new
        · subst hxn
          have b4 := b2 han rfl
          obtain ⟨c, c1, c2, c3⟩ := hup hx
          rcases h.path_total (h.down ha) (h.down c1) b4 c3 with e | e | e
          · rw [e]; exact .single c2
          · exact .tail (h.nest ha c1 e) c2
          · exfalso
            have h2 := (path_first c2 (h.nest c1 ha e)).resolve_left han
            have h3 := h.path_lt hx hnh h2
            have h4 : a = cur ∨ Lt ent a cur := by
              rcases reflTransGen_iff_eq_or_transGen.1 b4 with q | q
              · exact .inl q.symm
              · exact .inr (h.path_lt (h.down ha) (h.lt_ne_head h3).2 q)
            rcases hlt with q | q
            · rcases h4 with r | r
              · exact (h.lt_ne_head h3).2 (r.trans q)
              · exact (h.lt_ne_head r).2 q
            · rcases h4 with r | r
              · rw [r] at h3; exact (q.trans h3).irrefl
              · exact ((r.trans q).trans h3).irrefl
        · exact h.nest ha hx (b1 han hxn)
    · have h2 := h.nest ha hx ((path_level (hlev j hj)).1 h1)
      by_cases hj' : j + 1 = i
      · subst hj'; exact forth h2
      · exact (path_level (hlev (j + 1) hj')).2 h2

end Web

end Verif.Skip.Map.Torn
