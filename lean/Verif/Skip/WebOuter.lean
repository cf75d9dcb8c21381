/- `insert` and `remove` on the links of a `Web`, with comparisons panicking. -/
import Verif.Skip.WebBody

namespace Verif.Skip.Map.Torn

open Verif.Spec Relation

variable {K V : Type}

/-- The outer loop: a comparison panics at some level, everything being as it was before that level, or it ends. -/
theorem downFromP_inv {body : Nat → Work K V → Option (Work K V)}
    {bodyP : Nat → Nat → Work K V → Option (Option (Work K V × Nat))} (I : Nat → Work K V → Prop) (Q : Work K V → Prop)
    (hP : ∀ i b w w₁, body i w = some w₁ → bodyP i b w = some none ∨ ∃ b', bodyP i b w = some (some (w₁, b')))
    (hs : ∀ i w, I (i + 1) w → ∃ w', body (i + 1) w = some w' ∧ I i w')
    (h0 : ∀ w, I 0 w → ∃ w', body 0 w = some w' ∧ Q w') (i b : Nat) (w : Work K V) (h : I i w) :
    (∃ j w₁, downFromP bodyP i b w = some (w₁, .error j) ∧ I j w₁) ∨
    (∃ b' w₁, downFromP bodyP i b w = some (w₁, .ok b') ∧ Q w₁) := by
  induction i generalizing b w with
  | zero =>
    obtain ⟨w1, h1, h2⟩ := h0 w h
    rcases hP 0 b w w1 h1 with h4 | ⟨b', h4⟩
    · exact .inl ⟨0, w, by simp [downFromP, h4], h⟩
    · exact .inr ⟨b', w1, by simp [downFromP, h4], h2⟩
  | succ i ih =>
    obtain ⟨w1, h1, h5⟩ := hs i w h
    rcases hP (i + 1) b w w1 h1 with h4 | ⟨b', h4⟩
    · exact .inl ⟨i + 1, w, by simp [downFromP, h4], h⟩
    · rcases ih b' w1 h5 with ⟨j, v, g1, g2⟩ | ⟨b'', v, g1, g2⟩
      · exact .inl ⟨j, v, by simp [downFromP, h4, g1], g2⟩
      · exact .inr ⟨b'', v, by simp [downFromP, h4, g1], g2⟩

variable [LinearOrder K]

theorem Body.congr {g : Links} {ent : Addr → Option (K × V)} {head : Addr} {A : Nat → Addr → Prop} {T U : List Addr}
    (h : Body g ent head A T U) {g' : Links} {ent' : Addr → Option (K × V)}
    (hg : ∀ {i a}, A i a → g' a i = g a i) (he : ∀ {a}, A 0 a → ent' a = ent a) : Body g' ent' head A T U :=
  h.frame (h.web.congr hg he) (fun _ => Iff.rfl) fun a ha => hg ((h.cover a).2 (by
    rcases List.mem_cons.1 ha with h1 | h1
    · exact .inl h1
    · exact .inr (.inl h1)))

theorem Part.body {g₀ : Links} {ent₀ : Addr → Option (K × V)} {head : Addr} {A₀ : Nat → Addr → Prop} {key : K}
    {new : Option Addr} {i : Nat} {m : MHeap K V} {cur : Addr} {A : Nat → Addr → Prop}
    (h : Part g₀ ent₀ head A₀ key new i m cur A) {T U : List Addr} (hb : Body g₀ ent₀ head A₀ T U) :
    Body (getLink m) ent₀ head A T U :=
  hb.frame h.web (h.low 0 (Nat.zero_le _)) fun a _ => h.glow 0 (Nat.zero_le _) a

/-- What the unlinking at the bottom level does to the contents; `c` is the node after which it happens. -/
def Removed (ent : Addr → Option (K × V)) (head : Addr) (key : K) (new : Option Addr) (c : Addr) (T U T' U' : List Addr) :
    Option (K × V) → Prop
  | none => T' = T ∧ U' = U ∧ (c ∈ head :: T → ∀ x ∈ T, ∀ e, ent x = some e → e.1 ≠ key)
  | some e => e.1 = key ∧ ∃ b, ent b = some e ∧ some b ≠ new ∧
      ((c ∈ head :: T' ∧ T.Perm (b :: T') ∧ U' = U) ∨ (c ∈ U' ∧ U.Perm (b :: U') ∧ T' = T))

/-- A search at the bottom level that ends in the part that iteration shows is right. -/
theorem Body.miss {g : Links} {ent : Addr → Option (K × V)} {head : Addr} {A : Nat → Addr → Prop} {T U : List Addr}
    (h : Body g ent head A T U) {key : K} {c : Addr} {l : Option Addr} (hl : g c 0 = some l)
    (hb : c = head ∨ ∃ e, ent c = some e ∧ e.1 < key) (ha : ∀ x, l = some x → ∃ e, ent x = some e ∧ key < e.1)
    (hc : c ∈ head :: T) : ∀ x ∈ T, ∀ e, ent x = some e → e.1 ≠ key := by
  intro x hx e he
  rcases h.between hc hl hx with rfl | ⟨h1, h2⟩ | ⟨b, h1, _, h2⟩
  · rcases hb with h1 | ⟨e', h1, h2⟩
    · exact absurd h1 (h.memT hx).2
    · rw [he] at h1
      obtain rfl : e = e' := by simpa using h1
      exact ne_of_lt h2
  · obtain ⟨e', h3, h4⟩ := hb.resolve_left h1
    obtain ⟨y, z, y1, y2, y3⟩ := h2
    rw [he] at y1; rw [h3] at y2
    cases y1; cases y2
    exact ne_of_lt (y3.trans h4)
  · obtain ⟨e', h3, h4⟩ := ha b h1
    rcases h2 with rfl | ⟨y, z, y1, y2, y3⟩
    · rw [he] at h3; cases h3
      exact ne_of_gt h4
    · rw [h3] at y1; rw [he] at y2
      cases y1; cases y2
      exact ne_of_gt (h4.trans y3)

open Classical in
/-- The bottom level: search and unlinking. -/
theorem last_cut {g₀ : Links} {ent₀ : Addr → Option (K × V)} {head : Addr} {A₀ : Nat → Addr → Prop} {key : K}
    {new : Option Addr} (hs : Start g₀ ent₀ head A₀ key new) {w : Work K V} {A : Nat → Addr → Prop}
    (h : Part g₀ ent₀ head A₀ key new 0 w.mem w.cur A) {T U : List Addr} (hb₀ : Body g₀ ent₀ head A₀ T U) (f : Nat)
    (hf : (T ++ U).countP (fun a => ∃ e, ent₀ a = some e ∧ e.1 < key) < f) (hret : w.ret = none)
    (hlen : w.len = T.length + U.length) :
    ∃ m' c l A' T' U' w₁, Cut g₀ ent₀ head A₀ key new 0 w.mem w.cur A m' c l A' ∧ shape m' = shape w.mem ∧
      Body (getLink m') ent₀ head A' T' U' ∧ removeLevel f key 0 w = some w₁ ∧ w₁.cur = c ∧
      Removed ent₀ head key new c T U T' U' w₁.ret ∧ w₁.len = T'.length + U'.length ∧
      (∀ a j, A' 0 a → getLink w₁.mem a j = getLink m' a j) ∧ (∀ a, A' 0 a → shape w₁.mem a = shape m' a) := by
  have hb := h.body hb₀
  obtain ⟨m', c, l, A', hcut, hsh, hcase⟩ := cut_web hs h (T ++ U) (fun a ha => by
    have := (hb.cover a).1 ha; simpa using this) f hf
  rcases hcase with ⟨rfl, rfl, hr⟩ | ⟨b, e, b1, b2, b3, b4, b5, b6, b7, rfl, b8, b9, b10, b11, hr⟩
  · refine ⟨w.mem, c, l, A', T, U, _, hcut, rfl, hb, hr, rfl, ?_, hlen, fun _ _ _ => rfl, fun _ _ => rfl⟩
    simp only [hret]
    exact ⟨rfl, rfl, hb.miss hcut.link hcut.below hcut.after⟩
  · have hw := hcut.web
    rw [b11] at hw
    obtain ⟨T', U', hb', hcase⟩ := hb.cut b8 b9 b10 hw
    rw [← b11] at hb'
    obtain ⟨q, hq⟩ : ∃ q, shape m' b = some q := by
      rw [hsh]
      obtain ⟨e', n, h1, _⟩ := shape_of_getLink b10
      exact ⟨_, h1⟩
    obtain ⟨m'', f1, f2, f3⟩ := free_ok hq
    have hn : T.length + U.length = T'.length + U'.length + 1 := by
      rcases hcase with ⟨_, h1, h2, _⟩ | ⟨_, h1, h2, _⟩
      · rw [h1.length_eq, h2, List.length_cons]; omega
      · rw [h1.length_eq, h2, List.length_cons]; omega
    have hne : ∀ a, without A 0 b 0 a → a ≠ b := by
      rintro a ⟨_, h1⟩ rfl; exact h1 ⟨rfl, rfl⟩
    refine ⟨m', c, l, _, T', U', { w with cur := c, mem := m'', ret := some e, len := T'.length + U'.length }, hcut, hsh, hb',
      ?_, rfl, ?_, rfl, ?_, ?_⟩
    · rw [hr]
      simp [release, f1, dec, hlen, hn]
    · refine ⟨b7, b, b6, b5, ?_⟩
      rcases hcase with ⟨_, h1, h2, h3⟩ | ⟨_, h1, h2, h3⟩
      · exact .inl ⟨h3, h1, h2⟩
      · exact .inr ⟨h3, h1, h2⟩
    · intro a j ha
      simp only
      rw [f3, if_neg (hne a ha)]
    · intro a ha
      simp only
      rw [f2, if_neg (hne a ha)]

/-- What the loops have done before level `i`. -/
def Mids (g₀ : Links) (ent₀ : Addr → Option (K × V)) (head : Addr) (A₀ : Nat → Addr → Prop) (key : K)
    (new : Option Addr) (n : Nat) (i : Nat) (w : Work K V) : Prop :=
  (∃ A, Part g₀ ent₀ head A₀ key new i w.mem w.cur A) ∧ w.ret = none ∧ w.len = n

open Classical in
/-- `remove` at a level above the bottom. -/
theorem remove_next {g₀ : Links} {ent₀ : Addr → Option (K × V)} {head : Addr} {A₀ : Nat → Addr → Prop} {key : K}
    (hs : Start g₀ ent₀ head A₀ key none) {T U : List Addr} (hb₀ : Body g₀ ent₀ head A₀ T U) (f : Nat)
    (hf : (T ++ U).countP (fun a => ∃ e, ent₀ a = some e ∧ e.1 < key) < f) {n i : Nat} {w : Work K V}
    (h : Mids g₀ ent₀ head A₀ key none n (i + 1) w) :
    ∃ w', removeLevel f key (i + 1) w = some w' ∧ Mids g₀ ent₀ head A₀ key none n i w' := by
  obtain ⟨⟨A, hp⟩, hr, hl⟩ := h
  obtain ⟨m', c, l, A', hcut, hsh, hcase⟩ := cut_web hs hp (T ++ U) (fun a ha => by
    have := ((hp.body hb₀).cover a).1 ha; simpa using this) f hf
  have hnext := hcut.next hp
  rcases hcase with ⟨rfl, rfl, hr'⟩ | ⟨b, e, b1, b2, b3, b4, b5, b6, b7, rfl, b8, b9, b10, b11, hr'⟩
  · exact ⟨_, hr', ⟨A', hnext⟩, hr, hl⟩
  · exact ⟨{ w with cur := c, mem := m' }, by rw [hr']; rfl, ⟨_, hnext⟩, hr, hl⟩

open Classical in
/-- `insert` at a level above the bottom. -/
theorem insert_next {g₀ : Links} {ent₀ : Addr → Option (K × V)} {head : Addr} {A₀ : Nat → Addr → Prop} {key : K}
    {new : Addr} (hs : Start g₀ ent₀ head A₀ key (some new)) {nh : Nat} (hA₀ : ∀ j, A₀ j new ↔ j ≤ nh) {T U : List Addr}
    (hb₀ : Body g₀ ent₀ head A₀ T U) (f : Nat)
    (hf : (T ++ U).countP (fun a => ∃ e, ent₀ a = some e ∧ e.1 < key) < f) {n i : Nat} {w : Work K V}
    (h : Mids g₀ ent₀ head A₀ key (some new) n (i + 1) w) :
    ∃ w', insertLevel f new nh key (i + 1) w = some w' ∧ Mids g₀ ent₀ head A₀ key (some new) n i w' := by
  obtain ⟨⟨A, hp⟩, hr, hl⟩ := h
  obtain ⟨m', c, l, A', hcut, hsh, hcase⟩ := cut_web hs hp (T ++ U) (fun a ha => by
    have := ((hp.body hb₀).cover a).1 ha; simpa using this) f hf
  have key' : ∀ w₁ : Work K V, removeLevel f key (i + 1) w = some w₁ → w₁.mem = m' → w₁.cur = c → w₁.ret = none →
      w₁.len = n → ∃ w', insertLevel f new nh key (i + 1) w = some w' ∧ Mids g₀ ent₀ head A₀ key (some new) n i w' := by
    intro w₁ h1 h2 h3 h4 h5
    obtain ⟨m₂, k1, k2, k3⟩ := hcut.next_new hs hA₀ hp w₁ h2 h3
    refine ⟨{ w₁ with mem := m₂ }, by rw [insertLevel_eq, h1]; exact k1, ⟨A', ?_⟩, h4, h5⟩
    rw [← h3] at k3
    exact k3
  rcases hcase with ⟨rfl, rfl, hr'⟩ | ⟨b, e, b1, b2, b3, b4, b5, b6, b7, rfl, b8, b9, b10, b11, hr'⟩
  · exact key' _ hr' rfl rfl hr hl
  · exact key' { w with cur := c, mem := m' } (by rw [hr']; rfl) rfl rfl hr hl

end Verif.Skip.Map.Torn
