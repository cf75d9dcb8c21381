/- The loops of `SkipMap` on the links of a `Web`. -/
import Verif.Skip.Web

namespace Verif.Skip.Map.Torn

open Verif.Spec Relation

variable {K V : Type}

/-! ### Single links -/

theorem shape_of_getLink {m : MHeap K V} {a : Addr} {i : Nat} {l} (h : getLink m a i = some l) :
    ∃ e n, shape m a = some (e, n) ∧ i < n := by
  unfold getLink at h
  cases hm : m a with
  | none => simp [hm] at h
  | some n =>
    simp only [hm] at h
    obtain ⟨hi, -⟩ := List.getElem?_eq_some_iff.1 h
    exact ⟨n.entry, n.links.length, by simp [shape, hm], hi⟩

theorem entryAt_of_shape_eq {m m' : MHeap K V} (h : shape m' = shape m) : entryAt m' = entryAt m := by
  funext a
  have h1 : shape m' a = shape m a := by rw [h]
  unfold shape at h1
  unfold entryAt
  cases hm : m a <;> cases hm' : m' a <;> simp_all

/-- Writing a link that exists. -/
theorem setLink_web {m : MHeap K V} {a : Addr} {i : Nat} {l₀} (h : getLink m a i = some l₀) (l : Option Addr) :
    ∃ m', setLink m a i l = some m' ∧ getLink m' = relinked (getLink m) a i l ∧ shape m' = shape m := by
  obtain ⟨e, n, h1, h2⟩ := shape_of_getLink h
  obtain ⟨m', h3, h4, h5⟩ := setLink_ok h1 h2 l
  refine ⟨m', h3, ?_, h4⟩
  funext b j
  rw [h5, relinked]

theorem countP_drop {α : Type} (L : List α) (p q : α → Prop) [DecidablePred p] [DecidablePred q] (h : ∀ a ∈ L, q a → p a)
    {x : α} (hx : x ∈ L) (hp : p x) (hq : ¬ q x) : L.countP q < L.countP p := by
  induction L with
  | nil => simp at hx
  | cons a L ih =>
    have hle : L.countP q ≤ L.countP p := by
      apply List.countP_mono_left
      intro y hy hqy
      simpa using h y (List.mem_cons_of_mem _ hy) (by simpa using hqy)
    rcases List.mem_cons.1 hx with rfl | hx'
    · rw [List.countP_cons_of_neg (by simpa using hq), List.countP_cons_of_pos (by simpa using hp)]
      omega
    · have := ih (fun y hy => h y (List.mem_cons_of_mem _ hy)) hx'
      by_cases hqa : q a
      · rw [List.countP_cons_of_pos (by simpa using hqa), List.countP_cons_of_pos (by simpa using h a (by simp) hqa)]
        omega
      · rw [List.countP_cons_of_neg (by simpa using hqa)]
        by_cases hpa : p a
        · rw [List.countP_cons_of_pos (by simpa using hpa)]; omega
        · rw [List.countP_cons_of_neg (by simpa using hpa)]; omega

variable [LinearOrder K]

/-- Writing the link of `c` does not change how `c` is reached. -/
theorem Web.reach_relinked {g : Links} {ent : Addr → Option (K × V)} {head : Addr} {A : Nat → Addr → Prop}
    (h : Web g ent head A) {i : Nat} {a c : Addr} (ha : A i a) (l : Option Addr) (hr : ReflTransGen (Nx g i) a c) :
    ReflTransGen (Nx (relinked g c i l) i) a c := by
  induction hr using ReflTransGen.head_induction_on with
  | refl => exact .refl
  | head h1 h2 ih =>
    rename_i x y
    have hx : x ≠ c := by
      rintro rfl
      exact h.path_irrefl ha (TransGen.head' h1 h2)
    exact .head (by unfold Nx; rw [relinked_other (fun q => hx q.1)]; exact h1) (ih (h.step ha h1).1)

open Classical in
/-- The inner loop ends at a node that may be visited; everything it passes satisfies `p`. -/
theorem walk_web {m : MHeap K V} {head : Addr} {A : Nat → Addr → Prop} (h : Web (getLink m) (entryAt m) head A)
    (L : List Addr) (hL : ∀ a, A 0 a → a = head ∨ a ∈ L) (p : K × V → Bool) (i f : Nat) (cur : Addr) (hc : A i cur)
    (hf : L.countP (fun a => (∃ e, entryAt m a = some e ∧ p e = true) ∧ (cur = head ∨ Lt (entryAt m) cur a)) < f) :
    ∃ c nxt, walk m p i f cur = some (c, nxt) ∧ ReflTransGen (Nx (getLink m) i) cur c ∧ A i c ∧
      getLink m c i = some nxt ∧ (c = cur ∨ c ≠ head ∧ ∃ e, entryAt m c = some e ∧ p e = true) ∧
      ∀ b, nxt = some b → A i b ∧ b ≠ head ∧ ∃ e, entryAt m b = some e ∧ p e = false := by
  induction f generalizing cur with
  | zero => omega
  | succ f ih =>
    obtain ⟨o, ho⟩ := h.link hc
    simp only [walk, ho]
    cases o with
    | none => exact ⟨cur, none, rfl, .refl, hc, ho, .inl rfl, fun b hb => by simp at hb⟩
    | some b =>
      have hb := h.step hc ho
      obtain ⟨e, he⟩ := h.some_ent (h.zero hb.1) hb.2
      simp only [he]
      cases hp : p e with
      | false =>
        refine ⟨cur, some b, by simp, .refl, hc, ho, .inl rfl, fun b' hb' => ?_⟩
        obtain rfl : b = b' := by simpa using hb'
        exact ⟨hb.1, hb.2, e, he, hp⟩
      | true =>
        have hbL : b ∈ L := (hL b (h.zero hb.1)).resolve_left hb.2
        have hstep : cur = head ∨ Lt (entryAt m) cur b := by
          by_cases hch : cur = head
          · exact .inl hch
          · exact .inr (h.asc hc hch ho)
        have hlt : L.countP (fun a => (∃ e, entryAt m a = some e ∧ p e = true) ∧ (b = head ∨ Lt (entryAt m) b a)) < f := by
          refine Nat.lt_of_lt_of_le (countP_drop L _ _ ?_ hbL ?_ ?_) (Nat.le_of_lt_succ hf)
          · rintro a - ⟨h1, h2⟩
            refine ⟨h1, ?_⟩
            rcases hstep with h3 | h3
            · exact .inl h3
            · exact .inr (h3.trans (h2.resolve_left hb.2))
          · exact ⟨⟨e, he, hp⟩, hstep⟩
          · rintro ⟨-, h2⟩
            exact (h2.resolve_left hb.2).irrefl
        obtain ⟨c, nxt, h1, h2, h3, h4, h5, h6⟩ := ih b hb.1 hlt
        refine ⟨c, nxt, by simpa using h1, .head ho h2, h3, h4, .inr ?_, h6⟩
        rcases h5 with rfl | h5
        · exact ⟨hb.2, e, he, hp⟩
        · exact h5

/-! ### The outer loops -/

/-- What is the same at all levels: the entries and the levels not yet reached are those of the start; a new node,
if there is one, has the key and is not linked in those levels. -/
structure Start (g₀ : Links) (ent₀ : Addr → Option (K × V)) (head : Addr) (A₀ : Nat → Addr → Prop) (key : K)
    (new : Option Addr) : Prop where
  ne : ∀ n, new = some n → n ≠ head
  key : ∀ n, new = some n → ∃ e, ent₀ n = some e ∧ e.1 = key
  free : ∀ n, new = some n → ∀ j, A₀ j n → g₀ n j = some none
  no : ∀ n, new = some n → ∀ j a, A₀ j a → ¬ Nx g₀ j a n

/-- Levels above `i` are done. -/
structure Part (g₀ : Links) (ent₀ : Addr → Option (K × V)) (head : Addr) (A₀ : Nat → Addr → Prop) (key : K)
    (new : Option Addr) (i : Nat) (m : MHeap K V) (cur : Addr) (A : Nat → Addr → Prop) : Prop where
  web : Web (getLink m) ent₀ head A
  ent : entryAt m = ent₀
  low : ∀ j ≤ i, ∀ a, A j a ↔ A₀ j a
  glow : ∀ j ≤ i, ∀ a, getLink m a j = g₀ a j
  here : A i cur
  below : cur = head ∨ ∃ e, ent₀ cur = some e ∧ e.1 < key
  gone : ∀ x e, A (i + 1) x → ent₀ x = some e → e.1 = key → some x ≠ new → A (i + 1) cur ∧ ¬ Path (getLink m) (i + 1) cur x
  up : ∀ n, new = some n → A (i + 1) n → A (i + 1) cur ∧ Nx (getLink m) (i + 1) cur n

/-- Level `i` after the search and the unlinking; `hit` is the node that was unlinked. -/
structure Cut (g₀ : Links) (ent₀ : Addr → Option (K × V)) (head : Addr) (A₀ : Nat → Addr → Prop) (key : K)
    (new : Option Addr) (i : Nat) (m : MHeap K V) (cur : Addr) (A : Nat → Addr → Prop)
    (m' : MHeap K V) (c : Addr) (l : Option Addr) (A' : Nat → Addr → Prop) : Prop where
  web : Web (getLink m') ent₀ head A'
  ent : entryAt m' = ent₀
  same : ∀ j, j ≠ i → ∀ a, (A' j a ↔ A j a) ∧ getLink m' a j = getLink m a j
  new_same : ∀ n, new = some n → (A' i n ↔ A i n)
  sub : ∀ j a, A' j a → A j a
  here : A' i c
  below : c = head ∨ ∃ e, ent₀ c = some e ∧ e.1 < key
  link : getLink m' c i = some l
  after : ∀ x, l = some x → ∃ e, ent₀ x = some e ∧ key < e.1
  reach : ReflTransGen (Nx (getLink m') i) cur c
  new_free : ∀ n, new = some n → A i n → getLink m' n i = some none ∧ ∀ a, A' i a → ¬ Nx (getLink m') i a n

open Classical in
theorem cut_web {g₀ : Links} {ent₀ : Addr → Option (K × V)} {head : Addr} {A₀ : Nat → Addr → Prop} {key : K}
    {new : Option Addr} (hs : Start g₀ ent₀ head A₀ key new) {i : Nat} {w : Work K V} {A : Nat → Addr → Prop}
    (h : Part g₀ ent₀ head A₀ key new i w.mem w.cur A) (L : List Addr) (hL : ∀ a, A 0 a → a = head ∨ a ∈ L) (f : Nat)
    (hf : L.countP (fun a => ∃ e, ent₀ a = some e ∧ e.1 < key) < f) :
    ∃ m' c l A', Cut g₀ ent₀ head A₀ key new i w.mem w.cur A m' c l A' ∧ shape m' = shape w.mem ∧
      ((A' = A ∧ m' = w.mem ∧ removeLevel f key i w = some { w with cur := c }) ∨
       ∃ b e, b ≠ head ∧ b ≠ c ∧ A i b ∧ ¬ A (i + 1) b ∧ some b ≠ new ∧ ent₀ b = some e ∧ e.1 = key ∧ A' = without A i b ∧
        A i c ∧ Nx (getLink w.mem) i c b ∧ getLink w.mem b i = some l ∧ getLink m' = relinked (getLink w.mem) c i l ∧
        removeLevel f key i w = release i b e { w with cur := c, mem := m' }) := by
  have hent := h.ent
  have hweb := h.web
  rw [← hent] at hweb
  have hf' : L.countP (fun a => (∃ e, entryAt w.mem a = some e ∧ decide (e.1 < key) = true) ∧
      (w.cur = head ∨ Lt (entryAt w.mem) w.cur a)) < f := by
    refine Nat.lt_of_le_of_lt (List.countP_mono_left ?_) hf
    intro a _ ha
    have ha' : (∃ e, entryAt w.mem a = some e ∧ decide (e.1 < key) = true) ∧ _ := of_decide_eq_true ha
    obtain ⟨⟨e, h1, h2⟩, -⟩ := ha'
    apply decide_eq_true
    exact ⟨e, by rw [← hent]; exact h1, by simpa using h2⟩
  obtain ⟨c, nxt, w1, w2, w3, w4, w5, w6⟩ := walk_web hweb L hL (fun e => decide (e.1 < key)) i f w.cur h.here hf'
  have hbel : c = head ∨ ∃ e, ent₀ c = some e ∧ e.1 < key := by
    rcases w5 with rfl | ⟨_, e, h1, h2⟩
    · exact h.below
    · exact .inr ⟨e, by rw [← hent]; exact h1, by simpa using h2⟩
  have hnf : ∀ n, new = some n → A i n → getLink w.mem n i = some none ∧ ∀ a, A i a → ¬ Nx (getLink w.mem) i a n := by
    intro n hn hA
    refine ⟨by rw [h.glow i (Nat.le_refl _)]; exact hs.free n hn i ((h.low i (Nat.le_refl _) n).1 hA), fun a ha hx => ?_⟩
    unfold Nx at hx
    rw [h.glow i (Nat.le_refl _)] at hx
    exact hs.no n hn i a ((h.low i (Nat.le_refl _) a).1 ha) hx
  have miss : (∀ b, nxt = some b → ∃ e, ent₀ b = some e ∧ key < e.1) →
      Cut g₀ ent₀ head A₀ key new i w.mem w.cur A w.mem c nxt A := fun hgt =>
    ⟨h.web, hent, fun j _ a => ⟨Iff.rfl, rfl⟩, fun _ _ => Iff.rfl, fun _ _ => id, w3, hbel, w4, hgt, w2, hnf⟩
  cases hx : nxt with
  | none =>
    refine ⟨w.mem, c, none, A, hx ▸ miss (by simp [hx]), rfl, .inl ⟨rfl, rfl, ?_⟩⟩
    simp [removeLevel, w1, hx, unlink]
  | some b =>
    obtain ⟨b1, b2, e, b3, b4⟩ := w6 b hx
    have hbe : ent₀ b = some e := by rw [← hent]; exact b3
    have hge : key ≤ e.1 := by simpa using b4
    by_cases hk : e.1 = key
    · have hNx : Nx (getLink w.mem) i c b := by unfold Nx; rw [w4, hx]
      obtain ⟨l, hl⟩ := h.web.link b1
      have hbn : some b ≠ new := by
        intro hbn
        exact (hnf b hbn.symm b1).2 c w3 hNx
      have hup : ¬ A (i + 1) b := by
        intro hup
        obtain ⟨g1, g2⟩ := h.gone b e hup hbe hk hbn
        refine g2 (h.web.nest g1 hup ?_)
        exact TransGen.tail' w2 hNx
      have hbc : b ≠ c := by
        rintro rfl
        exact h.web.path_irrefl b1 (.single hNx)
      obtain ⟨m', s1, s2, s3⟩ := setLink_web w4 l
      have hw := h.web.unlink w3 hNx hl hup
      rw [← s2] at hw
      refine ⟨m', c, l, without A i b, ⟨hw, ?_, ?_, ?_, fun j a ha => ha.1, ⟨w3, fun q => hbc q.2.symm⟩, hbel, ?_, ?_, ?_, ?_⟩, s3,
        .inr ⟨b, e, b2, hbc, b1, hup, hbn, hbe, hk, rfl, w3, hNx, hl, s2, ?_⟩⟩
      · rw [entryAt_of_shape_eq s3, hent]
      · intro j hj a
        refine ⟨⟨fun q => q.1, fun q => ⟨q, fun r => hj r.1⟩⟩, ?_⟩
        rw [s2, relinked_other (fun q => hj q.2)]
      · intro n hn
        refine ⟨fun q => q.1, fun q => ⟨q, ?_⟩⟩
        rintro ⟨-, rfl⟩
        exact hbn hn.symm
      · rw [s2]; simp [relinked]
      · intro x hxl
        subst hxl
        obtain ⟨y, z, y1, y2, y3⟩ := h.web.asc b1 b2 hl
        rw [hbe] at y1
        obtain rfl : e = y := by simpa using y1
        exact ⟨z, y2, hk ▸ y3⟩
      · rw [s2]
        exact h.web.reach_relinked h.here l w2
      · intro n hn hA
        obtain ⟨n1, n2⟩ := hnf n hn hA
        have hnc : n ≠ c := by
          rintro rfl
          unfold Nx at hNx
          rw [n1] at hNx
          simp at hNx
        refine ⟨by rw [s2, relinked_other (fun q => hnc q.1)]; exact n1, fun a ha hna => ?_⟩
        unfold Nx at hna
        rw [s2] at hna
        by_cases hac : a = c
        · subst hac
          simp only [relinked, and_self, if_true, Option.some.injEq] at hna
          subst hna
          exact n2 b b1 hl
        · rw [relinked_other (fun q => hac q.1)] at hna
          exact n2 a ha.1 hna
      · simp [removeLevel, w1, hx, unlink, b3, hk, hl, s1]
    · refine ⟨w.mem, c, some b, A, hx ▸ miss ?_, rfl, .inl ⟨rfl, rfl, ?_⟩⟩
      · intro b' hb'
        obtain rfl : b = b' := by rw [hx] at hb'; simpa using hb'
        exact ⟨e, hbe, lt_of_le_of_ne hge (Ne.symm hk)⟩
      · simp [removeLevel, w1, hx, unlink, b3, hk]

/-- Nothing with the key comes after `c` once it was unlinked. -/
theorem Cut.none_after {g₀ : Links} {ent₀ : Addr → Option (K × V)} {head : Addr} {A₀ : Nat → Addr → Prop} {key : K}
    {new : Option Addr} {i : Nat} {m : MHeap K V} {cur : Addr} {A : Nat → Addr → Prop} {m' : MHeap K V} {c : Addr}
    {l : Option Addr} {A' : Nat → Addr → Prop} (h : Cut g₀ ent₀ head A₀ key new i m cur A m' c l A')
    {x : Addr} {e : K × V} (hx : ent₀ x = some e) (hk : e.1 = key) (hp : Path (getLink m') i c x) : False := by
  rcases TransGen.head'_iff.1 hp with ⟨y, h1, _⟩
  have h2 := h.link
  unfold Nx at h1
  rw [h1] at h2
  obtain ⟨e', h3, h4⟩ := h.after y (by simpa using h2.symm)
  rcases path_first h1 hp with rfl | h5
  · rw [hx] at h3
    obtain rfl : e = e' := by simpa using h3
    rw [hk] at h4
    exact lt_irrefl _ h4
  · have h6 := h.web.step h.here h1
    obtain ⟨u, v, u1, u2, u3⟩ := h.web.path_lt h6.1 h6.2 h5
    rw [h3] at u1; rw [hx] at u2
    obtain rfl : e' = u := by simpa using u1
    obtain rfl : e = v := by simpa using u2
    rw [hk] at u3
    exact lt_irrefl _ (h4.trans u3)

/-- `remove`: on to the next level. -/
theorem Cut.next {g₀ : Links} {ent₀ : Addr → Option (K × V)} {head : Addr} {A₀ : Nat → Addr → Prop} {key : K}
    {i : Nat} {m : MHeap K V} {cur : Addr} {A : Nat → Addr → Prop} {m' : MHeap K V} {c : Addr}
    {l : Option Addr} {A' : Nat → Addr → Prop} (hp : Part g₀ ent₀ head A₀ key none (i + 1) m cur A)
    (h : Cut g₀ ent₀ head A₀ key none (i + 1) m cur A m' c l A') : Part g₀ ent₀ head A₀ key none i m' c A' where
  web := h.web
  ent := h.ent
  low j hj a := ((h.same j (by omega) a).1).trans (hp.low j (by omega) a)
  glow j hj a := ((h.same j (by omega) a).2).trans (hp.glow j (by omega) a)
  here := h.web.down h.here
  below := h.below
  gone x e _ hx hk _ := ⟨h.here, fun hp => h.none_after hx hk hp⟩
  up n hn := by simp at hn

/-- The new node of `insert` is linked. -/
theorem Cut.linked {g₀ : Links} {ent₀ : Addr → Option (K × V)} {head : Addr} {A₀ : Nat → Addr → Prop} {key : K}
    {new : Addr} {i : Nat} {m : MHeap K V} {cur : Addr} {A : Nat → Addr → Prop} {m' : MHeap K V} {c : Addr}
    {l : Option Addr} {A' : Nat → Addr → Prop} (hs : Start g₀ ent₀ head A₀ key (some new))
    (hp : Part g₀ ent₀ head A₀ key (some new) i m cur A)
    (h : Cut g₀ ent₀ head A₀ key (some new) i m cur A m' c l A') (hA : A i new) :
    ∃ m₁ m₂, setLink m' c i (some new) = some m₁ ∧ setLink m₁ new i l = some m₂ ∧ shape m₂ = shape m' ∧ c ≠ new ∧
      getLink m₂ = relinked (relinked (getLink m') c i (some new)) new i l ∧ Web (getLink m₂) ent₀ head A' := by
  have hnh := hs.ne new rfl
  obtain ⟨en, he, hk⟩ := hs.key new rfl
  obtain ⟨n1, n2⟩ := h.new_free new rfl hA
  have hcn : c ≠ new := by
    rintro rfl
    rcases h.below with h1 | ⟨e', h1, h2⟩
    · exact hnh h1
    · rw [he] at h1
      obtain rfl : en = e' := by simpa using h1
      rw [hk] at h2
      exact lt_irrefl _ h2
  obtain ⟨m₁, s1, s2, s3⟩ := setLink_web h.link (some new)
  have hn1 : getLink m₁ new i = some none := by
    rw [s2, relinked_other (fun q => hcn q.1.symm)]; exact n1
  obtain ⟨m₂, t1, t2, t3⟩ := setLink_web hn1 l
  rw [s2] at t2
  refine ⟨m₁, m₂, s1, t1, by rw [t3, s3], hcn, t2, ?_⟩
  rw [t2]
  refine h.web.link_new h.here ((h.new_same new rfl).2 hA) hnh h.link n1 n2 ?_ ?_ ?_
  · rcases h.below with h1 | ⟨e', h1, h2⟩
    · exact .inl h1
    · exact .inr ⟨e', en, h1, he, hk ▸ h2⟩
  · intro x hx
    obtain ⟨e', h1, h2⟩ := h.after x hx
    exact ⟨en, e', he, h1, hk ▸ h2⟩
  · intro hup
    have hup' := ((h.same (i + 1) (by omega) new).1).1 hup
    obtain ⟨u1, u2⟩ := hp.up new rfl hup'
    refine ⟨cur, ((h.same (i + 1) (by omega) cur).1).2 u1, ?_, h.reach⟩
    unfold Nx
    rw [(h.same (i + 1) (by omega) cur).2]
    exact u2

/-- `insert`: on to the next level. -/
theorem Cut.next_new {g₀ : Links} {ent₀ : Addr → Option (K × V)} {head : Addr} {A₀ : Nat → Addr → Prop} {key : K}
    {new : Addr} {nh : Nat} {i : Nat} {w : Work K V} {A : Nat → Addr → Prop} {m' : MHeap K V} {c : Addr}
    {l : Option Addr} {A' : Nat → Addr → Prop} (hs : Start g₀ ent₀ head A₀ key (some new))
    (hA₀ : ∀ j, A₀ j new ↔ j ≤ nh) (hp : Part g₀ ent₀ head A₀ key (some new) (i + 1) w.mem w.cur A)
    (h : Cut g₀ ent₀ head A₀ key (some new) (i + 1) w.mem w.cur A m' c l A') (w₁ : Work K V) (hm : w₁.mem = m')
    (hc : w₁.cur = c) :
    ∃ m₂, linkNew new nh (i + 1) w₁ = some { w₁ with mem := m₂ } ∧ shape m₂ = shape m' ∧
      Part g₀ ent₀ head A₀ key (some new) i m₂ c A' := by
  have hAn : A (i + 1) new ↔ i + 1 ≤ nh := (hp.low (i + 1) (Nat.le_refl _) new).trans (hA₀ _)
  have hlow : ∀ j ≤ i, ∀ a, A' j a ↔ A₀ j a :=
    fun j hj a => ((h.same j (by omega) a).1).trans (hp.low j (by omega) a)
  by_cases hn : i + 1 ≤ nh
  · obtain ⟨m₁, m₂, s1, s2, s3, s4, s5, s6⟩ := h.linked hs hp (hAn.2 hn)
    refine ⟨m₂, ?_, s3, s6, by rw [entryAt_of_shape_eq s3]; exact h.ent, hlow, ?_, h.web.down h.here, h.below, ?_, ?_⟩
    · simp [linkNew, hn, hm, hc, h.link, s1, s2]
    · intro j hj a
      rw [s5, relinked_other (by omega), relinked_other (by omega)]
      exact ((h.same j (by omega) a).2).trans (hp.glow j (by omega) a)
    · intro x e hx he hk hne
      refine ⟨h.here, fun hpath => ?_⟩
      have hxn : x ≠ new := fun q => hne (by rw [q])
      have hfirst : Nx (getLink m₂) (i + 1) c new := by
        unfold Nx; rw [s5]; simp [relinked, s4]
      have h1 := (path_first hfirst hpath).resolve_left hxn
      have h2 := s6.path_lt ((h.new_same new rfl).2 (hAn.2 hn)) (hs.ne new rfl) h1
      obtain ⟨u, v, u1, u2, u3⟩ := h2
      obtain ⟨en, hen, hkn⟩ := hs.key new rfl
      rw [hen] at u1; rw [he] at u2
      obtain rfl : en = u := by simpa using u1
      obtain rfl : e = v := by simpa using u2
      rw [hkn, hk] at u3
      exact lt_irrefl _ u3
    · intro n hn' _
      obtain rfl : new = n := by simpa using hn'
      refine ⟨h.here, ?_⟩
      unfold Nx; rw [s5]; simp [relinked, s4]
  · refine ⟨m', ?_, rfl, h.web, h.ent, hlow, fun j hj a => ((h.same j (by omega) a).2).trans (hp.glow j (by omega) a),
      h.web.down h.here, h.below, fun x e _ hx hk _ => ⟨h.here, fun hp => h.none_after hx hk hp⟩, ?_⟩
    · simp [linkNew, hn, ← hm]
    · intro n hn' hA
      obtain rfl : new = n := by simpa using hn'
      exact absurd (hAn.1 (h.sub _ _ hA)) hn

end Verif.Skip.Map.Torn
