/- Keys compared by rank: a map that stores for each rank the whole entry as a value is an ordered map in the ordinary
sense (`Spec/OrdMap`).  A map type that does the same calls is therefore right for ranked keys. -/
import Verif.Spec.Ranked

namespace Verif.Spec

variable {K V L : Type}

/-- An entry as a value under its rank. -/
def tagE (rank : K → L) (e : K × V) : L × (K × V) := (rank e.1, e)

/-- The call on the map of ranks. -/
def RankOp.tag (rank : K → L) : RankOp K V → MapOp L (K × V)
  | .insert k v => .insert (rank k) (k, v)
  | .remove k => .remove (rank k)
  | .get k => .get (rank k)
  | .getMut k f => .getMut (rank k) fun e => (e.1, f e.2)
  | .floor k => .floor (rank k)
  | .ceil k => .ceil (rank k)
  | .min => .min
  | .max => .max
  | .len => .len
  | .iter => .iter
  | .clear => .clear

/-- Calls that return a stored key. -/
def RankOp.Finds : RankOp K V → Prop
  | .floor _ | .ceil _ | .min | .max => True
  | _ => False

/-- The results of the two maps belong together. -/
def ResTag (rank : K → L) : LRes K V → MapRes L (K × V) → Prop
  | .pair o, r => r = .pair (o.map (tagE rank))
  | .val o, r => ∃ o', r = .val o' ∧ o = o'.map (·.2)
  | .key o, r => r = .key (o.map rank)
  | .num n, r => r = .num n
  | .list l, r => r = .list (l.map (tagE rank))
  | .unit, r => r = .unit

variable [LinearOrder L]

/-- The state after a call is determined by the state before. -/
theorem MapOp.spec_next {W : Type} {op : MapOp L W} {m m₁ m₂ : AMap L W} {r r' : MapRes L W} (h₁ : op.Spec m r m₁)
    (h₂ : op.Spec m r' m₂) : m₁ = m₂ := by
  cases op <;> exact h₁.2.trans h₂.2.symm

/-- One step of an implementation that represents an abstract map. -/
theorem MapImpl.Represents.step {W : Type} {I : MapImpl L W} {s : I.State} {m : AMap L W} (h : I.Represents s m)
    (op : MapOp L W) (d : I.Draw) :
    ∃ s' r m', I.step s op d = some (s', r) ∧ op.Spec m r m' ∧ I.Represents s' m' := by
  obtain ⟨s₁, h₁, m₁, e1, e2, e3⟩ := h [(op, d)]
  simp only [MapImpl.run] at e1
  cases hs : I.step s op d with
  | none => rw [hs] at e1; cases e1
  | some p =>
    obtain ⟨s', r⟩ := p
    rw [hs] at e1
    simp only [Option.bind_eq_bind, Option.bind_some, Option.pure_def, Option.some.injEq, Prod.mk.injEq] at e1
    obtain ⟨rfl, rfl⟩ := e1
    cases e3 with
    | cons g1 g2 =>
      cases g2
      refine ⟨s', r, m₁, rfl, g1, fun ops => ?_⟩
      obtain ⟨s₂, h₂, m₂, f1, f2, f3⟩ := h ((op, d) :: ops)
      simp only [MapImpl.run, hs, Option.bind_eq_bind, Option.bind_some, Option.pure_def] at f1
      cases hr : I.run s' ops with
      | none => rw [hr] at f1; cases f1
      | some p =>
        obtain ⟨s₃, h₃⟩ := p
        rw [hr] at f1
        simp only [Option.bind_some, Option.some.injEq, Prod.mk.injEq] at f1
        obtain ⟨rfl, rfl⟩ := f1
        cases f3 with
        | cons k1 k2 =>
          rw [← MapOp.spec_next g1 k1] at k2
          exact ⟨_, _, _, rfl, by simpa using f2, k2⟩

/-- The sets of entries agree. -/
structure Holds (rank : K → L) (m : RMap L K V) (l : List (K × V)) : Prop where
  lists : m.Lists rank l
  rank_eq : ∀ q e, m q = some e → rank e.1 = q

theorem holds_of_lists {rank : K → L} {m : AMap L (K × V)} {l : List (K × V)} (h : Lists m (l.map (tagE rank))) :
    Holds rank m l := by
  refine ⟨⟨by simpa [List.pairwise_map, tagE] using h.1, fun e => ?_⟩, fun q e he => ?_⟩
  · rw [← h.2 (rank e.1) e]
    simp only [List.mem_map, tagE, Prod.mk.injEq]
    constructor
    · exact fun he => ⟨e, he, rfl, rfl⟩
    · rintro ⟨e', he', _, rfl⟩; exact he'
  · have := (h.2 q e).2 he
    simp only [List.mem_map, tagE, Prod.mk.injEq] at this
    obtain ⟨e', _, h1, rfl⟩ := this
    exact h1

/-- A call that is right for the map of ranks is right for the ranked keys. -/
theorem RankOp.spec_of_tag {rank : K → L} {op : RankOp K V} {m m' : RMap L K V} {r : LRes K V} {r' : MapRes L (K × V)}
    {l : List (K × V)} (hl : Holds rank m l) (hr : ResTag rank r r') (h : (op.tag rank).Spec m r' m')
    (hk : op.Finds → ∀ k, r = .key (some k) → ∃ v, (k, v) ∈ l) : op.Spec rank m r m' := by
  have hpair : ∀ {k : K}, r' = .pair ((m (rank k)).map fun old => (rank k, old)) → r = .pair (m (rank k)) := by
    intro k e
    subst e
    cases r with
    | pair o =>
      simp only [ResTag, MapRes.pair.injEq] at hr
      cases o with
      | none => cases hm : m (rank k) <;> simp [hm] at hr ⊢
      | some e =>
        cases hm : m (rank k) with
        | none => simp [hm] at hr
        | some e' => simp [hm, tagE] at hr; simp [hr.2]
    | val o => obtain ⟨_, h, _⟩ := hr; cases h
    | key | num | list | unit => cases hr
  have hval : ∀ {o : Option (K × V)}, r' = .val o → r = .val (o.map (·.2)) := by
    intro o e
    subst e
    cases r with
    | val o' => obtain ⟨_, h, rfl⟩ := hr; cases h; rfl
    | pair | key | num | list | unit => cases hr
  have hkey : op.Finds → ∀ {o : Option L}, r' = .key o → ∃ o', r = .key o' ∧ o = o'.map rank ∧
      ∀ k, o' = some k → ∃ v, m (rank k) = some (k, v) := by
    intro hop o e
    subst e
    cases r with
    | key o' =>
      simp only [ResTag, MapRes.key.injEq] at hr
      refine ⟨o', rfl, hr, fun k hk' => ?_⟩
      obtain ⟨v, hv⟩ := hk hop k (by rw [hk'])
      exact ⟨v, (hl.lists.2 _).1 hv⟩
    | val o => obtain ⟨_, h, _⟩ := hr; cases h
    | pair | num | list | unit => cases hr
  have hhas : ∀ q, AMap.Has (m : AMap L (K × V)) q ↔ m q ≠ none := by
    intro q; unfold AMap.Has; cases m q <;> simp
  have hg : ∀ {P : L → Prop} {o : Option L}, IsGreatestKey (fun x => AMap.Has (m : AMap L (K × V)) x ∧ P x) o →
      ∀ o', o = o'.map rank → (∀ k, o' = some k → ∃ v, m (rank k) = some (k, v)) → m.Greatest rank P o' := by
    intro P o h1 o' h2 h3
    subst h2
    cases o' with
    | none =>
      intro q hq
      by_contra hc
      exact h1 q ⟨(hhas q).2 hc, hq⟩
    | some k => exact ⟨h1.1.2, h3 k rfl, fun q hq hn => h1.2 q ⟨(hhas q).2 hn, hq⟩⟩
  have hle : ∀ {P : L → Prop} {o : Option L}, IsLeastKey (fun x => AMap.Has (m : AMap L (K × V)) x ∧ P x) o →
      ∀ o', o = o'.map rank → (∀ k, o' = some k → ∃ v, m (rank k) = some (k, v)) → m.Least rank P o' := by
    intro P o h1 o' h2 h3
    subst h2
    cases o' with
    | none =>
      intro q hq
      by_contra hc
      exact h1 q ⟨(hhas q).2 hc, hq⟩
    | some k => exact ⟨h1.1.2, h3 k rfl, fun q hq hn => h1.2 q ⟨(hhas q).2 hn, hq⟩⟩
  have hlist : ∀ {l' : List (L × (K × V))}, Lists (m : AMap L (K × V)) l' → l' = l.map (tagE rank) := by
    intro l' h'
    refine List.Perm.eq_of_pairwise (le := fun a b => a.1 < b.1) ?_ h'.1 ?_ ?_
    · intro a b _ _ h1 h2; exact absurd h1 (lt_asymm h2)
    · simpa [List.pairwise_map, tagE] using hl.lists.1
    · refine (List.perm_ext_iff_of_nodup ?_ ?_).2 ?_
      · exact h'.1.imp fun h e => by rw [e] at h; exact lt_irrefl _ h
      · have : (l.map (tagE rank)).Pairwise (fun a b => a.1 < b.1) := by
          simpa [List.pairwise_map, tagE] using hl.lists.1
        exact this.imp fun h e => by rw [e] at h; exact lt_irrefl _ h
      · rintro ⟨q, e⟩
        rw [h'.2 q e]
        simp only [List.mem_map, tagE, Prod.mk.injEq]
        constructor
        · intro he
          have := hl.rank_eq q e he
          exact ⟨e, (hl.lists.2 e).2 (by rw [this]; exact he), this, rfl⟩
        · rintro ⟨e', he', rfl, rfl⟩
          exact (hl.lists.2 _).1 he'
  cases op with
  | insert k v => exact ⟨hpair h.1, h.2⟩
  | remove k => exact ⟨hpair h.1, h.2⟩
  | get k => exact ⟨hval h.1, h.2⟩
  | getMut k f => exact ⟨hval h.1, h.2⟩
  | floor k =>
    obtain ⟨⟨o, h1, h2⟩, h3⟩ := h
    obtain ⟨o', e1, e2, e3⟩ := hkey trivial h1
    exact ⟨⟨o', e1, hg h2 o' e2 e3⟩, h3⟩
  | ceil k =>
    obtain ⟨⟨o, h1, h2⟩, h3⟩ := h
    obtain ⟨o', e1, e2, e3⟩ := hkey trivial h1
    exact ⟨⟨o', e1, hle h2 o' e2 e3⟩, h3⟩
  | min =>
    obtain ⟨⟨o, h1, h2⟩, h3⟩ := h
    obtain ⟨o', e1, e2, e3⟩ := hkey trivial h1
    exact ⟨⟨o', e1, hle (P := fun _ => True) (by simpa using h2) o' e2 e3⟩, h3⟩
  | max =>
    obtain ⟨⟨o, h1, h2⟩, h3⟩ := h
    obtain ⟨o', e1, e2, e3⟩ := hkey trivial h1
    exact ⟨⟨o', e1, hg (P := fun _ => True) (by simpa using h2) o' e2 e3⟩, h3⟩
  | len =>
    obtain ⟨⟨l', h1, rfl⟩, h3⟩ := h
    rw [hlist h1] at hr
    refine ⟨⟨l, hl.lists, ?_⟩, h3⟩
    cases r with
    | num n => simp only [ResTag, MapRes.num.injEq, List.length_map] at hr; rw [hr]
    | val o => obtain ⟨_, h, _⟩ := hr; cases h
    | pair | key | list | unit => cases hr
  | iter =>
    obtain ⟨⟨l', h1, rfl⟩, h3⟩ := h
    rw [hlist h1] at hr
    refine ⟨⟨l, hl.lists, ?_⟩, h3⟩
    cases r with
    | list l'' =>
      simp only [ResTag, MapRes.list.injEq] at hr
      rw [LRes.list.injEq]
      have := congrArg (List.map (·.2)) hr
      simpa [tagE, Function.comp_def] using this.symm
    | val o => obtain ⟨_, h, _⟩ := hr; cases h
    | pair | key | num | unit => cases hr
  | clear =>
    obtain ⟨rfl, h3⟩ := h
    refine ⟨?_, h3⟩
    cases r with
    | unit => rfl
    | val o => obtain ⟨_, h, _⟩ := hr; cases h
    | pair | key | num | list => cases hr

/-- A map that does on ranked keys what a right one does on the ranks is right for ranked keys. -/
theorem rankRepresents_of_tag {S D : Type} {rank : K → L} {step : S → RankOp K V → D → Option (S × LRes K V)}
    (I : MapImpl L (K × V)) (dr : D → I.Draw) (Rel : S → I.State → Prop)
    (hsim : ∀ s s' op d t' r', Rel s s' → I.step s' (op.tag rank) (dr d) = some (t', r') →
      ∃ t r, step s op d = some (t, r) ∧ Rel t t' ∧ ResTag rank r r')
    (hkey : ∀ s s' op d t k t' l, Rel s s' → op.Finds → step s op d = some (t, .key (some k)) →
      step s .iter d = some (t', .list l) → ∃ v, (k, v) ∈ l)
    {s : S} {s' : I.State} {m : AMap L (K × V)} (hr : Rel s s') (hm : I.Represents s' m) :
    RankRepresents rank step s m := by
  intro ops
  induction ops generalizing s s' m with
  | nil => exact ⟨s, [], m, rfl, rfl, .nil m⟩
  | cons p ops ih =>
    obtain ⟨op, d⟩ := p
    obtain ⟨t', r', m₁, e1, e2, e3⟩ := hm.step (op.tag rank) (dr d)
    obtain ⟨t, r, e4, e5, e6⟩ := hsim s s' op d t' r' hr e1
    obtain ⟨ti', ri', _, i1, i2, _⟩ := hm.step .iter (dr d)
    obtain ⟨ti, ri, i4, _, i6⟩ := hsim s s' .iter d ti' ri' hr i1
    obtain ⟨⟨l', hl, rfl⟩, _⟩ := i2
    have : ∃ l, ri = .list l ∧ l' = l.map (tagE rank) := by
      cases ri with
      | list l => simp only [ResTag, MapRes.list.injEq] at i6; exact ⟨l, rfl, i6⟩
      | val o => obtain ⟨_, h, _⟩ := i6; cases h
      | pair | key | num | unit => cases i6
    obtain ⟨l, rfl, rfl⟩ := this
    have hspec : op.Spec rank m r m₁ := RankOp.spec_of_tag (holds_of_lists hl) e6 e2 fun hop k hk =>
      hkey s s' op d t k ti l hr hop (by rw [e4, hk]) i4
    obtain ⟨u, h, m₂, f1, f2, f3⟩ := ih e5 e3
    exact ⟨u, (op, r) :: h, m₂, by simp only [runRanked, e4, f1], by simp [f2], .cons hspec f3⟩

end Verif.Spec
