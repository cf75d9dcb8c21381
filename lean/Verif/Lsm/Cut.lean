/-
C72: the files of a table were cut short.

Nothing in the crate waits until written bytes are on the disk, so after a power failure a file of a table may end
before its end.  The model is that of `Lsm/Bytes.lean`, with the items that the iterator over `data.dat` returns.
-/
import Verif.Lsm.Bytes

namespace Verif.Lsm.File

open Verif Verif.Bp

variable {K V : Type}

/-! ### The model -/

/-- The beginnings of the files of a table. -/
structure Cut (f f' : Files) : Prop where
  data : f'.data <+: f.data
  index : f'.index <+: f.index
  summary : f'.summary <+: f.summary
  filter : f'.filter <+: f.filter

/-- sstable.rs:341-375 `SSTableDataIter::next`, called until it returns `None`: `some e` is `Ok(e)`, `none` is an error.
With less than 8 bytes left the iterator ends (lines 355-361).  A `read_exact` that fails has read to the end of the
file (lines 363-367), so the call after it returns `None`; after an entry that cannot be decoded the next one is
read (line 369).  The first argument bounds the number of calls. -/
def itemsFrom (ck : Codec K) (cv : Codec V) : Nat → List UInt8 → List (Option (Ent K V))
  | 0, _ => []
  | n + 1, bs =>
    if bs.length < 8 then []
    else match readRecord bs with
      | none => [none]
      | some (bytes, rest) => ((entCodec ck cv).dec bytes).map (·.1) :: itemsFrom ck cv n rest

/-- sstable.rs:328-334 `data_iter`: what it returns.  Every item but an error at the end takes 8 bytes or more. -/
def Handle.items (ck : Codec K) (cv : Codec V) {F : Filter K} (t : Handle F) : List (Option (Ent K V)) :=
  itemsFrom ck cv t.files.data.length t.files.data

/-! ### The specification -/

/-- What a value is read from does not depend on the bytes after it.  bincode reads from left to right and
needs no look-ahead. -/
def _root_.Verif.Bp.Codec.Local {α : Type} (c : Codec α) : Prop :=
  ∀ bs x r s, c.dec bs = some (x, r) → c.dec (bs ++ s) = some (x, r ++ s)

/-- The number of bytes of `data.dat` that some entries take. -/
def bytes (ck : Codec K) (cv : Codec V) (l : List (Ent K V)) : Nat := (l.map fun e => 8 + ((entCodec ck cv).enc e).length).sum

/-! ### Codecs read from left to right -/

theorem local_int : ∀ (n : Nat) (bs : List UInt8) (x : Nat) (r s : List UInt8), decInt n bs = some (x, r) →
    decInt n (bs ++ s) = some (x, r ++ s)
  | 0, bs, x, r, s, h => by
    simp only [decInt, Option.some.injEq, Prod.mk.injEq] at h ⊢
    exact ⟨h.1, by rw [h.2]⟩
  | n + 1, [], x, r, s, h => by simp [decInt] at h
  | n + 1, b :: bs, x, r, s, h => by
    simp only [decInt, List.cons_append, Option.map_eq_some_iff, Prod.mk.injEq] at h ⊢
    obtain ⟨⟨y, r'⟩, h1, h2, h3⟩ := h
    exact ⟨(y, r' ++ s), local_int n bs y r' s h1, h2, by simp only at h3 ⊢; rw [h3]⟩

theorem local_u64 : u64.Local := local_int 8

theorem local_both {α β : Type} {c : Codec α} {d : Codec β} (hc : c.Local) (hd : d.Local) : (both c d).Local := by
  intro bs x r s h
  simp only [both, Option.bind_eq_some_iff, Option.map_eq_some_iff, Prod.mk.injEq] at h ⊢
  obtain ⟨⟨y, r1⟩, h1, ⟨z, r2⟩, h2, h3, h4⟩ := h
  exact ⟨(y, r1 ++ s), hc _ _ _ _ h1, (z, r2 ++ s), hd _ _ _ _ h2, h3, by simp only at h4 ⊢; rw [h4]⟩

theorem local_many {α : Type} {c : Codec α} (hc : c.Local) : ∀ (n : Nat) (bs : List UInt8) (l : List α) (r s : List UInt8),
    decMany c n bs = some (l, r) → decMany c n (bs ++ s) = some (l, r ++ s)
  | 0, bs, l, r, s, h => by
    simp only [decMany, Option.some.injEq, Prod.mk.injEq] at h ⊢
    exact ⟨h.1, by rw [h.2]⟩
  | n + 1, bs, l, r, s, h => by
    simp only [decMany, Option.bind_eq_some_iff, Option.map_eq_some_iff, Prod.mk.injEq] at h ⊢
    obtain ⟨⟨y, r1⟩, h1, ⟨z, r2⟩, h2, h3, h4⟩ := h
    exact ⟨(y, r1 ++ s), hc _ _ _ _ h1, (z, r2 ++ s), local_many hc n _ _ _ _ h2, h3, by simp only at h4 ⊢; rw [h4]⟩

theorem local_boxed {α : Type} {c : Codec α} (hc : c.Local) : (boxed c).Local := by
  intro bs x r s h
  simp only [boxed, Option.bind_eq_some_iff] at h ⊢
  obtain ⟨⟨n, r1⟩, h1, h2⟩ := h
  exact ⟨(n, r1 ++ s), local_u64 _ _ _ _ h1, local_many hc n _ _ _ _ h2⟩

theorem local_sum {ck : Codec K} (hc : ck.Local) : (sumCodec ck).Local := by
  intro bs x r s h
  simp only [sumCodec, Option.bind_eq_some_iff, Option.map_eq_some_iff, Prod.mk.injEq] at h ⊢
  obtain ⟨⟨a, r1⟩, h1, ⟨b, r2⟩, h2, ⟨c, r3⟩, h3, ⟨d, r4⟩, h4, ⟨e, r5⟩, h5, ⟨g, r6⟩, h6, h7, h8⟩ := h
  exact ⟨(a, r1 ++ s), local_u64 _ _ _ _ h1, (b, r2 ++ s), local_u64 _ _ _ _ h2, (c, r3 ++ s), local_u64 _ _ _ _ h3,
    (d, r4 ++ s), local_both hc hc _ _ _ _ h4, (e, r5 ++ s), local_both local_u64 local_u64 _ _ _ _ h5,
    (g, r6 ++ s), local_boxed (local_both hc local_u64) _ _ _ _ h6, h7, by simp only at h8 ⊢; rw [h8]⟩

/-- A value cannot be read from a part of its bytes. -/
theorem dec_short {α : Type} {c : Codec α} (hc : c.Local) {x : α} (hx : c.Reads x) {p : List UInt8} (hp : p <+: c.enc x)
    (hn : p ≠ c.enc x) : c.dec p = none := by
  obtain ⟨q, hq⟩ := hp
  cases h : c.dec p with
  | none => rfl
  | some y =>
    obtain ⟨y, r⟩ := y
    have h1 := hc _ _ _ q h
    have h2 := hx []
    rw [List.append_nil, ← hq, h1] at h2
    simp only [Option.some.injEq, Prod.mk.injEq, List.append_eq_nil_iff] at h2
    rw [h2.2.2, List.append_nil] at hq
    exact absurd hq hn

theorem readRecord_local {bs x r : List UInt8} (s : List UInt8) (h : readRecord bs = some (x, r)) :
    readRecord (bs ++ s) = some (x, r ++ s) := by
  unfold readRecord at h ⊢
  split at h
  · simp at h
  · rename_i h8
    rw [if_neg (by rw [List.length_append]; omega), List.take_append_of_le_length (by omega)]
    cases hd : decInt 8 (bs.take 8).reverse with
    | none => rw [hd] at h; simp at h
    | some y =>
      obtain ⟨n, r'⟩ := y
      rw [hd] at h
      simp only at h ⊢
      split at h
      · simp at h
      · rename_i hn
        rw [List.drop_append_of_le_length (by omega), if_neg (by rw [List.length_append]; omega),
          List.take_append_of_le_length (by omega), List.drop_append_of_le_length (by omega)]
        simp only [Option.some.injEq, Prod.mk.injEq] at h ⊢
        exact ⟨h.1, by rw [h.2]⟩

theorem readRecord_prefix {bs bs' x r : List UInt8} (hp : bs <+: bs') (h : readRecord bs = some (x, r)) :
    ∃ r', readRecord bs' = some (x, r') := by
  obtain ⟨s, rfl⟩ := hp
  exact ⟨_, readRecord_local s h⟩

/-- A record that is not complete cannot be read. -/
theorem readRecord_short {bs p : List UInt8} (hb : bs.length < 2 ^ 64) (hp : p <+: record bs) (hn : p.length < (record bs).length) :
    readRecord p = none := by
  obtain ⟨q, hq⟩ := hp
  cases h : readRecord p with
  | none => rfl
  | some y =>
    obtain ⟨y, r⟩ := y
    have h1 := readRecord_local q h
    have h2 := readRecord_record (rest := []) hb
    rw [List.append_nil, ← hq, h1] at h2
    simp only [Option.some.injEq, Prod.mk.injEq, List.append_eq_nil_iff] at h2
    rw [h2.2.2, List.append_nil] at hq
    rw [hq] at hn
    exact absurd hn (lt_irrefl _)

theorem bytes_eq (ck : Codec K) (cv : Codec V) (l : List (Ent K V)) : bytes ck cv l = (l.flatMap (dataRec ck cv)).length := by
  induction l with
  | nil => rfl
  | cons e l ih => rw [List.flatMap_cons, List.length_append, length_record, ← ih]; simp [bytes]

theorem bytes_append (ck : Codec K) (cv : Codec V) (l l' : List (Ent K V)) :
    bytes ck cv (l ++ l') = bytes ck cv l + bytes ck cv l' := by simp [bytes]

theorem drop_prefix {α : Type} {p l : List α} (n : Nat) (h : p <+: l) : p.drop n <+: l.drop n := by
  obtain ⟨s, rfl⟩ := h
  rw [List.drop_append]
  exact List.prefix_append _ _

/-- With cut files, a lookup that returns at all returns what it returns with the whole files. -/
theorem get_cut [LinearOrder K] {ck : Codec K} {cv : Codec V} {F : Filter K} {search : Search K} {f f' : Files}
    (hc : Cut f f') {s : Summary K} {bf : F.T} {k : K} {a : Option (Val V)}
    (h : (⟨f', s, bf⟩ : Handle F).get ck cv search k = some a) : (⟨f, s, bf⟩ : Handle F).get ck cv search k = some a := by
  unfold Handle.get at h ⊢
  simp only at h ⊢
  split at h
  · rename_i h1; rw [if_pos h1]; exact h
  · rename_i h1
    rw [if_neg h1]
    split at h
    · rename_i h2; rw [if_pos h2]; exact h
    · rename_i h2
      rw [if_neg h2]
      cases h3 : floorOffset s.index k with
      | none => rw [h3] at h; simp at h
      | some o =>
        rw [h3] at h
        cases o with
        | none => exact h
        | some i =>
          simp only at h ⊢
          cases h4 : s.index[i]? with
          | none => rw [h4] at h; simp at h
          | some x =>
            rw [h4] at h
            simp only at h ⊢
            cases h5 : readRecord (f'.index.drop x.2) with
            | none => rw [h5] at h; simp at h
            | some y =>
              rw [h5] at h
              obtain ⟨r', h5'⟩ := readRecord_prefix (drop_prefix x.2 hc.index) h5
              rw [h5']
              simp only at h ⊢
              cases h6 : (idxCodec ck).dec y.1 with
              | none => rw [h6] at h; simp at h
              | some z =>
                rw [h6] at h
                simp only at h ⊢
                cases h7 : search.run z.1 k with
                | none => rw [h7] at h; exact h
                | some j =>
                  rw [h7] at h
                  simp only at h ⊢
                  cases h8 : z.1[j]? with
                  | none => rw [h8] at h; simp at h
                  | some w =>
                    rw [h8] at h
                    simp only at h ⊢
                    cases h9 : readRecord (f'.data.drop w.2) with
                    | none => rw [h9] at h; simp at h
                    | some u =>
                      rw [h9] at h
                      obtain ⟨r'', h9'⟩ := readRecord_prefix (drop_prefix w.2 hc.data) h9
                      rw [h9']
                      exact h

/-- What the iterator over a cut `data.dat` returns. -/
theorem items_cut {ck : Codec K} {cv : Codec V} : ∀ {A B : List (Ent K V)} {p : List UInt8} {n : Nat},
    (∀ e ∈ A ++ B, Readable ck cv e) → ((A ++ B).flatMap (dataRec ck cv)).length < 2 ^ 64 →
    p <+: (A ++ B).flatMap (dataRec ck cv) → bytes ck cv A ≤ p.length →
    (∀ e, B.head? = some e → p.length < bytes ck cv (A ++ [e])) → p.length ≤ n →
    itemsFrom ck cv n p = A.map some ++ if p.length < bytes ck cv A + 8 then [] else [none]
  | [], B, p, n, hr, hl, hp, hA, hB, hn => by
    simp only [List.nil_append, List.map_nil] at *
    have h0 : bytes ck cv ([] : List (Ent K V)) = 0 := rfl
    rw [h0, Nat.zero_add]
    cases n with
    | zero => rw [if_pos (by omega)]; rfl
    | succ n =>
      unfold itemsFrom
      split
      · rfl
      · rename_i h8
        cases B with
        | nil => simp at hp; rw [hp] at h8; simp at h8
        | cons e B =>
          have hlt := hB e rfl
          rw [bytes_eq] at hlt
          simp only [List.flatMap_cons, List.flatMap_nil, List.append_nil] at hlt
          rw [List.flatMap_cons] at hp hl
          have hp' : p <+: dataRec ck cv e :=
            List.prefix_of_prefix_length_le hp (List.prefix_append _ _) (by omega)
          rw [readRecord_short ?_ hp' hlt]
          rw [List.length_append, length_record] at hl
          omega
  | e :: A, B, p, n, hr, hl, hp, hA, hB, hn => by
    have hb : bytes ck cv (e :: A) = (dataRec ck cv e).length + bytes ck cv A := by
      rw [length_record]; simp [bytes]
    have h8 : (dataRec ck cv e).length = 8 + ((entCodec ck cv).enc e).length := length_record _
    rw [List.cons_append, List.flatMap_cons] at hp hl
    obtain ⟨q, rfl⟩ : dataRec ck cv e <+: p :=
      List.prefix_of_prefix_length_le (List.prefix_append _ _) hp (by omega)
    have hq : q <+: (A ++ B).flatMap (dataRec ck cv) := List.prefix_append_right_inj _ |>.1 hp
    simp only [List.length_append] at *
    cases n with
    | zero => omega
    | succ n =>
      unfold itemsFrom
      rw [if_neg (by rw [List.length_append]; omega), readRecord_record (by omega)]
      simp only
      have hre := reads_ent (hr e (by simp)) []
      rw [List.append_nil] at hre
      rw [hre, items_cut (A := A) (B := B) (fun x hx => hr x (by simp at hx ⊢; tauto)) (by omega) hq (by omega) ?_ (by omega)]
      · have hiff : (dataRec ck cv e).length + q.length < bytes ck cv (e :: A) + 8 ↔ q.length < bytes ck cv A + 8 := by omega
        simp only [hiff, List.map_cons, List.cons_append, Option.map_some]
      · intro x hx
        have := hB x hx
        rw [List.cons_append, show bytes ck cv (e :: (A ++ [x])) = (dataRec ck cv e).length + bytes ck cv (A ++ [x]) by
          rw [length_record]; simp [bytes]] at this
        omega

/-! ### C72 -/

section

variable [LinearOrder K] (ck : Codec K) (cv : Codec V) (F : Filter K) (search : Search K) (blockSize hint : Nat)
  {l : List (Ent K V)} {f f' : Files}

omit [LinearOrder K] in
/-- A handle for the files as cut. -/
theorem open_cut {ck : Codec K} {cv : Codec V} {F : Filter K} {s : Summary K} {bf : F.T} {bs : List (List (K × Nat))}
    (h : Holds ck cv F l f s bf bs) (hst : Storable ck cv l f) (h1 : f'.summary = f.summary) (h2 : f'.filter = f.filter) :
    Handle.open ck F f' = some ⟨f', s, bf⟩ := by
  have := open_holds h hst
  unfold Handle.open at this ⊢
  rw [h1, h2]
  revert this
  split
  · simp
  · simp

omit [LinearOrder K] in
theorem holds_of_write {ck : Codec K} {cv : Codec V} {F : Filter K} {blockSize hint : Nat} (hl : l ≠ [])
    (hw : write ck cv F blockSize hint l = some f) : ∃ s bf bs, Holds ck cv F l f s bf bs := by
  obtain ⟨f1, s, bf, bs, -, h1, h, -⟩ := write_holds ck cv F blockSize hint hl
  rw [hw] at h1
  obtain rfl := Option.some.inj h1
  exact ⟨s, bf, bs, h⟩

omit [LinearOrder K] in
/-- C72: a table of which `summary.dat` or `filter.dat` was cut cannot be opened; otherwise it can. -/
theorem C72_open (hk : ck.Local) (hF : F.codec.Local) (hl : l ≠ []) (hw : write ck cv F blockSize hint l = some f)
    (hst : Storable ck cv l f) (hc : Cut f f') :
    (Handle.open ck F f').isSome = true ↔ f'.summary = f.summary ∧ f'.filter = f.filter := by
  obtain ⟨s, bf, bs, h⟩ := holds_of_write hl hw
  constructor
  · intro ho
    by_contra hne
    have hsum : (sumCodec ck).Reads s := reads_sum h hst
    suffices Handle.open ck F f' = none by rw [this] at ho; simp at ho
    unfold Handle.open
    by_cases h1 : f'.summary = f.summary
    · have h2 : f'.filter ≠ f.filter := fun h2 => hne ⟨h1, h2⟩
      rw [dec_short hF (F.reads bf) (by rw [← h.filter]; exact hc.filter) (by rw [← h.filter]; exact h2)]
      split <;> simp_all
    · rw [dec_short (local_sum hk) hsum (by rw [← h.summary]; exact hc.summary) (by rw [← h.summary]; exact h1)]
  · rintro ⟨h1, h2⟩
    rw [open_cut h hst h1 h2]
    rfl

/-- C72: wherever the files of a table are cut, if the table can be opened, a `get` returns an error or the right answer. -/
theorem C72_get (hk : ck.Local) (hF : F.codec.Local) (hl : l ≠ []) (hs : l.Pairwise fun a b => a.1 < b.1)
    (hw : write ck cv F blockSize hint l = some f) (hst : Storable ck cv l f) (hc : Cut f f')
    {t : Handle F} (ht : Handle.open ck F f' = some t) {k : K} {a : Option (Val V)} (hg : t.get ck cv search k = some a) :
    ∀ v, a = some v ↔ (k, v) ∈ l := by
  obtain ⟨s, bf, bs, h⟩ := holds_of_write hl hw
  obtain ⟨h1, h2⟩ := (C72_open ck cv F blockSize hint hk hF hl hw hst hc).1 (by rw [ht]; rfl)
  rw [open_cut h hst h1 h2] at ht
  obtain rfl := Option.some.inj ht
  have hg := get_cut hc hg
  rw [get_holds h hs hst.reads hst.size] at hg
  obtain rfl := Option.some.inj hg
  intro v
  constructor
  · intro hv
    simp only [Option.map_eq_some_iff] at hv
    obtain ⟨e, he, rfl⟩ := hv
    rw [← SL.find_some_key he]; exact SL.find_some_mem he
  · intro hv
    rw [SL.find_of_mem hs hv]; rfl

/-- C72: if only `data.dat` was cut, a `get` returns an error exactly for the entries that are not completely in what
is left of it. -/
theorem C72_get_exact (hl : l ≠ []) (hs : l.Pairwise fun a b => a.1 < b.1) (hw : write ck cv F blockSize hint l = some f)
    (hst : Storable ck cv l f) (c : Nat) : ∃ t, Handle.open ck F { f with data := f.data.take c } = some t ∧
      (∀ k, (∀ v, (k, v) ∉ l) → t.get ck cv search k = some none) ∧
      ∀ A k v B, l = A ++ (k, v) :: B →
        t.get ck cv search k = if bytes ck cv (A ++ [(k, v)]) ≤ c then some (some v) else none := by
  obtain ⟨s, bf, bs, h⟩ := holds_of_write hl hw
  refine ⟨_, open_cut h hst rfl rfl, fun k hk => ?_, fun A k v B hAB => ?_⟩
  · rcases locate_holds h hs hst.reads hst.size search k (f.data.take c) with ⟨-, hg⟩ | ⟨A, e, B, hAB, rfl, hg⟩
    · exact hg
    · exact absurd (by rw [hAB]; simp) (hk e.2)
  · rcases locate_holds h hs hst.reads hst.size search k (f.data.take c) with ⟨hk, hg⟩ | ⟨A', e, B', hAB', hek, hg⟩
    · exact absurd rfl (hk (k, v) (by rw [hAB]; simp))
    · have hA : A' = A ∧ e = (k, v) := by
        have he : e = (k, v) := by
          have h1 := SL.find_of_mem hs (show e ∈ l by rw [hAB']; simp)
          have h2 := SL.find_of_mem hs (show (k, v) ∈ l by rw [hAB]; simp)
          rw [hek] at h1
          rw [h1] at h2
          exact Option.some.inj h2
        subst he
        refine ⟨?_, rfl⟩
        have hnd : l.Nodup := hs.imp fun {a b} hab heq => by rw [heq] at hab; exact lt_irrefl _ hab
        rw [hAB'] at hAB hnd
        have n1 : (k, v) ∉ A' := fun hm => (List.nodup_append.1 hnd).2.2 _ hm _ (by simp) rfl
        have n2 : (k, v) ∉ A := by
          rw [hAB] at hnd
          exact fun hm => (List.nodup_append.1 hnd).2.2 _ hm _ (by simp) rfl
        rcases List.append_eq_append_iff.1 hAB with ⟨m, hm, hm'⟩ | ⟨m, hm, hm'⟩
        · cases m with
          | nil => simp at hm; exact hm.symm
          | cons x m =>
            simp only [List.cons_append, List.cons.injEq] at hm'
            exact absurd (by rw [hm, ← hm'.1]; simp) n2
        · cases m with
          | nil => simp at hm; exact hm
          | cons x m =>
            simp only [List.cons_append, List.cons.injEq] at hm'
            exact absurd (by rw [hm, ← hm'.1]; simp) n1
      obtain ⟨rfl, rfl⟩ := hA
      rw [hg, bytes_append, bytes_eq ck cv A']
      have hsz := hst.size
      have hd : f.data = A'.flatMap (dataRec ck cv) ++ (dataRec ck cv (k, v) ++ B.flatMap (dataRec ck cv)) := by
        rw [h.data, hAB, List.flatMap_append, List.flatMap_cons]
      have hb1 : bytes ck cv [(k, v)] = (dataRec ck cv (k, v)).length := by rw [length_record]; simp [bytes]
      have hrl : (dataRec ck cv (k, v)).length = 8 + ((entCodec ck cv).enc (k, v)).length := length_record _
      have hel : ((entCodec ck cv).enc (k, v)).length < 2 ^ 64 := by
        rw [hd] at hsz
        simp only [List.length_append] at hsz
        omega
      rw [List.drop_take, hd, List.drop_left, hb1]
      by_cases hle : (A'.flatMap (dataRec ck cv)).length + (dataRec ck cv (k, v)).length ≤ c
      · rw [if_pos hle, List.take_append, List.take_of_length_le (by omega), readRecord_record hel]
        have hre := reads_ent (hst.reads (k, v) (by rw [hAB]; simp)) []
        rw [List.append_nil] at hre
        simp only [hre]
      · rw [if_neg hle, List.take_append_of_le_length (by omega), readRecord_short hel (List.take_prefix _ _)
          (by rw [List.length_take]; change _ < (dataRec ck cv (k, v)).length; omega)]

omit [LinearOrder K] in
/-- C72: what a scan returns if `data.dat` was cut: the entries that are completely there, and then an error,
unless less than 8 bytes follow them. -/
theorem C72_scan_exact (hl : l ≠ []) (hw : write ck cv F blockSize hint l = some f) (hst : Storable ck cv l f) {c : Nat}
    (hc : c ≤ f.data.length) {A B : List (Ent K V)} (hAB : l = A ++ B) (hA : bytes ck cv A ≤ c)
    (hB : ∀ e, B.head? = some e → c < bytes ck cv (A ++ [e])) :
    ∃ t, Handle.open ck F { f with data := f.data.take c } = some t ∧
      t.items ck cv = A.map some ++ if c < bytes ck cv A + 8 then [] else [none] := by
  obtain ⟨s, bf, bs, h⟩ := holds_of_write hl hw
  refine ⟨_, open_cut h hst rfl rfl, ?_⟩
  have hlen : (f.data.take c).length = c := by rw [List.length_take]; omega
  have hsz := hst.size
  unfold Handle.items
  simp only
  rw [items_cut (A := A) (B := B) (by rw [← hAB]; exact hst.reads) (by rw [← hAB, ← h.data]; omega)
    (by rw [← hAB, ← h.data]; exact List.take_prefix _ _) (by omega) (by rw [hlen]; exact hB) le_rfl, hlen]

/-- C72 fails, for every table with two or more entries: if `data.dat` is cut after the entries `A`, the table can be
opened, a scan returns `A` and no error, and the table that a compaction writes from that answers that the other keys
were never there. -/
theorem C72_violated (hs : l.Pairwise fun a b => a.1 < b.1)
    (hw : write ck cv F blockSize hint l = some f) (hst : Storable ck cv l f) {A B : List (Ent K V)} (hAB : l = A ++ B)
    (hA : A ≠ []) (hB : B ≠ []) :
    ∃ c < f.data.length, ∃ t, Handle.open ck F { f with data := f.data.take c } = some t ∧ t.items ck cv = A.map some ∧
      (∀ k v, (k, v) ∈ B → t.get ck cv search k = none) ∧
      ∀ blockSize' hint', ∃ f₁, write ck cv F blockSize' hint' A = some f₁ ∧ (Storable ck cv A f₁ →
        ∃ t₁, Handle.open ck F f₁ = some t₁ ∧ ∀ k v, (k, v) ∈ B → t₁.get ck cv search k = some none) := by
  have hl : l ≠ [] := by rw [hAB]; simp [hA]
  obtain ⟨s, bf, bs, h⟩ := holds_of_write hl hw
  have hd : f.data.length = bytes ck cv A + bytes ck cv B := by rw [h.data, ← bytes_eq, hAB, bytes_append]
  have hpos : ∀ e (B' : List (Ent K V)), 8 ≤ bytes ck cv (e :: B') := fun e B' => by simp [bytes]; omega
  obtain ⟨e, B', rfl⟩ := List.exists_cons_of_ne_nil hB
  have h8 := hpos e B'
  obtain ⟨t, ht, hg⟩ := C72_scan_exact (c := bytes ck cv A) ck cv F blockSize hint hl hw hst (by omega) hAB le_rfl
    (fun x hx => by rw [bytes_append]; have := hpos x []; omega)
  obtain ⟨t', ht', -, hget⟩ := C72_get_exact ck cv F search blockSize hint hl hs hw hst (bytes ck cv A)
  rw [ht] at ht'
  obtain rfl := Option.some.inj ht'
  refine ⟨_, by omega, t, ht, by rw [hg, if_pos (by omega), List.append_nil], fun k v hkv => ?_, fun bz hi => ?_⟩
  · obtain ⟨C, D, hCD⟩ := List.append_of_mem hkv
    rw [hget (A ++ C) k v D (by rw [hAB, hCD]; simp), if_neg]
    rw [bytes_append, bytes_append]
    have := hpos (k, v) []
    omega
  · have hsA : A.Pairwise fun a b => a.1 < b.1 := by rw [hAB] at hs; exact (List.pairwise_append.1 hs).1
    obtain ⟨f₁, hf₁, hok⟩ := C42_sstable ck cv F search bz hi A hA hsA
    refine ⟨f₁, hf₁, fun hst₁ => ?_⟩
    obtain ⟨t₁, ht₁, -, hno, -⟩ := hok hst₁
    refine ⟨t₁, ht₁, fun k v hkv => hno k fun v' hkv' => ?_⟩
    rw [hAB] at hs
    exact lt_irrefl _ ((List.pairwise_append.1 hs).2.2 (k, v') hkv' (k, v) hkv)

end

namespace Example

/-- The assumptions on the codecs hold for keys and times of type `u64` and the filter of the example. -/
example : u64.Local ∧ filter.codec.Local := by
  refine ⟨local_u64, fun bs x r s h => ?_⟩
  rcases bs with _ | ⟨a, _ | ⟨b, bs⟩⟩
  · simp [filter] at h
  · simp [filter] at h
  · simp only [filter, Option.some.injEq, List.cons_append] at h ⊢
    cases h
    rfl

/-- The five entries of `Lsm/Bytes.lean` take 33, 25, 33, 33 and 33 bytes; the first three end at byte 91. -/
example : entries.map (fun e => bytes u64 u64 [e]) = [33, 25, 33, 33, 33] := by decide +kernel

/-- With 91 to 98 bytes of `data.dat` a scan returns three entries and no error, with 99 to 123 bytes three entries and an
error; the key 8 of the fourth entry cannot be looked up in either case, the key 6 can. -/
example : ([91, 98, 99, 123].map fun c => (write u64 u64 filter 2 5 entries).bind fun f =>
    (Handle.open u64 filter { f with data := f.data.take c }).map fun t =>
      decide (t.items u64 u64 = (entries.take 3).map some ++ if c < 99 then [] else [none]) &&
      decide (t.get u64 u64 search 6 = some (some (⟨some 60, 2⟩ : Val Nat))) &&
      decide ((t.get u64 u64 search 8 : Option (Option (Val Nat))) = none)) =
    [some true, some true, some true, some true] := by decide +kernel

/-- Without its last byte the summary cannot be read. -/
example : ((write u64 u64 filter 2 5 entries).bind fun f =>
    Handle.open u64 filter { f with summary := f.summary.dropLast }).isNone = true := by decide +kernel

/-- With a cut index, lookups that need the missing block fail; the others are right. -/
example : ((write u64 u64 filter 2 5 entries).bind fun f =>
    (Handle.open u64 filter { f with index := f.index.take 60 }).map fun t =>
      ([2, 4, 5, 6, 9, 10].map fun k => (t.get u64 u64 search k : Option (Option (Val Nat))))) =
    some [some (some ⟨some 20, 3⟩), some (some ⟨none, 1⟩), some none, none, none, some none] := by decide +kernel

end Example

end Verif.Lsm.File
