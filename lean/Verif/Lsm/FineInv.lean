/-
The invariant of the LSM map with its compaction thread interleaved step by step, and what every call does.
-/
import Verif.Lsm.Fine
import Verif.Lsm.StoreRun

namespace Verif.Lsm

open Verif Verif.Spec

/-! ### Programs with interference -/

namespace Prog

variable {σ ρ : Type}

/-- Whatever the other thread does between the steps of `p`, no step of `p` fails, the waiting can end (if `tot`), `R`
holds at every moment, and `Q` holds when `p` has returned. -/
def wp (th : σ → σ) (R : σ → Prop) (tot : Prop) : Prog σ ρ → (σ → ρ → Prop) → σ → Prop
  | .ret r, Q, s => ∀ n, R (th^[n] s) ∧ Q (th^[n] s) r
  | .act f k, Q, s => ∀ n, R (th^[n] s) ∧ ∃ s', f (th^[n] s) = some s' ∧ wp th R tot (k (th^[n] s) s') Q s'
  | .await b k, Q, s => (tot → ∀ n, ∃ m, b (th^[m] (th^[n] s)) = true) ∧
      ∀ n, R (th^[n] s) ∧ (b (th^[n] s) = true → wp th R tot k Q (th^[n] s))

variable {th : σ → σ} {R : σ → Prop} {tot : Prop} {Q : σ → ρ → Prop}

theorem wp_R {p : Prog σ ρ} {s : σ} (h : wp th R tot p Q s) : R s := by
  cases p with
  | ret r => exact (h 0).1
  | act f k => exact (h 0).1
  | await b k => exact (h.2 0).1

theorem iter_stable {I : σ → Prop} (hI : ∀ b, I b → I (th b)) (n : Nat) : ∀ {b}, I b → I (th^[n] b) := by
  induction n with
  | zero => intro b h; exact h
  | succ n ih => intro b h; rw [Function.iterate_succ_apply]; exact ih (hI b h)

theorem wp_th {p : Prog σ ρ} {s : σ} (h : wp th R tot p Q s) : wp th R tot p Q (th s) := by
  cases p with
  | ret r => intro n; have := h (n + 1); rwa [Function.iterate_succ_apply] at this
  | act f k => intro n; have := h (n + 1); rwa [Function.iterate_succ_apply] at this
  | await b k =>
    refine ⟨fun ht n => ?_, fun n => ?_⟩
    · have := h.1 ht (n + 1); rwa [Function.iterate_succ_apply] at this
    · have := h.2 (n + 1); rwa [Function.iterate_succ_apply] at this

theorem wp_ret {r : ρ} {s : σ} (I : σ → Prop) (hI : ∀ b, I b → I (th b)) (hR : ∀ b, I b → R b) (hs : I s)
    (h : ∀ b, I b → Q b r) : wp th R tot (.ret r) Q s :=
  fun n => ⟨hR _ (iter_stable hI n hs), h _ (iter_stable hI n hs)⟩

theorem wp_act {f : σ → Option σ} {k : σ → σ → Prog σ ρ} {s : σ} (I : σ → Prop) (hI : ∀ b, I b → I (th b))
    (hR : ∀ b, I b → R b) (hs : I s) (h : ∀ b, I b → ∃ b', f b = some b' ∧ wp th R tot (k b b') Q b') :
    wp th R tot (.act f k) Q s :=
  fun n => ⟨hR _ (iter_stable hI n hs), h _ (iter_stable hI n hs)⟩

theorem wp_await {w : σ → Bool} {k : Prog σ ρ} {s : σ} (I : σ → Prop) (hI : ∀ b, I b → I (th b))
    (hR : ∀ b, I b → R b) (hs : I s) (h1 : tot → ∀ b, I b → ∃ m, w (th^[m] b) = true)
    (h2 : ∀ b, I b → w b = true → wp th R tot k Q b) : wp th R tot (.await w k) Q s :=
  ⟨fun ht n => h1 ht _ (iter_stable hI n hs), fun n => ⟨hR _ (iter_stable hI n hs), h2 _ (iter_stable hI n hs)⟩⟩

end Prog

namespace Fine

open Store Prog

variable {K V : Type} [LinearOrder K] [DecidableEq V] {kd : Kind K V} {x : Bool}

/-- The invariant of both threads. -/
structure Good (L : Laws kd x) (c : Cfg K V) (g : Ghost K V) (a : Fine kd) : Prop where
  inv : Inv L c a.s g
  out : ∀ m done rest, a.out = some (m, done, rest) → ∃ j f, a.s.job = some j ∧
    kd.compact j f = some (m, done ++ rest) ∧ (∀ u ∈ done, u ∈ a.s.disk.dirs) ∧
    (∀ u ∈ done ++ rest, u.id ∉ (kd.tabs a.s.cur).map (·.id)) ∧ (rest.map (·.id)).Nodup ∧
    ∀ u ∈ rest, u.id ∉ a.s.disk.dirs.map (·.id) ∧ u.id < a.s.fresh

/-- What the compaction thread leaves alone. -/
structure Fr (a b : Fine kd) : Prop where
  mem : b.s.mem = a.s.mem
  usage : b.s.usage = a.s.usage
  handle : b.s.handle = a.s.handle
  clock : b.s.clock = a.s.clock
  locks : b.s.locks = a.s.locks
  job : a.s.job = none → b.s.job = none
  next : a.s.job = none → a.s.next = none → b.s.next = none

omit [LinearOrder K] [DecidableEq V] in
theorem Fr.refl (a : Fine kd) : Fr a a := ⟨rfl, rfl, rfl, rfl, rfl, id, fun _ => id⟩

omit [LinearOrder K] [DecidableEq V] in
theorem Fr.trans {a b d : Fine kd} (h : Fr a b) (h' : Fr b d) : Fr a d :=
  ⟨h'.mem.trans h.mem, h'.usage.trans h.usage, h'.handle.trans h.handle, h'.clock.trans h.clock, h'.locks.trans h.locks,
    fun j => h'.job (h.job j), fun j n => h'.next (h.job j) (h.next j n)⟩

variable {inp : kd.Job → List (Table K V)}

theorem thread_none {a : Fine kd} (h : a.s.job = none) : a.thread inp = { a with s := { a.s with busy := false } } := by
  unfold thread; rw [h]

theorem thread_fr (a : Fine kd) : Fr a (a.thread inp) ∧ (a.thread inp).s.cur = a.s.cur := by
  unfold thread
  split
  · exact ⟨⟨rfl, rfl, rfl, rfl, rfl, id, fun _ => id⟩, rfl⟩
  · rename_i j hj
    have hc : ∀ {P : Prop}, a.s.job = none → P := fun h => by rw [hj] at h; simp at h
    split
    · split
      · split
        · exact ⟨Fr.refl a, rfl⟩
        · exact ⟨⟨rfl, rfl, rfl, rfl, rfl, hc, hc⟩, rfl⟩
      · exact ⟨⟨rfl, rfl, rfl, rfl, rfl, hc, hc⟩, rfl⟩
    · split <;> exact ⟨⟨rfl, rfl, rfl, rfl, rfl, hc, hc⟩, rfl⟩
    · exact ⟨⟨rfl, rfl, rfl, rfl, rfl, hc, hc⟩, rfl⟩

/-- The tables that the compaction thread reads are on disk. -/
theorem Good.inputs {L : Laws kd x} {c : Cfg K V} {g : Ghost K V} {a : Fine kd} (h : Good L c g a)
    (hi : ∀ {S j}, kd.plan S = some j → ∀ t ∈ inp j, t ∈ kd.tabs S) {j : kd.Job} (hj : a.s.job = some j) :
    ∀ t ∈ inp j, t ∈ a.s.disk.dirs := by
  obtain ⟨_, _, S, _, h4, h5⟩ := h.inv.job j hj
  exact fun t ht => h.inv.files t (h4.sub L t (hi h5 t ht))

/-- The directories that the compaction thread reads are there: those of the tables it merges, and those it has
written. -/
def Fed (inp : kd.Job → List (Table K V)) (a : Fine kd) : Prop :=
  ∀ j, a.s.job = some j → (∀ t ∈ inp j, t ∈ a.s.disk.dirs) ∧
    ∀ m done rest, a.out = some (m, done, rest) → ∀ t ∈ done, t ∈ a.s.disk.dirs

theorem Good.fed {L : Laws kd x} {c : Cfg K V} {g : Ghost K V} {a : Fine kd} (h : Good L c g a)
    (hi : ∀ {S j}, kd.plan S = some j → ∀ t ∈ inp j, t ∈ kd.tabs S) : Fed inp a := by
  intro j hj
  refine ⟨h.inputs hi hj, fun m done rest ho => ?_⟩
  obtain ⟨_, _, _, _, h3, _⟩ := h.out m done rest ho
  exact h3

/-- Every step of the compaction thread preserves the invariant. -/
theorem Good.thread {L : Laws kd x} {c : Cfg K V} {g : Ghost K V} {a : Fine kd} (h : Good L c g a)
    (hi : ∀ {S j}, kd.plan S = some j → ∀ t ∈ inp j, t ∈ kd.tabs S) : Good L c g (a.thread inp) := by
  have hI := h.inv
  cases hj : a.s.job with
  | none =>
    rw [thread_none hj]
    refine ⟨⟨hI.memSorted, hI.memTime, hI.memNew, hI.curTime, hI.inv, hI.sees, hI.ids, fun j h' => by simp [hj] at h',
      hI.next, hI.locked, hI.files, hI.dirIds, hI.dirNew, hI.md, hI.time, hI.used, hI.usedEq, hI.vals, hI.memVals⟩, ?_⟩
    intro m done rest ho
    obtain ⟨j, _, hj', _⟩ := h.out m done rest ho
    rw [hj] at hj'; simp at hj'
  | some j =>
    have hin := h.inputs hi hj
    obtain ⟨h1, h2, S, h3, h4, h5⟩ := hI.job j hj
    have hlock : a.s.locks ≠ 0 → False := fun hl => by have := (hI.locked hl).1; rw [hj] at this; simp at this
    unfold Fine.thread
    rw [hj]
    dsimp only
    cases ho : a.out with
    | none =>
      dsimp only
      rw [if_pos hin]
      cases hc : kd.compact j a.s.fresh with
      | none => exact h
      | some p =>
        obtain ⟨m, new⟩ := p
        dsimp only
        obtain ⟨h6, h7⟩ := L.compact_new h3 h5 hc
        have hid : ∀ u ∈ new, a.s.fresh ≤ u.id ∧ u.id < a.s.fresh + new.length := by
          intro u hu
          have : u.id ∈ new.map (·.id) := List.mem_map.2 ⟨u, hu, rfl⟩
          rw [h6, List.mem_range'_1] at this
          exact this
        have hnd : ∀ u ∈ new, u.id ∉ a.s.disk.dirs.map (·.id) := by
          intro u hu hm
          obtain ⟨t, ht, he⟩ := List.mem_map.1 hm
          have := hI.dirNew t ht
          have := (hid u hu).1
          omega
        refine ⟨⟨hI.memSorted, hI.memTime, hI.memNew, hI.curTime, hI.inv, hI.sees, hI.ids, ?_, hI.next, hI.locked,
          hI.files, hI.dirIds, ?_, hI.md, hI.time, hI.used, hI.usedEq, hI.vals, hI.memVals⟩, ?_⟩
        · intro j' hj'
          exact hI.job j' hj'
        · intro t ht; have := hI.dirNew t ht; simp only; omega
        · intro m' done rest he
          simp only [Option.some.injEq, Prod.mk.injEq] at he
          obtain ⟨rfl, rfl, rfl⟩ := he
          refine ⟨j, a.s.fresh, hj, by simpa using hc, by simp, fun u hu hm => ?_, ?_, fun u hu => ⟨hnd u hu, (hid u hu).2⟩⟩
          · obtain ⟨t, ht, he⟩ := List.mem_map.1 hm
            exact hnd u (by simpa using hu) (List.mem_map.2 ⟨t, hI.files t ht, he⟩)
          · rw [h6]; exact List.nodup_range'
    | some p =>
      obtain ⟨m, done, rest⟩ := p
      obtain ⟨j', f, k1, k2, k3, k4, k5, k6⟩ := h.out m done rest ho
      rw [hj] at k1
      simp only [Option.some.injEq] at k1
      subst k1
      cases rest with
      | nil =>
        dsimp only
        refine ⟨⟨hI.memSorted, hI.memTime, hI.memNew, hI.curTime, hI.inv, hI.sees, hI.ids, by simp, ?_,
          fun hl => (hlock hl).elim, hI.files, hI.dirIds, hI.dirNew, hI.md, hI.time, hI.used, hI.usedEq, hI.vals,
          hI.memVals⟩, by simp⟩
        intro m' hm
        simp only [Option.some.injEq] at hm
        subst hm
        rw [List.append_nil] at k2 k4
        exact ⟨S, j, f, done, h3, h4, h5, k2, k3, k4⟩
      | cons t rest =>
        dsimp only
        rw [if_pos (by
          intro u hu
          rcases List.mem_append.1 hu with hu | hu
          · exact hin u hu
          · exact k3 u hu)]
        obtain ⟨n1, n2⟩ := List.nodup_cons.1 k5
        obtain ⟨t1, t2⟩ := k6 t (by simp)
        refine ⟨⟨hI.memSorted, hI.memTime, hI.memNew, hI.curTime, hI.inv, hI.sees, hI.ids, ?_, ?_, hI.locked, ?_, ?_, ?_,
          hI.md, hI.time, hI.used, hI.usedEq, hI.vals, hI.memVals⟩, ?_⟩
        · exact hI.job
        · intro m' hm
          simp only [put] at hm
          rw [h1] at hm; simp at hm
        · intro u hu; exact List.mem_append_left _ (hI.files u hu)
        · simp only [put, List.map_append, List.map_cons, List.map_nil]
          refine List.nodup_append.2 ⟨hI.dirIds, by simp, ?_⟩
          intro p hp q hq hpq
          simp only [List.mem_singleton] at hq
          subst hq; subst hpq
          exact t1 hp
        · intro u hu
          rcases List.mem_append.1 hu with hu | hu
          · exact hI.dirNew u hu
          · simp only [List.mem_singleton] at hu; subst hu; exact t2
        · intro m' done' rest' he
          simp only [Option.some.injEq, Prod.mk.injEq] at he
          obtain ⟨rfl, rfl, rfl⟩ := he
          refine ⟨j, f, hj, by simpa using k2, ?_, ?_, n2, ?_⟩
          · intro u hu
            rcases List.mem_append.1 hu with hu | hu
            · exact List.mem_append_left _ (k3 u hu)
            · exact List.mem_append_right _ hu
          · intro u hu; exact k4 u (by simpa using hu)
          · intro u hu
            obtain ⟨u1, u2⟩ := k6 u (List.mem_cons_of_mem _ hu)
            refine ⟨?_, u2⟩
            simp only [put, List.map_append, List.map_cons, List.map_nil, List.mem_append, List.mem_singleton, not_or]
            exact ⟨u1, fun he => n1 (List.mem_map.2 ⟨u, hu, he⟩)⟩

/-- The compaction thread ends. -/
theorem Good.ends {L : Laws kd x} (hL : L.Total) {c : Cfg K V} {g : Ghost K V} {a : Fine kd} (h : Good L c g a)
    (hi : ∀ {S j}, kd.plan S = some j → ∀ t ∈ inp j, t ∈ kd.tabs S) :
    ∃ n, ((Fine.thread inp)^[n] a).s.job = none ∧ ((Fine.thread inp)^[n] a).s.busy = false := by
  have done : ∀ {b : Fine kd}, b.s.job = none →
      ∃ n, ((Fine.thread inp)^[n] b).s.job = none ∧ ((Fine.thread inp)^[n] b).s.busy = false := fun {b} hb =>
    ⟨1, by rw [Function.iterate_one, thread_none hb]; exact hb, by rw [Function.iterate_one, thread_none hb]⟩
  have more : ∀ {b : Fine kd}, (∃ n, ((Fine.thread inp)^[n] (b.thread inp)).s.job = none ∧
      ((Fine.thread inp)^[n] (b.thread inp)).s.busy = false) →
      ∃ n, ((Fine.thread inp)^[n] b).s.job = none ∧ ((Fine.thread inp)^[n] b).s.busy = false := by
    rintro b ⟨n, hn⟩
    exact ⟨n + 1, by rwa [Function.iterate_succ_apply]⟩
  have writing : ∀ (rest : List (Table K V)) (b : Fine kd) (m : kd.M) (l : List (Table K V)), Good L c g b →
      b.out = some (m, l, rest) →
      ∃ n, ((Fine.thread inp)^[n] b).s.job = none ∧ ((Fine.thread inp)^[n] b).s.busy = false := by
    intro rest
    induction rest with
    | nil =>
      intro b m l hb ho
      obtain ⟨j, f, k1, _⟩ := hb.out m l [] ho
      refine more (done ?_)
      unfold Fine.thread
      rw [k1, ho]
    | cons t rest ih =>
      intro b m l hb ho
      obtain ⟨j, f, k1, k2, k3, _⟩ := hb.out m l _ ho
      refine more (ih _ m (l ++ [t]) (hb.thread hi) ?_)
      unfold Fine.thread
      rw [k1, ho]
      dsimp only
      rw [if_pos (by
          intro u hu
          rcases List.mem_append.1 hu with hu | hu
          · exact hb.inputs hi k1 u hu
          · exact k3 u hu)]
  cases hj : a.s.job with
  | none => exact done hj
  | some j =>
    cases ho : a.out with
    | some p => obtain ⟨m, l, rest⟩ := p; exact writing rest a m l h ho
    | none =>
      obtain ⟨_, _, S, h3, h4, h5⟩ := h.inv.job j hj
      obtain ⟨⟨m, new⟩, hr⟩ := hL h3 h5 a.s.fresh
      refine more (writing new _ m [] (h.thread hi) ?_)
      unfold Fine.thread
      rw [hj, ho]
      dsimp only
      rw [if_pos (h.inputs hi hj), hr]

theorem hand_thread {a : Fine kd} (h : a.s.Hand) : (a.thread inp).s.Hand := by
  intro hh
  rw [(thread_fr a).1.handle] at hh
  obtain ⟨h1, h2⟩ := h hh
  rw [thread_none h1]
  exact ⟨h1, h2⟩

/-! ### The parts of the calls -/

omit [DecidableEq V] in
theorem inv_busy {L : Laws kd x} {c : Cfg K V} {g : Ghost K V} {s : Store kd} (h : Inv L c s g) (hj : s.job = none)
    (b : Bool) : Inv L c { s with busy := b } g :=
  ⟨h.memSorted, h.memTime, h.memNew, h.curTime, h.inv, h.sees, h.ids, fun j h' => by simp [hj] at h', h.next,
    h.locked, h.files, h.dirIds, h.dirNew, h.md, h.time, h.used, h.usedEq, h.vals, h.memVals⟩

omit [DecidableEq V] in
theorem inv_handle {L : Laws kd x} {c : Cfg K V} {g : Ghost K V} {s : Store kd} (h : Inv L c s g)
    (b : Bool) : Inv L c { s with handle := b } g :=
  ⟨h.memSorted, h.memTime, h.memNew, h.curTime, h.inv, h.sees, h.ids, h.job, h.next,
    h.locked, h.files, h.dirIds, h.dirNew, h.md, h.time, h.used, h.usedEq, h.vals, h.memVals⟩

/-- The state with another flag. -/
abbrev flag (s : Store kd) (b : Bool) : Fine kd := ⟨{ s with busy := b }, none⟩

theorem flag_thread {s : Store kd} (hj : s.job = none) : ∀ a : Fine kd, (∃ b, a = flag s b) → ∃ b, a.thread inp = flag s b := by
  rintro _ ⟨b, rfl⟩
  exact ⟨false, thread_none hj⟩

theorem flag_fed {s : Store kd} (hj : s.job = none) : ∀ a : Fine kd, (∃ b, a = flag s b) → Fed inp a := by
  rintro _ ⟨b, rfl⟩ j hj'
  exact absurd (hj.symm.trans hj') (by simp)

variable {tot : Prop} {Q : Fine kd → KvRes K V → Prop}

theorem wp_removeP {k : P kd} {is : List Nat} : ∀ {s s' : Store kd}, s.job = none → removeDirs is s = some s' →
    (∀ b, wp (Fine.thread inp) (Fed inp) tot k Q (flag s' b)) → ∀ b, wp (Fine.thread inp) (Fed inp) tot (removeP is k) Q (flag s b) := by
  induction is with
  | nil =>
    intro s s' _ h hk b
    simp only [removeDirs, Option.some.injEq] at h
    subst h
    exact hk b
  | cons i is ih =>
    intro s s' hj h hk b
    simp only [removeDirs] at h
    split at h
    · rename_i hi
      refine wp_act (fun a => ∃ b, a = flag s b) (flag_thread hj) (flag_fed hj) ⟨b, rfl⟩ ?_
      rintro _ ⟨b', rfl⟩
      exact ⟨_, if_pos hi, ih (s := s.put { s.disk with dirs := s.disk.dirs.filter fun t => t.id ≠ i }) hj h hk b'⟩
    · simp at h

/-- The removal of directories and the writing of the metadata. -/
theorem wp_removeMeta {k : P kd} {is : List Nat} {s s' : Store kd} (hj : s.job = none)
    (h : (removeDirs is s).map writeMeta = some s') (hk : ∀ b, wp (Fine.thread inp) (Fed inp) tot k Q (flag s' b)) (b : Bool) :
    wp (Fine.thread inp) (Fed inp) tot (removeP is (set writeMeta k)) Q (flag s b) := by
  simp only [Option.map_eq_some_iff] at h
  obtain ⟨s1, h1, rfl⟩ := h
  refine wp_removeP hj h1 (fun b1 => ?_) b
  have hj1 : s1.job = none := by
    obtain ⟨tr, rfl, _⟩ := removeDirs_some h1
    exact hj
  refine wp_act (fun a => ∃ b, a = flag s1 b) (flag_thread hj1) (flag_fed hj1) ⟨b1, rfl⟩ ?_
  rintro _ ⟨b', rfl⟩
  exact ⟨_, rfl, hk b'⟩

variable {L : Laws kd x} {c : Cfg K V} {g : Ghost K V}

theorem Good.noOut {a : Fine kd} (h : Good L c g a) (hj : a.s.job = none) : a.out = none := by
  cases ho : a.out with
  | none => rfl
  | some p =>
    obtain ⟨m, l, rest⟩ := p
    obtain ⟨j, _, k1, _⟩ := h.out m l rest ho
    rw [hj] at k1; simp at k1

theorem wp_replaceP (hi : ∀ {S j}, kd.plan S = some j → ∀ t ∈ inp j, t ∈ kd.tabs S) {k : P kd} {a : Fine kd}
    (h : Good L c g a)
    (hk : ∀ b, Good L c g b → Fr a b → (a.s.job = none → b.s.next = none) → wp (Fine.thread inp) (Fed inp) tot k Q b) :
    wp (Fine.thread inp) (Fed inp) tot (replaceP k) Q a := by
  refine wp_act (fun b => Good L c g b ∧ Fr a b) (fun b hb => ⟨hb.1.thread hi, hb.2.trans (thread_fr b).1⟩) (fun b hb => hb.1.fed hi)
    ⟨h, Fr.refl a⟩ ?_
  rintro b ⟨hb, hf⟩
  refine ⟨_, rfl, ?_⟩
  cases hn : b.s.next with
  | none => exact hk b hb hf fun _ => hn
  | some m =>
    dsimp only
    have hj : b.s.job = none := by
      cases hj : b.s.job with
      | none => rfl
      | some j' => have := (hb.inv.job j' hj).1; rw [hn] at this; simp at this
    obtain ⟨s', k1, k2, k3, k4, k5, k6, k7, k8, k9, k10, _⟩ := inv_tryReplace hb.inv
    unfold tryReplace at k1
    rw [hn] at k1
    dsimp only at k1
    have hb' : b = ⟨b.s, none⟩ := by
      have := hb.noOut hj
      rcases b with ⟨s, o⟩
      simp only at this; rw [this]
    rw [hb']
    refine wp_removeMeta (s := { b.s with cur := kd.replace b.s.cur m, next := none }) hj k1 (fun b2 => ?_) b.s.busy
    refine hk _ ⟨inv_busy k2 (k6.trans hj) b2, by simp⟩ ?_ fun _ => k5
    exact ⟨k3.trans hf.mem, k4.trans hf.usage, k8.trans hf.handle, k9.trans hf.clock, k10.trans hf.locks,
      fun _ => k6.trans hj, fun _ _ => k5⟩

theorem wp_look {k : Store kd → P kd} {a : Fine kd} (I : Fine kd → Prop) (hI : ∀ b, I b → I (b.thread inp))
    (hR : ∀ b, I b → Fed inp b) (hs : I a)
    (h : ∀ b, I b → wp (Fine.thread inp) (Fed inp) tot (k b.s) Q b) : wp (Fine.thread inp) (Fed inp) tot (look k) Q a :=
  wp_act I hI hR hs fun b hb => ⟨b, rfl, h b hb⟩

theorem wp_set {f : Store kd → Store kd} {k : P kd} {a : Fine kd} (I : Fine kd → Prop) (hI : ∀ b, I b → I (b.thread inp))
    (hR : ∀ b, I b → Fed inp b) (hs : I a) (h : ∀ b, I b → wp (Fine.thread inp) (Fed inp) tot k Q ⟨f b.s, b.out⟩) : wp (Fine.thread inp) (Fed inp) tot (set f k) Q a :=
  wp_act I hI hR hs fun b hb => ⟨_, rfl, h b hb⟩

theorem wp_startP (hi : ∀ {S j}, kd.plan S = some j → ∀ t ∈ inp j, t ∈ kd.tabs S) {k : P kd} {a : Fine kd}
    (h : Good L c g a) (hh : a.s.Hand)
    (hk : ∀ b, Good L c g b → b.s.Hand → b.s.mem = a.s.mem → b.s.usage = a.s.usage → b.s.clock = a.s.clock →
      b.s.locks = a.s.locks → wp (Fine.thread inp) (Fed inp) tot k Q b) :
    wp (Fine.thread inp) (Fed inp) tot (startP k) Q a := by
  refine wp_look (fun b => Good L c g b ∧ b.s.Hand ∧ Fr a b)
    (fun b hb => ⟨hb.1.thread hi, hand_thread hb.2.1, hb.2.2.trans (thread_fr b).1⟩) (fun b hb => hb.1.fed hi) ⟨h, hh, Fr.refl a⟩ ?_
  rintro b ⟨hb, hbh, hf⟩
  split
  · exact hk b hb hbh hf.mem hf.usage hf.clock hf.locks
  · rename_i hq
    simp only [not_or, Bool.not_eq_true, not_not, ne_eq] at hq
    have hj : b.s.job = none := by
      cases hj : b.s.job with
      | none => rfl
      | some j' => have := (hb.inv.job j' hj).2.1; rw [hq.1] at this; simp at this
    refine wp_replaceP hi hb fun d hd hfd hnd => ?_
    have hf2 := hf.trans hfd
    refine wp_set (fun e => Good L c g e ∧ Fr a e ∧ e.s.job = none ∧ e.s.next = none ∧ e.s.locks = 0)
      (fun e he => ⟨he.1.thread hi, he.2.1.trans (thread_fr e).1, (thread_fr e).1.job he.2.2.1,
        (thread_fr e).1.next he.2.2.1 he.2.2.2.1, (thread_fr e).1.locks.trans he.2.2.2.2⟩) (fun e he => he.1.fed hi)
      ⟨hd, hf2, hfd.job hj, hnd hj, hfd.locks.trans hq.2⟩ ?_
    rintro e ⟨he, hfe, hej, hen, hel⟩
    cases hp : kd.plan e.s.cur with
    | none => exact hk _ ⟨he.inv, he.out⟩ (fun _ => ⟨hej, hen⟩) hfe.mem hfe.usage hfe.clock hfe.locks
    | some j =>
      dsimp only
      refine hk _ ⟨?_, ?_⟩ (fun hc => by simp at hc) hfe.mem hfe.usage hfe.clock hfe.locks
      · have k2 := he.inv
        refine ⟨k2.memSorted, k2.memTime, k2.memNew, k2.curTime, k2.inv, k2.sees, k2.ids, ?_, k2.next,
          fun hl => absurd hel hl, k2.files, k2.dirIds, k2.dirNew, k2.md, k2.time, k2.used, k2.usedEq, k2.vals, k2.memVals⟩
        intro j' hj'
        simp only [Option.some.injEq] at hj'
        subst hj'
        exact ⟨hen, rfl, e.s.cur, k2.inv, .refl _, hp⟩
      · intro m l rest ho
        rw [he.noOut hej] at ho
        simp at ho

/-! Changes of what only the calling thread uses -/

/-- The state with other values of what only the calling thread uses. -/
def own (mem : List (Ent K V)) (usage : Nat) (cur : kd.M) (clock : Nat) (md : kd.M) (time : Option Nat) (s : Store kd) :
    Store kd :=
  { s with mem := mem, usage := usage, cur := cur, clock := clock, disk := { s.disk with md := md, time := time } }

theorem good_trace {a : Fine kd} (h : Good L c g a) (tr : List (Disk kd)) :
    Good L c g ⟨{ a.s with trace := tr }, a.out⟩ := by
  have hI := h.inv
  exact ⟨⟨hI.memSorted, hI.memTime, hI.memNew, hI.curTime, hI.inv, hI.sees, hI.ids, hI.job, hI.next, hI.locked, hI.files,
    hI.dirIds, hI.dirNew, hI.md, hI.time, hI.used, hI.usedEq, hI.vals, hI.memVals⟩, h.out⟩

theorem own_thread {mem : List (Ent K V)} {usage : Nat} {cur : kd.M} {clock : Nat} {md : kd.M} {time : Option Nat}
    (a : Fine kd) : ∃ tr, (⟨own mem usage cur clock md time (a.thread inp).s, (a.thread inp).out⟩ : Fine kd) =
      ⟨{ ((⟨own mem usage cur clock md time a.s, a.out⟩ : Fine kd).thread inp).s with trace := tr },
        ((⟨own mem usage cur clock md time a.s, a.out⟩ : Fine kd).thread inp).out⟩ := by
  refine ⟨(a.thread inp).s.trace, ?_⟩
  rcases a with ⟨⟨mem0, usage0, cur0, next, job, busy, handle, clock0, locks, fresh, disk, trace⟩, o⟩
  unfold Fine.thread own
  dsimp only
  cases job with
  | none => rfl
  | some j =>
    dsimp only
    rcases o with _ | ⟨m, l, _ | ⟨t, rest⟩⟩
    · dsimp only
      split
      · cases kd.compact j fresh <;> rfl
      · rfl
    · rfl
    · dsimp only
      split <;> rfl

/-- After a change of what only the calling thread uses the invariant will hold, whatever the other thread does first. -/
theorem own_stable (hi : ∀ {S j}, kd.plan S = some j → ∀ t ∈ inp j, t ∈ kd.tabs S)
    {mem : List (Ent K V)} {usage : Nat} {cur : kd.M} {clock : Nat} {md : kd.M} {time : Option Nat}
    (a : Fine kd) (h : Good L c g ⟨own mem usage cur clock md time a.s, a.out⟩) :
    Good L c g ⟨own mem usage cur clock md time (a.thread inp).s, (a.thread inp).out⟩ := by
  obtain ⟨tr, he⟩ := own_thread (inp := inp) (mem := mem) (usage := usage) (cur := cur) (clock := clock) (md := md)
    (time := time) a
  rw [he]
  exact good_trace (h.thread hi) tr

/-- Writing the in-memory tree as a table and the metadata that names it. -/
theorem good_push {a : Fine kd} (h : Good L c g a) (hm : a.s.mem ≠ []) (hg : L.good a.s.mem) :
    ∃ t, build c.sizes (c.block a.s.mem.length) a.s.mem a.s.fresh = some t ∧
      Good L c { g with W := addW a.s.mem g.W } ⟨a.s.pushTable t, a.out⟩ := by
  obtain ⟨t, h1, h2, h3⟩ := inv_pushTable h.inv hm hg
  refine ⟨t, h1, h3, ?_⟩
  intro m l rest ho
  obtain ⟨j, f, k1, k2, k3, k4, k5, k6⟩ := h.out m l rest ho
  have hlt : ∀ u ∈ l ++ rest, u.id < a.s.fresh := by
    intro u hu
    rcases List.mem_append.1 hu with hu | hu
    · exact h.inv.dirNew u (k3 u hu)
    · exact (k6 u hu).2
  refine ⟨j, f, k1, k2, ?_, ?_, k5, ?_⟩
  · intro u hu
    simp only [pushTable, writeMeta, put]
    exact List.mem_append_left _ (k3 u hu)
  · intro u hu hm
    simp only [pushTable, writeMeta, put] at hm
    obtain ⟨u', hu', he⟩ := List.mem_map.1 hm
    rcases List.mem_cons.1 ((L.tabs_push a.s.cur t).mem_iff.1 hu') with rfl | hu'
    · have := hlt u hu; omega
    · exact k4 u hu (List.mem_map.2 ⟨u', hu', he⟩)
  · intro u hu
    have := hlt u (List.mem_append_right _ hu)
    simp only [pushTable, writeMeta, put, List.map_append, List.map_cons, List.map_nil, List.mem_append, List.mem_singleton,
      not_or]
    exact ⟨⟨(k6 u hu).1, by omega⟩, by omega⟩

theorem wp_compactP (hi : ∀ {S j}, kd.plan S = some j → ∀ t ∈ inp j, t ∈ kd.tabs S) {k : P kd} {a : Fine kd}
    (h : Good L c g a) (hh : a.s.Hand) (hm : a.s.mem ≠ []) (hg : L.good a.s.mem)
    (hk : ∀ b, Good L c { g with W := addW a.s.mem g.W } b → b.s.Hand → b.s.mem = [] → b.s.usage = 0 →
      b.s.clock = a.s.clock → b.s.locks = a.s.locks → wp (Fine.thread inp) (Fed inp) tot k Q b) :
    wp (Fine.thread inp) (Fed inp) tot (compactP c k) Q a := by
  refine wp_act (fun b => Good L c g b ∧ b.s.Hand ∧ Fr a b)
    (fun b hb => ⟨hb.1.thread hi, hand_thread hb.2.1, hb.2.2.trans (thread_fr b).1⟩) (fun b hb => hb.1.fed hi) ⟨h, hh, Fr.refl a⟩ ?_
  rintro b ⟨hb, hbh, hf⟩
  obtain ⟨t, h1, h2⟩ := good_push hb (by rw [hf.mem]; exact hm) (by rw [hf.mem]; exact hg)
  rw [h1]
  refine ⟨_, rfl, ?_⟩
  dsimp only
  rw [hf.mem] at h2
  refine wp_set (fun d => Good L c { g with W := addW a.s.mem g.W }
      ⟨own [] 0 (kd.push b.s.cur t) b.s.clock (kd.push b.s.cur t) b.s.disk.time d.s, d.out⟩ ∧ d.s.cur = b.s.cur ∧
      d.s.Hand ∧ d.s.clock = b.s.clock ∧ d.s.locks = b.s.locks ∧ d.s.disk.time = b.s.disk.time)
    (fun d hd => ⟨own_stable hi d hd.1, (thread_fr d).2.trans hd.2.1, hand_thread hd.2.2.1,
      (thread_fr d).1.clock.trans hd.2.2.2.1, (thread_fr d).1.locks.trans hd.2.2.2.2.1, ?_⟩) (fun d hd => hd.1.fed hi)
    ⟨good_trace h2 (b.s.trace ++ [(⟨b.s.disk.md, b.s.disk.dirs ++ [t], b.s.disk.time⟩ : Disk kd)]), rfl, hbh, rfl, rfl, rfl⟩ ?_
  · have : (d.thread inp).s.disk.time = d.s.disk.time := by
      unfold Fine.thread
      split
      · rfl
      · split
        · split
          · split <;> rfl
          · rfl
        · split <;> rfl
        · rfl
    rw [this]; exact hd.2.2.2.2.2
  · rintro d ⟨k1, k2, k3, k4, k5, k6⟩
    refine wp_startP (L := L) (c := c) (g := { g with W := addW a.s.mem g.W }) hi ?_ ?_ ?_
    · have := good_trace k1 (d.s.trace ++ [{ d.s.disk with md := kd.push d.s.cur t }])
      have he : (⟨{ d.s with usage := 0, mem := [], cur := kd.push d.s.cur t }.writeMeta, d.out⟩ : Fine kd) =
          ⟨{ own [] 0 (kd.push b.s.cur t) b.s.clock (kd.push b.s.cur t) b.s.disk.time d.s with
            trace := d.s.trace ++ [{ d.s.disk with md := kd.push d.s.cur t }] }, d.out⟩ := by
        simp only [own, writeMeta, put]
        rw [← k2, ← k4, ← k6]
      rw [he]; exact this
    · exact k3
    · intro e he1 he2 he3 he4 he5 he6
      exact hk e he1 he2 he3 he4 ((he5.trans k4).trans hf.clock) ((he6.trans k5).trans hf.locks)

/-- Joining the thread. -/
theorem wp_joinP (hi : ∀ {S j}, kd.plan S = some j → ∀ t ∈ inp j, t ∈ kd.tabs S) (hL : tot → L.Total) {k : P kd}
    {a : Fine kd} (h : Good L c g a)
    (hk : ∀ b, Good L c g b → Fr a b → b.s.job = none → b.s.busy = false → wp (Fine.thread inp) (Fed inp) tot k Q b) :
    wp (Fine.thread inp) (Fed inp) tot (.await (fun a => a.s.job.isNone && !a.s.busy) k) Q a := by
  refine wp_await (fun b => Good L c g b ∧ Fr a b) (fun b hb => ⟨hb.1.thread hi, hb.2.trans (thread_fr b).1⟩) (fun b hb => hb.1.fed hi)
    ⟨h, Fr.refl a⟩ ?_ ?_
  · rintro ht b ⟨hb, _⟩
    obtain ⟨n, h1, h2⟩ := hb.ends (hL ht) hi
    exact ⟨n, by simp [h1, h2]⟩
  · rintro b ⟨hb, hf⟩ hw
    simp only [Bool.and_eq_true, Option.isNone_iff_eq_none, Bool.not_eq_true'] at hw
    exact hk b hb hf hw.1 hw.2

theorem wp_settleP (hi : ∀ {S j}, kd.plan S = some j → ∀ t ∈ inp j, t ∈ kd.tabs S) (hL : tot → L.Total) {k : P kd}
    {a : Fine kd} (h : Good L c g a) (hh : a.s.Hand)
    (hk : ∀ b, Good L c g b → b.s.job = none → b.s.next = none → b.s.mem = a.s.mem → b.s.clock = a.s.clock →
      b.s.locks = a.s.locks → wp (Fine.thread inp) (Fed inp) tot k Q b) :
    wp (Fine.thread inp) (Fed inp) tot (settleP k) Q a := by
  refine wp_look (fun b => Good L c g b ∧ b.s.Hand ∧ Fr a b)
    (fun b hb => ⟨hb.1.thread hi, hand_thread hb.2.1, hb.2.2.trans (thread_fr b).1⟩) (fun b hb => hb.1.fed hi) ⟨h, hh, Fr.refl a⟩ ?_
  rintro b ⟨hb, hbh, hf⟩
  split
  · refine wp_joinP hi hL hb fun d hd hfd hj _ => ?_
    refine wp_set (fun e => Good L c g e ∧ Fr a e ∧ e.s.job = none)
      (fun e he => ⟨he.1.thread hi, he.2.1.trans (thread_fr e).1, (thread_fr e).1.job he.2.2⟩) (fun e he => he.1.fed hi) ⟨hd, hf.trans hfd, hj⟩ ?_
    rintro e ⟨he, hfe, hej⟩
    refine wp_replaceP (L := L) (c := c) (g := g) hi ⟨inv_handle he.inv false, he.out⟩ fun d2 hd2 hf2 hn2 => ?_
    exact hk d2 hd2 (hf2.job hej) (hn2 hej) (hf2.mem.trans hfe.mem) (hf2.clock.trans hfe.clock) (hf2.locks.trans hfe.locks)
  · rename_i hc
    obtain ⟨h1, h2⟩ := hbh (by simpa using hc)
    exact hk b hb h1 h2 hf.mem hf.clock hf.locks

theorem wp_flushP (hi : ∀ {S j}, kd.plan S = some j → ∀ t ∈ inp j, t ∈ kd.tabs S) (hL : tot → L.Total) {k : P kd}
    {a : Fine kd} (h : Good L c g a) (hh : a.s.Hand) (hg : ∀ l, L.good l)
    (hk : ∀ b, Good L c { g with W := addW a.s.mem g.W } b → b.s.job = none → b.s.next = none → b.s.mem = [] →
      b.s.clock = a.s.clock → wp (Fine.thread inp) (Fed inp) tot k Q b) :
    wp (Fine.thread inp) (Fed inp) tot (flushP c k) Q a := by
  refine wp_look (fun b => Good L c g b ∧ b.s.Hand ∧ Fr a b)
    (fun b hb => ⟨hb.1.thread hi, hand_thread hb.2.1, hb.2.2.trans (thread_fr b).1⟩) (fun b hb => hb.1.fed hi) ⟨h, hh, Fr.refl a⟩ ?_
  rintro b ⟨hb, hbh, hf⟩
  cases hm : b.s.mem with
  | nil =>
    refine wp_settleP hi hL hb hbh fun d h1 h2 h3 h4 h5 h6 => ?_
    refine hk d ?_ h2 h3 (h4.trans hm) (h5.trans hf.clock)
    rw [← hf.mem, hm, addW_nil]; exact h1
  | cons e l =>
    dsimp only
    refine wp_compactP hi hb hbh (by rw [hm]; simp) (hg _) fun d h1 h2 h3 h4 h5 h6 => ?_
    refine wp_settleP hi hL h1 h2 fun d' j1 j2 j3 j4 j5 j6 => ?_
    rw [hf.mem] at j1
    exact hk d' j1 j2 j3 (j4.trans h3) ((j5.trans h5).trans hf.clock)

/-! ### The calls -/

/-- What a call does: the conclusion of `Store.inv_step`, for both threads. -/
def Post (L : Laws kd x) (c : Cfg K V) (g : Ghost K V) (s : Store kd) (op : KvOp K V) (b : Fine kd) (r : KvRes K V) : Prop :=
  ∃ W', Good L c (Ghost.after g op W') b ∧ b.s.Hand ∧ Lsm.look b.s.mem W' = op.apply (Lsm.look s.mem g.W) ∧
    Answer b.s op r ∧ s.clock ≤ b.s.clock ∧ (b.s.mem = [] ∨ (W' = g.W ∧ ¬ op.Settles)) ∧
    (((∃ k v, op = .insert k v) ∨ ∃ k, op = .remove k) → b.s.clock ≠ 0)

theorem answer_thread {b : Fine kd} {op : KvOp K V} {r : KvRes K V} (h : Answer b.s op r) : Answer (b.thread inp).s op r := by
  obtain ⟨hf, hc⟩ := thread_fr (inp := inp) b
  have hm := hf.mem
  have e1 : ∀ k, (b.thread inp).s.found k = b.s.found k := fun k => by unfold found; rw [hm, hc]
  have e2 : (b.thread inp).s.items = b.s.items := by unfold items; rw [hc]
  cases op <;> simp only [Answer, e1, e2, hm, hc] at h ⊢ <;> exact h

theorem post_thread (hi : ∀ {S j}, kd.plan S = some j → ∀ t ∈ inp j, t ∈ kd.tabs S) {s : Store kd} {op : KvOp K V}
    {b : Fine kd} {r : KvRes K V} (h : Post L c g s op b r) : Post L c g s op (b.thread inp) r := by
  obtain ⟨W', h1, h2, h3, h4, h5, h6, h7⟩ := h
  obtain ⟨hf, hc⟩ := thread_fr (inp := inp) b
  refine ⟨W', h1.thread hi, hand_thread h2, ?_, answer_thread h4, ?_, ?_, ?_⟩
  · rw [hf.mem]; exact h3
  · rw [hf.clock]; exact h5
  · rw [hf.mem]; exact h6
  · rw [hf.clock]; exact h7

theorem wp_post (hi : ∀ {S j}, kd.plan S = some j → ∀ t ∈ inp j, t ∈ kd.tabs S) {s : Store kd} {op : KvOp K V}
    {b : Fine kd} {r : KvRes K V} (h : Post L c g s op b r) : wp (Fine.thread inp) (Fed inp) tot (.ret r) (Post L c g s op) b :=
  wp_ret (fun b => Post L c g s op b r) (fun _ hb => post_thread hi hb)
    (fun _ hb => by obtain ⟨W', h1, _⟩ := hb; exact h1.fed hi) h fun _ hb => hb

theorem good_after {op : KvOp K V} {W' : K → Option (Val V)} {b : Fine kd} (h : Good L c { g with W := W' } b) :
    Good L c (Ghost.after g op W') b :=
  ⟨h.inv.mono rfl (fun _ _ h => .inl h) (fun h => .inl h), h.out⟩

/-- Reading the tables. -/
theorem wp_readP (hi : ∀ {S j}, kd.plan S = some j → ∀ t ∈ inp j, t ∈ kd.tabs S) {q : Store kd → KvRes K V} {a : Fine kd}
    (I : Fine kd → Prop) (hI : ∀ b, I b → I (b.thread inp))
    (hR : ∀ b, I b → Fed inp b) (hs : I a)
    (h : ∀ b, I b → (∃ g, Good L c g b) ∧ wp (Fine.thread inp) (Fed inp) tot (.ret (q b.s)) Q b) :
    wp (Fine.thread inp) (Fed inp) tot (readP q) Q a := by
  refine wp_act I hI hR hs fun b hb => ?_
  obtain ⟨⟨g, hg⟩, h2⟩ := h b hb
  exact ⟨b, if_pos hg.inv.files, h2⟩

/-- A call that takes over a result and reads. -/
theorem wp_replaceRead (hi : ∀ {S j}, kd.plan S = some j → ∀ t ∈ inp j, t ∈ kd.tabs S) {q : Store kd → KvRes K V}
    {a b : Fine kd} {op : KvOp K V} (h : Good L c g b) (hh : b.s.Hand) (hm : b.s.mem = a.s.mem) (hc : b.s.clock = a.s.clock)
    (hset : ¬ op.Settles) (hap : op.apply (Lsm.look a.s.mem g.W) = Lsm.look a.s.mem g.W)
    (hw : ¬ ((∃ k v, op = .insert k v) ∨ ∃ k, op = .remove k))
    (hans : ∀ d : Fine kd, d.s.mem = a.s.mem → Answer d.s op (q d.s)) :
    wp (Fine.thread inp) (Fed inp) tot (replaceP (readP q)) (Post L c g a.s op) b := by
  refine wp_replaceP hi h fun d hd hfd hnd => ?_
  have hdh : d.s.Hand := by
    intro hc
    rw [hfd.handle] at hc
    exact ⟨hfd.job (hh hc).1, hnd (hh hc).1⟩
  refine wp_readP (L := L) (c := c) hi (fun e => Good L c g e ∧ e.s.Hand ∧ e.s.mem = a.s.mem ∧ e.s.clock = a.s.clock)
    (fun e he => ⟨he.1.thread hi, hand_thread he.2.1, (thread_fr e).1.mem.trans he.2.2.1,
      (thread_fr e).1.clock.trans he.2.2.2⟩) (fun e he => he.1.fed hi) ⟨hd, hdh, hfd.mem.trans hm, hfd.clock.trans hc⟩ ?_
  rintro e ⟨he, heh, hem, hec⟩
  refine ⟨⟨g, he⟩, wp_post hi ⟨g.W, good_after he, heh, ?_, hans e hem, hec.ge, .inr ⟨rfl, hset⟩, fun h => absurd h hw⟩⟩
  rw [hem, hap]

/-- A call that writes everything out and reads. -/
theorem wp_flushRead (hi : ∀ {S j}, kd.plan S = some j → ∀ t ∈ inp j, t ∈ kd.tabs S) (hL : tot → L.Total)
    (hg : ∀ l, L.good l) {q : Store kd → KvRes K V} {a : Fine kd} {op : KvOp K V} (h : Good L c g a) (hh : a.s.Hand)
    (hap : op.apply (Lsm.look a.s.mem g.W) = Lsm.look a.s.mem g.W)
    (hw : ¬ ((∃ k v, op = .insert k v) ∨ ∃ k, op = .remove k))
    (hans : ∀ d : Fine kd, d.s.mem = [] → Answer d.s op (q d.s)) :
    wp (Fine.thread inp) (Fed inp) tot (flushP c (replaceP (readP q))) (Post L c g a.s op) a := by
  refine wp_flushP hi hL h hh hg fun b k1 k2 k3 k4 k5 => ?_
  refine wp_replaceP hi k1 fun d hd hfd hnd => ?_
  refine wp_readP (L := L) (c := c) hi (fun e => Good L c { g with W := addW a.s.mem g.W } e ∧ e.s.job = none ∧
      e.s.next = none ∧ e.s.mem = [] ∧ e.s.clock = a.s.clock)
    (fun e he => ⟨he.1.thread hi, (thread_fr e).1.job he.2.1, (thread_fr e).1.next he.2.1 he.2.2.1,
      (thread_fr e).1.mem.trans he.2.2.2.1, (thread_fr e).1.clock.trans he.2.2.2.2⟩) (fun e he => he.1.fed hi)
    ⟨hd, hfd.job k2, hnd k2, hfd.mem.trans k4, hfd.clock.trans k5⟩ ?_
  rintro e ⟨he, hej, hen, hem, hec⟩
  refine ⟨⟨_, he⟩, wp_post hi ⟨_, good_after he, fun _ => ⟨hej, hen⟩, ?_, hans e hem, hec.ge, .inl hem,
    fun h => absurd h hw⟩⟩
  rw [hem, look_addW, hap]

theorem good_tick {a : Fine kd} (h : Good L c g a) (k : K) (data : Option V) :
    ∃ u, a.s.usageAfter c k ⟨data, a.s.clock⟩ = some u ∧
      Good L c ⟨g.W, fun p y => g.ins p y ∨ (p = k ∧ data = some y), g.cleared⟩ ⟨a.s.noted k data u, a.out⟩ := by
  obtain ⟨u, hu, hu1, hu2⟩ := usageAfter_some h.inv k ⟨data, a.s.clock⟩
  exact ⟨u, hu, inv_noted h.inv hu1 hu2, h.out⟩

theorem time_thread (a : Fine kd) : (a.thread inp).s.disk.time = a.s.disk.time ∧ (a.thread inp).s.disk.md = a.s.disk.md := by
  unfold Fine.thread
  split
  · exact ⟨rfl, rfl⟩
  · split
    · split
      · split <;> exact ⟨rfl, rfl⟩
      · exact ⟨rfl, rfl⟩
    · split <;> exact ⟨rfl, rfl⟩
    · exact ⟨rfl, rfl⟩

/-- A write. -/
theorem wp_writeP (hi : ∀ {S j}, kd.plan S = some j → ∀ t ∈ inp j, t ∈ kd.tabs S) (hg : ∀ l, L.good l) {a : Fine kd}
    {k : K} {data : Option V} {op : KvOp K V} (h : Good L c g a) (hh : a.s.Hand)
    (hk : ∀ b W', Good L c ⟨W', fun p y => g.ins p y ∨ (p = k ∧ data = some y), g.cleared⟩ b → b.s.Hand →
      (Lsm.look b.s.mem W' = fun y => if y = k then data else Lsm.look a.s.mem g.W y) → b.s.clock = a.s.clock + 1 →
      (b.s.mem = [] ∨ W' = g.W) → Post L c g a.s op b .unit) :
    wp (Fine.thread inp) (Fed inp) tot (writeP c k data) (Post L c g a.s op) a := by
  refine wp_act (fun b => Good L c g b ∧ b.s.Hand ∧ Fr a b)
    (fun b hb => ⟨hb.1.thread hi, hand_thread hb.2.1, hb.2.2.trans (thread_fr b).1⟩) (fun b hb => hb.1.fed hi) ⟨h, hh, Fr.refl a⟩ ?_
  rintro b ⟨hb, hbh, hf⟩
  refine ⟨_, rfl, ?_⟩
  obtain ⟨u, hu, hG⟩ := good_tick hb k data
  refine wp_act (fun d : Fine kd => Good L c ⟨g.W, fun p y => g.ins p y ∨ (p = k ∧ data = some y), g.cleared⟩
      ⟨own (SL.ins k ⟨data, b.s.clock⟩ b.s.mem) u b.s.cur (b.s.clock + 1) b.s.disk.md (some (b.s.clock + 1)) d.s, d.out⟩ ∧
      d.s.Hand ∧ d.s.mem = b.s.mem ∧ d.s.usage = b.s.usage ∧ d.s.cur = b.s.cur ∧ d.s.clock = b.s.clock + 1 ∧
      d.s.disk.md = b.s.disk.md ∧ d.s.disk.time = some (b.s.clock + 1))
    (fun d hd => ?_) (fun d hd => hd.1.fed hi) ⟨hG, hbh, rfl, rfl, rfl, rfl, rfl, rfl⟩ ?_
  · obtain ⟨h1, h2, h3, h4, h5, h6, h7, h8⟩ := hd
    obtain ⟨f1, f2⟩ := thread_fr (inp := inp) d
    obtain ⟨t1, t2⟩ := time_thread (inp := inp) d
    exact ⟨own_stable hi d h1, hand_thread h2, f1.mem.trans h3, f1.usage.trans h4, f2.trans h5, f1.clock.trans h6,
      t2.trans h7, t1.trans h8⟩
  · rintro d ⟨h1, h2, h3, h4, h5, h6, h7, h8⟩
    have hu' : d.s.usageAfter c k ⟨data, b.s.clock⟩ = some u := by
      rw [← hu]; unfold usageAfter; rw [h3, h4]
    rw [hu']
    refine ⟨_, rfl, ?_⟩
    dsimp only
    have he : (⟨own (SL.ins k ⟨data, b.s.clock⟩ b.s.mem) u b.s.cur (b.s.clock + 1) b.s.disk.md (some (b.s.clock + 1)) d.s,
        d.out⟩ : Fine kd) = ⟨{ d.s with usage := u, mem := SL.ins k ⟨data, b.s.clock⟩ d.s.mem }, d.out⟩ := by
      simp only [own]
      rw [h3, ← h8, ← h5, ← h6, ← h7]
    rw [he] at h1
    have hlook : Lsm.look (SL.ins k ⟨data, b.s.clock⟩ d.s.mem) g.W = fun y => if y = k then data else Lsm.look a.s.mem g.W y := by
      funext y; rw [h3, look_ins hb.inv.memSorted, hf.mem]
    have hcl : d.s.clock = a.s.clock + 1 := by rw [h6, hf.clock]
    split
    · refine wp_compactP hi h1 h2 ?_ (hg _) fun e e1 e2 e3 e4 e5 e6 => wp_post hi (hk e _ e1 e2 ?_ (e5.trans hcl) (.inl e3))
      · intro he
        have : (k, (⟨data, b.s.clock⟩ : Val V)) ∈ SL.ins k ⟨data, b.s.clock⟩ d.s.mem := mem_ins_key
        simp only at he
        rw [he] at this; simp at this
      · rw [e3, look_addW]; exact hlook
    · exact wp_post hi (hk _ _ h1 h2 hlook hcl (.inr rfl))

/-- `clear`. -/
theorem wp_clearP (hi : ∀ {S j}, kd.plan S = some j → ∀ t ∈ inp j, t ∈ kd.tabs S) (hL : tot → L.Total) {a : Fine kd}
    (h : Good L c g a) (hh : a.s.Hand) : wp (Fine.thread inp) (Fed inp) tot clearP (Post L c g a.s .clear) a := by
  have main : ∀ b : Fine kd, Good L c g b → b.s.job = none → b.s.clock = a.s.clock →
      wp (Fine.thread inp) (Fed inp) tot (.act (fun a => some { a with s := { a.s with
          mem := [], handle := false, cur := kd.empty, next := none } })
        fun _ b => removeP (b.s.disk.dirs.map (·.id)) (set Store.writeMeta (.ret .unit))) (Post L c g a.s .clear) b := by
    intro b hb hbj hbc
    refine wp_act (fun d => Good L c g d ∧ d.s.job = none ∧ d.s.clock = a.s.clock)
      (fun d hd => ⟨hd.1.thread hi, (thread_fr d).1.job hd.2.1, (thread_fr d).1.clock.trans hd.2.2⟩) (fun d hd => hd.1.fed hi) ⟨hb, hbj, hbc⟩ ?_
    rintro d ⟨hd, hdj, hdc⟩
    refine ⟨_, rfl, ?_⟩
    dsimp only
    have hno := hd.noOut hdj
    -- the same as `clear` in a state whose thread has ended
    have hI := inv_handle hd.inv true
    have hH : ({ d.s with handle := true } : Store kd).Hand := fun hc => by simp at hc
    obtain ⟨s2, hs2⟩ := removeDirs_isSome (is := d.s.disk.dirs.map (·.id))
      (s := { d.s with mem := [], handle := false, cur := kd.empty, next := none }) hd.inv.dirIds (fun i hi => hi)
    have hcl : clear ({ d.s with handle := true } : Store kd) = some { s2.writeMeta with busy := false } := by
      have hw : work 2 ({ d.s with handle := true, mem := [] } : Store kd) =
          { d.s with handle := true, mem := [], busy := false } := by
        have e1 := deliver_none (s := ({ d.s with handle := true, mem := [] } : Store kd)) hdj
        simp only [work, e1]
        exact deliver_none hdj
      unfold clear join
      dsimp only
      rw [hw]
      dsimp only
      rw [hdj]
      simp only [if_true, Option.isSome_none, Bool.false_eq_true, if_false]
      have : ∀ (is : List Nat) (s s' : Store kd), removeDirs is s = some s' →
          removeDirs is { s with busy := false } = some { s' with busy := false } := by
        intro is
        induction is with
        | nil => intro s s' h; simp only [removeDirs, Option.some.injEq] at h ⊢; rw [h]
        | cons i is ih =>
          intro s s' h
          simp only [removeDirs] at h ⊢
          split at h
          · rename_i hm
            rw [if_pos hm]
            exact ih _ _ h
          · simp at h
      have h3 := this _ _ _ hs2
      simp only [hdj] at h3
      rw [h3]
      rfl
    obtain ⟨k1, k2, k3, k4, k5⟩ := inv_clear hI hH hcl
    have hj2 : s2.job = none := by
      obtain ⟨tr, rfl, _⟩ := removeDirs_some hs2
      exact hdj
    have hd' : (⟨{ d.s with mem := [], handle := false, cur := kd.empty, next := none }, d.out⟩ : Fine kd) =
        flag { d.s with mem := [], handle := false, cur := kd.empty, next := none } d.s.busy := by rw [hno]
    rw [hd']
    refine wp_removeMeta (s := { d.s with mem := [], handle := false, cur := kd.empty, next := none })
      (s' := s2.writeMeta) hdj (congrArg (Option.map writeMeta) hs2) (fun b2 => ?_) d.s.busy
    refine wp_post hi ⟨fun _ => none, ⟨?_, by simp⟩, ?_, ?_, rfl, ?_, .inl k3, by simp⟩
    · have := inv_busy k1 hj2 b2
      exact this.mono rfl (fun _ _ h => .inl h) (fun _ => .inr rfl)
    · intro hc
      exact k2 hc
    · have : (flag s2.writeMeta b2).s.mem = [] := k3
      rw [this]; rfl
    · have : (flag s2.writeMeta b2).s.clock = d.s.clock := k4
      rw [this, hdc]
  refine wp_look (fun b => Good L c g b ∧ b.s.Hand ∧ Fr a b)
    (fun b hb => ⟨hb.1.thread hi, hand_thread hb.2.1, hb.2.2.trans (thread_fr b).1⟩) (fun b hb => hb.1.fed hi) ⟨h, hh, Fr.refl a⟩ ?_
  rintro b ⟨hb, hbh, hf⟩
  dsimp only
  split
  · exact wp_joinP hi hL hb fun d hd hfd hj _ => main d hd hj (hfd.clock.trans hf.clock)
  · rename_i hc
    exact main b hb (hbh (by simpa using hc)).1 hf.clock

/-- Every call, whatever the compaction thread does between its steps. -/
theorem wp_prog (hi : ∀ {S j}, kd.plan S = some j → ∀ t ∈ inp j, t ∈ kd.tabs S) (hL : tot → L.Total)
    (hg : ∀ l, L.good l) {a : Fine kd} (h : Good L c g a) (hh : a.s.Hand) (op : KvOp K V)
    (hr : op = .reopen → a.s.clock ≠ 0) : wp (Fine.thread inp) (Fed inp) tot (prog c op) (Post L c g a.s op) a := by
  cases op with
  | insert k v =>
    refine wp_writeP hi hg h hh fun b W' h1 h2 h3 h4 h5 => ⟨W', ⟨h1.inv.mono rfl ?_ (fun h => .inl h), h1.out⟩, h2, ?_, rfl,
      by omega, h5.imp id fun h => ⟨h, by simp [KvOp.Settles]⟩, fun _ => by omega⟩
    · rintro p y (h | ⟨rfl, h⟩)
      · exact .inl h
      · right; simp only [Option.some.injEq] at h; rw [h]
    · rw [h3]; rfl
  | remove k =>
    refine wp_writeP hi hg h hh fun b W' h1 h2 h3 h4 h5 => ⟨W', ⟨h1.inv.mono rfl ?_ (fun h => .inl h), h1.out⟩, h2, ?_, rfl,
      by omega, h5.imp id fun h => ⟨h, by simp [KvOp.Settles]⟩, fun _ => by omega⟩
    · rintro p y (h | ⟨rfl, h⟩)
      · exact .inl h
      · simp at h
    · rw [h3]; rfl
  | get k =>
    dsimp only [prog]
    refine wp_look (fun b => Good L c g b ∧ b.s.Hand ∧ Fr a b)
      (fun b hb => ⟨hb.1.thread hi, hand_thread hb.2.1, hb.2.2.trans (thread_fr b).1⟩) (fun b hb => hb.1.fed hi) ⟨h, hh, Fr.refl a⟩ ?_
    rintro b ⟨hb, hbh, hf⟩
    cases hm : SL.find k b.s.mem with
    | some e =>
      refine wp_post hi ⟨g.W, good_after hb, hbh, by rw [hf.mem]; rfl, by simp [Answer, found, hm], hf.clock.ge,
        .inr ⟨rfl, by simp [KvOp.Settles]⟩, by simp⟩
    | none =>
      refine wp_replaceRead hi hb hbh hf.mem hf.clock (by simp [KvOp.Settles]) rfl (by simp) fun d hd => ?_
      rw [hf.mem] at hm
      simp [Answer, found, hd, hm]
  | containsKey k =>
    dsimp only [prog]
    refine wp_look (fun b => Good L c g b ∧ b.s.Hand ∧ Fr a b)
      (fun b hb => ⟨hb.1.thread hi, hand_thread hb.2.1, hb.2.2.trans (thread_fr b).1⟩) (fun b hb => hb.1.fed hi) ⟨h, hh, Fr.refl a⟩ ?_
    rintro b ⟨hb, hbh, hf⟩
    cases hm : SL.find k b.s.mem with
    | some e =>
      refine wp_post hi ⟨g.W, good_after hb, hbh, by rw [hf.mem]; rfl, by simp [Answer, found, hm], hf.clock.ge,
        .inr ⟨rfl, by simp [KvOp.Settles]⟩, by simp⟩
    | none =>
      refine wp_replaceRead hi hb hbh hf.mem hf.clock (by simp [KvOp.Settles]) rfl (by simp) fun d hd => ?_
      rw [hf.mem] at hm
      simp [Answer, found, hd, hm]
  | lenHint =>
    refine wp_replaceP hi h fun d hd hfd hnd => ?_
    have hdh : d.s.Hand := by
      intro hc
      rw [hfd.handle] at hc
      exact ⟨hfd.job (hh hc).1, hnd (hh hc).1⟩
    refine wp_act (fun e => Good L c g e ∧ e.s.Hand ∧ Fr a e)
      (fun e he => ⟨he.1.thread hi, hand_thread he.2.1, he.2.2.trans (thread_fr e).1⟩) (fun e he => he.1.fed hi) ⟨hd, hdh, hfd⟩ ?_
    rintro e ⟨he, heh, hfe⟩
    obtain ⟨n, hn⟩ := hint_isSome (L.inv_ok he.inv.inv)
    rw [hn]
    refine ⟨_, rfl, ?_⟩
    exact wp_post hi ⟨g.W, good_after he, heh, by rw [hfe.mem]; rfl, ⟨n, hn, rfl⟩, hfe.clock.ge,
      .inr ⟨rfl, by simp [KvOp.Settles]⟩, by simp⟩
  | min => exact wp_replaceRead hi h hh rfl rfl (by simp [KvOp.Settles]) rfl (by simp) fun d _ => rfl
  | max => exact wp_replaceRead hi h hh rfl rfl (by simp [KvOp.Settles]) rfl (by simp) fun d _ => rfl
  | len => exact wp_flushRead hi hL hg h hh rfl (by simp) fun d hd => ⟨hd, rfl⟩
  | isEmpty => exact wp_flushRead hi hL hg h hh rfl (by simp) fun d hd => ⟨hd, rfl⟩
  | iter => exact wp_flushRead hi hL hg h hh rfl (by simp) fun d hd => ⟨hd, rfl⟩
  | hold =>
    refine wp_flushP hi hL h hh hg fun b k1 k2 k3 k4 k5 => ?_
    refine wp_replaceP hi k1 fun d hd hfd hnd => ?_
    refine wp_set (fun e => Good L c { g with W := addW a.s.mem g.W } e ∧ e.s.job = none ∧
        e.s.next = none ∧ e.s.mem = [] ∧ e.s.clock = a.s.clock)
      (fun e he => ⟨he.1.thread hi, (thread_fr e).1.job he.2.1, (thread_fr e).1.next he.2.1 he.2.2.1,
        (thread_fr e).1.mem.trans he.2.2.2.1, (thread_fr e).1.clock.trans he.2.2.2.2⟩) (fun e he => he.1.fed hi)
      ⟨hd, hfd.job k2, hnd k2, hfd.mem.trans k4, hfd.clock.trans k5⟩ ?_
    rintro e ⟨he, hej, hen, hem, hec⟩
    have hI := he.inv
    refine wp_readP (L := L) (c := c) hi (fun e => Good L c { g with W := addW a.s.mem g.W } e ∧ e.s.job = none ∧
        e.s.next = none ∧ e.s.mem = [] ∧ e.s.clock = a.s.clock)
      (fun e he => ⟨he.1.thread hi, (thread_fr e).1.job he.2.1, (thread_fr e).1.next he.2.1 he.2.2.1,
        (thread_fr e).1.mem.trans he.2.2.2.1, (thread_fr e).1.clock.trans he.2.2.2.2⟩) (fun e he => he.1.fed hi)
      ⟨⟨⟨hI.memSorted, hI.memTime, hI.memNew, hI.curTime, hI.inv, hI.sees, hI.ids, hI.job, hI.next, fun _ => ⟨hej, hen⟩,
        hI.files, hI.dirIds, hI.dirNew, hI.md, hI.time, hI.used, hI.usedEq, hI.vals, hI.memVals⟩, he.out⟩, hej, hen, hem,
        hec⟩ ?_
    rintro d ⟨hd, hdj, hdn, hdm, hdc⟩
    refine ⟨⟨_, hd⟩, wp_post hi ⟨_, good_after hd, fun _ => ⟨hdj, hdn⟩, ?_, ⟨hdm, rfl⟩, hdc.ge, .inl hdm, by simp⟩⟩
    rw [hdm, look_addW]; rfl
  | release =>
    dsimp only [prog]
    refine wp_set (fun b => Good L c g b ∧ b.s.Hand ∧ Fr a b)
      (fun b hb => ⟨hb.1.thread hi, hand_thread hb.2.1, hb.2.2.trans (thread_fr b).1⟩) (fun b hb => hb.1.fed hi) ⟨h, hh, Fr.refl a⟩ ?_
    rintro b ⟨hb, hbh, hf⟩
    have hw := hb.inv
    refine wp_post hi ⟨g.W, good_after ⟨?_, hb.out⟩, hbh, by simp only; rw [hf.mem]; rfl, rfl, hf.clock.ge,
      .inr ⟨rfl, by simp [KvOp.Settles]⟩, by simp⟩
    exact ⟨hw.memSorted, hw.memTime, hw.memNew, hw.curTime, hw.inv, hw.sees, hw.ids, hw.job, hw.next,
      fun hl => hw.locked (by simp only at hl; omega), hw.files, hw.dirIds, hw.dirNew, hw.md, hw.time, hw.used, hw.usedEq,
      hw.vals, hw.memVals⟩
  | flush =>
    refine wp_flushP hi hL h hh hg fun b k1 k2 k3 k4 k5 => ?_
    exact wp_post hi ⟨_, good_after k1, fun _ => ⟨k2, k3⟩, by rw [k4, look_addW]; rfl, rfl, k5.ge, .inl k4, by simp⟩
  | clear => exact wp_clearP hi hL h hh
  | reopen =>
    refine wp_flushP hi hL h hh hg fun b k1 k2 k3 k4 k5 => ?_
    refine wp_act (fun e => Good L c { g with W := addW a.s.mem g.W } e ∧ e.s.mem = [] ∧ e.s.clock = a.s.clock)
      (fun e he => ⟨he.1.thread hi, (thread_fr e).1.mem.trans he.2.1, (thread_fr e).1.clock.trans he.2.2⟩) (fun e he => he.1.fed hi)
      ⟨k1, k4, k5⟩ ?_
    rintro e ⟨he, hem, hec⟩
    obtain ⟨j1, j2⟩ := inv_open he.inv hem
    obtain ⟨s', hs'⟩ := j2 (by rw [hec]; exact hr rfl)
    obtain ⟨i1, i2, i3, i4, i5⟩ := j1 s' hs'
    rw [hs']
    refine ⟨_, rfl, wp_post hi ⟨_, good_after ⟨i1, by simp⟩, i2, ?_, rfl, ?_, .inl i3, by simp⟩⟩
    · simp only; rw [i3, look_addW]; rfl
    · simp only; rw [i5, hec]

end Fine

end Verif.Lsm
