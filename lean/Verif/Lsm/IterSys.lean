/-
C58: the map and its iterators together.
-/
import Verif.Lsm.IterProps

namespace Verif.Lsm.Iter

open Verif Verif.Spec Verif.Lsm Store

variable {K V : Type} [LinearOrder K] {kd : Kind K V}

/-! ### What the calls do to the lock count and to the directories -/

theorem deliver_locks (s : Store kd) : s.deliver.locks = s.locks := (deliver_frame s).2.2.2.2.2

theorem work_locks (n : Nat) (s : Store kd) : (work n s).locks = s.locks := (work_frame n s).2.2.2.2.2

theorem work_add (n m : Nat) : ∀ s : Store kd, work m (work n s) = work (n + m) s := by
  induction n with
  | zero => intro s; rw [Nat.zero_add]; rfl
  | succ n ih => intro s; rw [Nat.add_right_comm]; exact ih s.deliver

theorem tryReplace_locks {s s' : Store kd} (h : s.tryReplace = some s') : s'.locks = s.locks := by
  unfold tryReplace at h
  split at h
  · simp only [Option.some.injEq] at h; rw [← h]
  · simp only [Option.map_eq_some_iff] at h
    obtain ⟨t, h1, rfl⟩ := h
    obtain ⟨tr, rfl, _⟩ := removeDirs_some h1
    rfl

theorem start_locks {s s' : Store kd} (h : s.start = some s') : s'.locks = s.locks := by
  unfold start at h
  split at h
  · simp only [Option.some.injEq] at h; rw [← h]
  · split at h
    · simp at h
    · rename_i s1 h1
      have := tryReplace_locks h1
      split at h
      · simp only [Option.some.injEq] at h; rw [← h]; exact this
      · simp only [Option.some.injEq] at h; rw [← h]; exact this

theorem tryCompact_locks {c : Cfg K V} {s s' : Store kd} (h : s.tryCompact c = some s') : s'.locks = s.locks := by
  unfold tryCompact at h
  split at h
  · simp at h
  · exact (start_locks h).trans rfl

theorem settle_locks {s s' : Store kd} (h : s.settle = some s') : s'.locks = s.locks := by
  unfold settle at h
  split at h
  · split at h
    · simp at h
    · rename_i s1 h1
      have h2 := tryReplace_locks h
      rw [h2]
      unfold join at h1
      dsimp only at h1
      split at h1
      · simp at h1
      · simp only [Option.some.injEq] at h1; rw [← h1]; exact work_locks 2 s
  · simp only [Option.some.injEq] at h; rw [← h]

theorem flush_locks {c : Cfg K V} {s s' : Store kd} (h : s.flush c = some s') : s'.locks = s.locks := by
  unfold flush at h
  split at h
  · exact settle_locks h
  · split at h
    · simp at h
    · rename_i s1 h1
      exact (settle_locks h).trans (tryCompact_locks h1)

theorem write_locks {c : Cfg K V} {s s' : Store kd} {k : K} {o : Option V} (h : s.write c k o = some s') :
    s'.locks = s.locks := by
  unfold write at h
  dsimp only at h
  split at h
  · simp at h
  · split at h
    · exact (tryCompact_locks h).trans rfl
    · simp only [Option.some.injEq] at h; rw [← h]; rfl

theorem clear_locks {s s' : Store kd} (h : s.clear = some s') : s'.locks = s.locks := by
  unfold clear at h
  dsimp only at h
  split at h
  · simp at h
  · rename_i s1 h1
    simp only [Option.map_eq_some_iff] at h
    obtain ⟨t, h2, rfl⟩ := h
    obtain ⟨tr, rfl, _⟩ := removeDirs_some h2
    show s1.locks = s.locks
    split at h1
    · unfold join at h1
      dsimp only at h1
      split at h1
      · simp at h1
      · simp only [Option.some.injEq] at h1; rw [← h1]; exact work_locks 2 _
    · simp only [Option.some.injEq] at h1; rw [← h1]

variable [DecidableEq V]

/-- The lock count after a call. -/
def locksAfter {K V : Type} (n : Nat) : KvOp K V → Nat
  | .hold => n + 1
  | .release => n - 1
  | .reopen => 0
  | _ => n

theorem step_locks {c : Cfg K V} {s s' : Store kd} {op : KvOp K V} {d : Nat} {r : KvRes K V}
    (h : s.step c op d = some (s', r)) :
    s'.locks = locksAfter s.locks op := by
  have hw := work_locks d s
  have hrep : ∀ {α : Type} {s s' : Store kd} {f : Store kd → α} {r : α}, (s.tryReplace.map fun s => (s, f s)) = some (s', r) →
      s'.locks = s.locks := by
    intro α s s' f r h
    simp only [Option.map_eq_some_iff, Prod.mk.injEq] at h
    obtain ⟨t, h1, rfl, _⟩ := h
    exact tryReplace_locks h1
  have hfl : ∀ {α : Type} {s s' : Store kd} {f : Store kd → α} {r : α},
      ((s.flush c).bind fun s => s.tryReplace.map fun s => (s, f s)) = some (s', r) → s'.locks = s.locks := by
    intro α s s' f r h
    simp only [Option.bind_eq_some_iff] at h
    obtain ⟨t, h1, h2⟩ := h
    exact (hrep h2).trans (flush_locks h1)
  unfold step at h
  dsimp only at h
  cases op with
  | insert k v =>
    simp only [Option.map_eq_some_iff, Prod.mk.injEq] at h
    obtain ⟨t, h1, rfl, _⟩ := h
    exact (write_locks h1).trans hw
  | remove k =>
    simp only [Option.map_eq_some_iff, Prod.mk.injEq] at h
    obtain ⟨t, h1, rfl, _⟩ := h
    exact (write_locks h1).trans hw
  | get k =>
    dsimp only at h
    split at h
    · simp only [Option.some.injEq, Prod.mk.injEq] at h; rw [← h.1]; exact hw
    · exact (hrep h).trans hw
  | containsKey k =>
    dsimp only at h
    split at h
    · simp only [Option.some.injEq, Prod.mk.injEq] at h; rw [← h.1]; exact hw
    · exact (hrep h).trans hw
  | lenHint =>
    simp only [Option.bind_eq_some_iff, Option.map_eq_some_iff, Prod.mk.injEq] at h
    obtain ⟨t, h1, n, _, rfl, _⟩ := h
    exact (tryReplace_locks h1).trans hw
  | len => exact (hfl h).trans hw
  | isEmpty => exact (hfl h).trans hw
  | min => exact (hrep h).trans hw
  | max => exact (hrep h).trans hw
  | iter => exact (hfl h).trans hw
  | hold =>
    simp only [Option.bind_eq_some_iff, Option.map_eq_some_iff, Prod.mk.injEq] at h
    obtain ⟨t, h1, u, h2, rfl, _⟩ := h
    exact congrArg (· + 1) ((tryReplace_locks h2).trans ((flush_locks h1).trans hw))
  | release =>
    simp only [Option.some.injEq, Prod.mk.injEq] at h
    rw [← h.1]
    exact congrArg (· - 1) hw
  | flush =>
    simp only [Option.map_eq_some_iff, Prod.mk.injEq] at h
    obtain ⟨t, h1, rfl, _⟩ := h
    exact (flush_locks h1).trans hw
  | clear =>
    simp only [Option.map_eq_some_iff, Prod.mk.injEq] at h
    obtain ⟨t, h1, rfl, _⟩ := h
    exact (clear_locks h1).trans hw
  | reopen =>
    simp only [Option.bind_eq_some_iff, Option.map_eq_some_iff, Prod.mk.injEq] at h
    obtain ⟨t, _, u, h2, rfl, _⟩ := h
    unfold openDir at h2
    split at h2
    · simp at h2
    · split at h2
      · simp only [Option.some.injEq] at h2; rw [← h2]; rfl
      · simp at h2

/-- No compaction is running and none is waiting to be taken over. -/
def Calm (s : Store kd) : Prop := s.job = none ∧ s.next = none

/-- Directories were only added. -/
def Grows (s s' : Store kd) : Prop := ∃ more, s'.disk.dirs = s.disk.dirs ++ more

omit [LinearOrder K] [DecidableEq V] in
theorem Grows.refl (s : Store kd) : Grows s s := ⟨[], by simp⟩

omit [LinearOrder K] [DecidableEq V] in
theorem Grows.trans {s t u : Store kd} (h : Grows s t) (h' : Grows t u) : Grows s u := by
  obtain ⟨a, ha⟩ := h
  obtain ⟨b, hb⟩ := h'
  exact ⟨a ++ b, by rw [hb, ha, List.append_assoc]⟩

omit [LinearOrder K] [DecidableEq V] in
theorem calm_work (n : Nat) : ∀ {s : Store kd}, Calm s → Calm (work n s) ∧ Grows s (work n s) := by
  induction n with
  | zero => intro s h; exact ⟨h, Grows.refl s⟩
  | succ n ih =>
    intro s h
    have hd : s.deliver = { s with busy := false } := by unfold deliver; rw [h.1]
    have h1 : Calm s.deliver := by rw [hd]; exact h
    have h2 : Grows s s.deliver := by rw [hd]; exact ⟨[], by simp⟩
    exact ⟨(ih h1).1, h2.trans (ih h1).2⟩

omit [LinearOrder K] [DecidableEq V] in
theorem calm_tryReplace {s s' : Store kd} (h : Calm s) (e : s.tryReplace = some s') : s' = s := by
  unfold tryReplace at e
  rw [h.2] at e
  exact (Option.some.inj e).symm

omit [DecidableEq V] in
theorem calm_tryCompact {c : Cfg K V} {s s' : Store kd} (h : Calm s) (hl : s.locks ≠ 0) (e : s.tryCompact c = some s') :
    Calm s' ∧ Grows s s' := by
  unfold tryCompact at e
  split at e
  · simp at e
  · rename_i t ht
    unfold start at e
    have hl' : (s.pushTable t).locks ≠ 0 := hl
    rw [if_pos (Or.inr hl')] at e
    rw [← Option.some.inj e]
    exact ⟨h, [t], rfl⟩

omit [LinearOrder K] [DecidableEq V] in
theorem calm_settle {s s' : Store kd} (h : Calm s) (e : s.settle = some s') : Calm s' ∧ Grows s s' := by
  unfold settle at e
  split at e
  · split at e
    · simp at e
    · rename_i s1 h1
      unfold join at h1
      dsimp only at h1
      split at h1
      · simp at h1
      · obtain ⟨k1, k2⟩ := calm_work 2 h
        rw [Option.some.inj h1] at k1 k2
        rw [calm_tryReplace (s := { s1 with handle := false }) k1 e]
        exact ⟨k1, k2⟩
  · rw [← Option.some.inj e]; exact ⟨h, Grows.refl s⟩

omit [DecidableEq V] in
theorem calm_flush {c : Cfg K V} {s s' : Store kd} (h : Calm s) (hl : s.locks ≠ 0) (e : s.flush c = some s') :
    Calm s' ∧ Grows s s' := by
  unfold flush at e
  split at e
  · exact calm_settle h e
  · split at e
    · simp at e
    · rename_i s1 h1
      obtain ⟨k1, k2⟩ := calm_tryCompact h hl h1
      obtain ⟨k3, k4⟩ := calm_settle k1 e
      exact ⟨k3, k2.trans k4⟩

omit [DecidableEq V] in
theorem calm_write {c : Cfg K V} {s s' : Store kd} {k : K} {o : Option V} (h : Calm s) (hl : s.locks ≠ 0)
    (e : s.write c k o = some s') : Calm s' ∧ Grows s s' := by
  unfold write at e
  dsimp only at e
  split at e
  · simp at e
  · split at e
    · exact calm_tryCompact (s := { s.tick.1 with usage := _, mem := _ }) h hl e
    · rw [← Option.some.inj e]; exact ⟨h, [], by simp [tick, put]⟩

/-- While an iterator is alive, no call but `clear` and `reopen` deletes a directory. -/
theorem calm_step {c : Cfg K V} {s s' : Store kd} {op : KvOp K V} {d : Nat} {r : KvRes K V} (h : Calm s)
    (hl : s.locks ≠ 0) (hc : op ≠ .clear) (ho : op ≠ .reopen) (e : s.step c op d = some (s', r)) :
    Calm s' ∧ Grows s s' := by
  have hw := work_locks d s
  obtain ⟨w1, w2⟩ := calm_work d h
  rw [← hw] at hl
  have hrep : ∀ {α : Type} {s s' : Store kd} {f : Store kd → α} {r : α}, Calm s →
      (s.tryReplace.map fun s => (s, f s)) = some (s', r) → s' = s := by
    intro α s s' f r h e
    simp only [Option.map_eq_some_iff, Prod.mk.injEq] at e
    obtain ⟨t, h1, rfl, _⟩ := e
    exact calm_tryReplace h h1
  have hfl : ∀ {α : Type} {s s' : Store kd} {f : Store kd → α} {r : α}, Calm s → s.locks ≠ 0 →
      ((s.flush c).bind fun s => s.tryReplace.map fun s => (s, f s)) = some (s', r) → Calm s' ∧ Grows s s' := by
    intro α s s' f r h hl e
    simp only [Option.bind_eq_some_iff] at e
    obtain ⟨t, h1, h2⟩ := e
    obtain ⟨k1, k2⟩ := calm_flush h hl h1
    rw [hrep k1 h2]
    exact ⟨k1, k2⟩
  have fin : ∀ {s'}, Calm s' ∧ Grows (work d s) s' → Calm s' ∧ Grows s s' := fun h => ⟨h.1, w2.trans h.2⟩
  unfold step at e
  dsimp only at e
  cases op with
  | insert k v =>
    simp only [Option.map_eq_some_iff, Prod.mk.injEq] at e
    obtain ⟨t, h1, rfl, _⟩ := e
    exact fin (calm_write w1 hl h1)
  | remove k =>
    simp only [Option.map_eq_some_iff, Prod.mk.injEq] at e
    obtain ⟨t, h1, rfl, _⟩ := e
    exact fin (calm_write w1 hl h1)
  | get k =>
    dsimp only at e
    split at e
    · simp only [Option.some.injEq, Prod.mk.injEq] at e; rw [← e.1]; exact ⟨w1, w2⟩
    · rw [hrep w1 e]; exact ⟨w1, w2⟩
  | containsKey k =>
    dsimp only at e
    split at e
    · simp only [Option.some.injEq, Prod.mk.injEq] at e; rw [← e.1]; exact ⟨w1, w2⟩
    · rw [hrep w1 e]; exact ⟨w1, w2⟩
  | lenHint =>
    simp only [Option.bind_eq_some_iff, Option.map_eq_some_iff, Prod.mk.injEq] at e
    obtain ⟨t, h1, n, _, rfl, _⟩ := e
    rw [calm_tryReplace w1 h1]; exact ⟨w1, w2⟩
  | len => exact fin (hfl w1 hl e)
  | isEmpty => exact fin (hfl w1 hl e)
  | min => rw [hrep w1 e]; exact ⟨w1, w2⟩
  | max => rw [hrep w1 e]; exact ⟨w1, w2⟩
  | iter => exact fin (hfl w1 hl e)
  | hold =>
    simp only [Option.bind_eq_some_iff, Option.map_eq_some_iff, Prod.mk.injEq] at e
    obtain ⟨t, h1, u, h2, rfl, _⟩ := e
    obtain ⟨k1, k2⟩ := calm_flush w1 hl h1
    rw [calm_tryReplace k1 h2]
    exact fin ⟨k1, k2⟩
  | release =>
    simp only [Option.some.injEq, Prod.mk.injEq] at e
    rw [← e.1]
    exact ⟨w1, w2⟩
  | flush =>
    simp only [Option.map_eq_some_iff, Prod.mk.injEq] at e
    obtain ⟨t, h1, rfl, _⟩ := e
    exact fin (calm_flush w1 hl h1)
  | clear => exact absurd rfl hc
  | reopen => exact absurd rfl ho

/-! ### The map and its iterators -/

variable {c : Cfg K V} {parts : kd.M → List (List (Table K V))}

/-- The calls of the map among the actions of a program. -/
def calls {K V : Type} (ops : List (Op K V × Nat)) : List (KvOp K V) :=
  ops.filterMap fun o => match o.1 with | .call op => some op | _ => none

theorem Sys.run_cons {s s' : Sys kd} {op : Op K V} {d : Nat} {ops : List (Op K V × Nat)} {rs : List (Res K V)}
    (h : s.run c parts ((op, d) :: ops) = some (s', rs)) :
    ∃ s1 r rs', s.step c parts op d = some (s1, r) ∧ s1.run c parts ops = some (s', rs') ∧ rs = r :: rs' := by
  simp only [Sys.run] at h
  cases hs : s.step c parts op d with
  | none => rw [hs] at h; simp at h
  | some p =>
    obtain ⟨s1, r⟩ := p
    rw [hs] at h
    simp only [Option.map_eq_some_iff, Prod.mk.injEq, Prod.exists] at h
    obtain ⟨s2, rs', h1, rfl, rfl⟩ := h
    exact ⟨s1, r, rs', rfl, h1, rfl⟩

theorem Sys.run_append : ∀ {ops ops' : List (Op K V × Nat)} {s s' : Sys kd} {rs : List (Res K V)},
    s.run c parts (ops ++ ops') = some (s', rs) → ∃ s1 r1 r2, s.run c parts ops = some (s1, r1) ∧
      s1.run c parts ops' = some (s', r2) ∧ rs = r1 ++ r2 ∧ r1.length = ops.length
  | [], ops', s, s', rs, h => ⟨s, [], rs, rfl, h, rfl, rfl⟩
  | (op, d) :: ops, ops', s, s', rs, h => by
    obtain ⟨s1, r, rs', h1, h2, rfl⟩ := Sys.run_cons h
    obtain ⟨s2, r1, r2, k1, k2, rfl, k4⟩ := Sys.run_append h2
    exact ⟨s2, r :: r1, r2, by simp only [Sys.run, h1, k1, Option.map_some], k2, rfl, by simp [k4]⟩

/-- What one action does to the map: events of the thread, or one call. -/
theorem Sys.step_store {s s' : Sys kd} {op : Op K V} {d : Nat} {r : Res K V} (h : s.step c parts op d = some (s', r)) :
    ((∀ k, op ≠ .call k) ∧ s'.store = work d s.store) ∨
    ∃ k r', s.store.step c k d = some (s'.store, r') ∧ (op = .call k ∨ ((∀ k, op ≠ .call k) ∧ (k = .hold ∨ k = .release))) := by
  unfold Sys.step at h
  split at h
  · simp at h
  · simp at h
  · rename_i k h1 h2
    simp only [Option.map_eq_some_iff, Prod.mk.injEq, Prod.exists] at h
    obtain ⟨st, r', h3, rfl, _⟩ := h
    exact .inr ⟨k, r', h3, .inl rfl⟩
  · split at h
    · simp at h
    · rename_i st r' h1
      simp only [Option.map_eq_some_iff, Prod.mk.injEq] at h
      obtain ⟨it, _, rfl, _⟩ := h
      exact .inr ⟨_, r', h1, .inr ⟨by simp, .inl rfl⟩⟩
  · split at h
    · simp only [Option.some.injEq, Prod.mk.injEq] at h
      obtain ⟨rfl, _⟩ := h
      exact .inl ⟨by simp, rfl⟩
    · simp at h
  · split at h
    · split at h
      · simp only [Option.map_eq_some_iff, Prod.mk.injEq, Prod.exists] at h
        obtain ⟨st, r', h3, rfl, _⟩ := h
        exact .inr ⟨_, r', h3, .inr ⟨by simp, .inr rfl⟩⟩
      · simp only [Option.some.injEq, Prod.mk.injEq] at h
        obtain ⟨rfl, _⟩ := h
        exact .inl ⟨by simp, rfl⟩
    · simp at h

theorem step_work (n : Nat) (s : Store kd) (op : KvOp K V) (d : Nat) :
    (work n s).step c op d = s.step c op (n + d) := by
  unfold Store.step
  rw [work_add]

/-- The map of a program is in a state that calls of the map alone lead to, up to events of the thread. -/
theorem Sys.run_store : ∀ {ops : List (Op K V × Nat)} {s s' : Sys kd} {rs : List (Res K V)},
    s.run c parts ops = some (s', rs) → ∃ kops st rs' n, Store.run c s.store kops = some (st, rs') ∧
      s'.store = work n st ∧ (∀ m, (kops.map (·.1)).foldl KvOp.apply m = (calls ops).foldl KvOp.apply m) ∧
      ∀ k v, KvOp.insert k v ∈ kops.map (·.1) → KvOp.insert k v ∈ calls ops
  | [], s, s', rs, h => by
    simp only [Sys.run, Option.some.injEq, Prod.mk.injEq] at h
    obtain ⟨rfl, _⟩ := h
    exact ⟨[], _, [], 0, rfl, rfl, fun m => rfl, fun k v h => by simp at h⟩
  | (op, d) :: ops, s, s', rs, h => by
    obtain ⟨s1, r, rs', h1, h2, rfl⟩ := Sys.run_cons h
    obtain ⟨kops, st, rs2, n, k1, k2, k3, k4⟩ := Sys.run_store h2
    rcases Sys.step_store h1 with ⟨hn, e⟩ | ⟨k, r', e, hk⟩
    · have hc : calls ((op, d) :: ops) = calls ops := by
        cases op with
        | call k => exact absurd rfl (hn k)
        | _ => rfl
      rw [hc]
      cases kops with
      | nil =>
        simp only [Store.run, Option.some.injEq, Prod.mk.injEq] at k1
        obtain ⟨rfl, _⟩ := k1
        exact ⟨[], _, [], d + n, rfl, by rw [k2, e, work_add], k3, k4⟩
      | cons a kops =>
        obtain ⟨k, d'⟩ := a
        obtain ⟨s2, r2, rs3, j1, j2, j3⟩ := Store.run_cons k1
        rw [e, step_work] at j1
        exact ⟨(k, d + d') :: kops, st, r2 :: rs3, n, by simp only [Store.run, j1, j2, Option.map_some], k2, k3, k4⟩
    · refine ⟨(k, d) :: kops, st, r' :: rs2, n, by simp only [Store.run, e, k1, Option.map_some], k2, fun m => ?_, fun a v hav => ?_⟩
      · simp only [List.map_cons, List.foldl_cons]
        rcases hk with rfl | ⟨hn, ha⟩
        · have hc : calls ((.call k, d) :: ops) = k :: calls ops := rfl
          rw [hc]
          exact k3 _
        · have hc : calls ((op, d) :: ops) = calls ops := by
            cases op with
            | call k => exact absurd rfl (hn k)
            | _ => rfl
          have ha' : k.apply m = m := by rcases ha with rfl | rfl <;> rfl
          rw [hc, ha']
          exact k3 m
      · simp only [List.map_cons, List.mem_cons] at hav
        rcases hk with rfl | ⟨hn, ha⟩
        · rcases hav with rfl | hav
          · exact List.mem_cons_self
          · exact List.mem_cons_of_mem _ (k4 a v hav)
        · have hc : calls ((op, d) :: ops) = calls ops := by
            cases op with
            | call k => exact absurd rfl (hn k)
            | _ => rfl
          rw [hc]
          rcases hav with rfl | hav
          · simp at ha
          · exact k4 a v hav

/-- Whether an iterator of the map of generation `g`. -/
def ofGen (g : Nat) (o : Option (Live K V)) : Bool := o.any fun l => l.gen == g

/-- The lock count is the number of the iterators of the map that are alive. -/
def Sys.Ok (s : Sys kd) : Prop :=
  s.store.locks = s.iters.countP (ofGen s.gen) ∧ ∀ l, some l ∈ s.iters → l.gen ≤ s.gen

omit [LinearOrder K] [DecidableEq V] in
theorem ok_new : (Sys.new kd).Ok := ⟨rfl, by simp [Sys.new]⟩

omit [LinearOrder K] [DecidableEq V] in
theorem countP_set {i : Nat} {xs : List (Option (Live K V))} {x y : Option (Live K V)} {g : Nat} (h : xs[i]? = some x) :
    (xs.set i y).countP (ofGen g) + (if ofGen g x then 1 else 0) = xs.countP (ofGen g) + (if ofGen g y then 1 else 0) := by
  induction xs generalizing i with
  | nil => simp at h
  | cons a xs ih =>
    cases i with
    | zero =>
      simp only [List.getElem?_cons_zero, Option.some.injEq] at h
      subst h
      simp only [List.set_cons_zero, List.countP_cons]
      omega
    | succ i =>
      simp only [List.getElem?_cons_succ] at h
      have := ih h
      simp only [List.set_cons_succ, List.countP_cons]
      omega

theorem ok_step {s s' : Sys kd} {op : Op K V} {d : Nat} {r : Res K V} (ho : s.Ok)
    (h : s.step c parts op d = some (s', r)) : s'.Ok := by
  obtain ⟨h1, h2⟩ := ho
  unfold Sys.step at h
  split at h
  · simp at h
  · simp at h
  · rename_i k hk1 hk2
    simp only [Option.map_eq_some_iff, Prod.mk.injEq, Prod.exists] at h
    obtain ⟨st, r', h3, rfl, _⟩ := h
    have hl := step_locks h3
    by_cases hr : k = .reopen
    · subst hr
      refine ⟨?_, fun l hl => ?_⟩
      · show st.locks = s.iters.countP (ofGen (s.gen + 1))
        rw [hl]
        symm
        refine List.countP_eq_zero.2 fun o ho => ?_
        cases o with
        | none => simp [ofGen]
        | some l => have := h2 l ho; simp [ofGen]; omega
      · have := h2 l hl
        show l.gen ≤ s.gen + 1
        omega
    · refine ⟨?_, fun l hl => ?_⟩
      · show st.locks = s.iters.countP (ofGen (if k = .reopen then s.gen + 1 else s.gen))
        rw [if_neg hr, hl, ← h1]
        cases k with
        | hold => exact absurd rfl hk1
        | release => exact absurd rfl hk2
        | reopen => exact absurd rfl hr
        | _ => rfl
      · have := h2 l hl
        show l.gen ≤ (if k = .reopen then s.gen + 1 else s.gen)
        rw [if_neg hr]
        exact this
  · split at h
    · simp at h
    · rename_i st r' h3
      simp only [Option.map_eq_some_iff, Prod.mk.injEq] at h
      obtain ⟨it, _, rfl, _⟩ := h
      have hl := step_locks h3
      refine ⟨?_, fun l hl => ?_⟩
      · show st.locks = (s.iters ++ [(some ⟨s.gen, it⟩ : Option (Live K V))]).countP (ofGen s.gen)
        rw [hl, List.countP_append, ← h1]
        simp [ofGen, locksAfter]
      · rcases List.mem_append.1 hl with hl | hl
        · exact h2 l hl
        · simp only [List.mem_singleton, Option.some.injEq] at hl
          rw [hl]
  · split at h
    · rename_i i _ l hi
      simp only [Option.some.injEq, Prod.mk.injEq] at h
      obtain ⟨rfl, _⟩ := h
      refine ⟨?_, fun l' hl => ?_⟩
      · show (work d s.store).locks = (s.iters.set _ _).countP (ofGen s.gen)
        have := countP_set (y := some { l with it := (l.it.next (work d s.store).disk.dirs).1 }) (g := s.gen) hi
        rw [work_locks, h1]
        exact (Nat.add_right_cancel this).symm
      · rcases List.mem_or_eq_of_mem_set hl with hl | hl
        · exact h2 l' hl
        · rw [Option.some.inj hl]
          exact h2 l (List.mem_of_getElem? hi)
    · simp at h
  · split at h
    · rename_i i _ l hi
      have hmem : ∀ l', some l' ∈ s.iters.set i none → l'.gen ≤ s.gen := by
        intro l' hl
        rcases List.mem_or_eq_of_mem_set hl with hl | hl
        · exact h2 l' hl
        · simp at hl
      have hc := countP_set (y := none) (g := s.gen) hi
      split at h
      · rename_i hg
        simp only [Option.map_eq_some_iff, Prod.mk.injEq, Prod.exists] at h
        obtain ⟨st, r', h3, rfl, _⟩ := h
        have hl := step_locks h3
        refine ⟨?_, hmem⟩
        show st.locks = (s.iters.set i none).countP (ofGen s.gen)
        rw [hl, h1]
        simp only [ofGen, Option.any_some, hg, beq_self_eq_true, Option.any_none] at hc
        simp only [ofGen, locksAfter]
        simp only [if_true, Bool.false_eq_true, if_false] at hc
        omega
      · rename_i hg
        simp only [Option.some.injEq, Prod.mk.injEq] at h
        obtain ⟨rfl, _⟩ := h
        refine ⟨?_, hmem⟩
        show (work d s.store).locks = (s.iters.set i none).countP (ofGen s.gen)
        rw [work_locks, h1]
        have hg' : (l.gen == s.gen) = false := by simpa using hg
        simp only [ofGen, Option.any_some, hg', Option.any_none] at hc
        exact (Nat.add_right_cancel hc).symm
    · simp at h

theorem ok_run : ∀ {ops : List (Op K V × Nat)} {s s' : Sys kd} {rs : List (Res K V)}, s.Ok →
    s.run c parts ops = some (s', rs) → s'.Ok
  | [], s, s', rs, ho, h => by
    simp only [Sys.run, Option.some.injEq, Prod.mk.injEq] at h
    rw [← h.1]; exact ho
  | (op, d) :: ops, s, s', rs, ho, h => by
    obtain ⟨s1, r, rs', h1, h2, rfl⟩ := Sys.run_cons h
    exact ok_run (ok_step ho h1) h2

end Verif.Lsm.Iter
