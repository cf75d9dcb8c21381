/- Specification of correctness of a concurrent object on a machine with weak memory, independent of any model.

A history is a list of events of the client's threads: calls and returns, and the client's own synchronisation,
a message sent by one thread and received by another (a channel, a mutex, the joining of a thread, ...).
Happens-before is the order of the events of one thread together with the edges from a message to its receipts.
The object is correct when the operations can be put into one order that explains all results and that never
contradicts happens-before. -/
import Verif.Spec.Linearizable
import Mathlib.Logic.Relation

namespace Verif.Spec

/-- Events of a history with threads `T`; `recv t k` is the receipt of the message sent by the `k`-th `send` of the
history (counted from 0). -/
inductive HEvent (T Op Res : Type) where
  | call (t : T) (op : Op)
  | ret (t : T) (r : Res)
  | send (t : T)
  | recv (t : T) (k : Nat)
  deriving DecidableEq

namespace HEvent

variable {T Op Res : Type}

/-- The thread of an event. -/
def thread : HEvent T Op Res → T
  | call t _ => t
  | ret t _ => t
  | send t => t
  | recv t _ => t

/-- Is it a `send`? -/
def isSend : HEvent T Op Res → Bool
  | send _ => true
  | _ => false

end HEvent

variable {T S Op Res : Type}

/-- Position `p` of the history is its `k`-th `send`. -/
def IsSend (H : List (HEvent T Op Res)) (k p : Nat) : Prop :=
  (∃ t, H[p]? = some (.send t)) ∧ (H.take p).countP HEvent.isSend = k

/-- Direct edges of happens-before between positions of the history. -/
def Edge (H : List (HEvent T Op Res)) (p q : Nat) : Prop :=
  p < q ∧ ∃ e f, H[p]? = some e ∧ H[q]? = some f ∧
    (e.thread = f.thread ∨ ∃ u k, f = .recv u k ∧ IsSend H k p)

/-- Happens-before. -/
def HB (H : List (HEvent T Op Res)) : Nat → Nat → Prop := Relation.TransGen (Edge H)

/-- The event at `r` is the return of the call at `c`: the next event of the same thread. -/
def Returns (H : List (HEvent T Op Res)) (c r : Nat) (res : Res) : Prop :=
  c < r ∧ ∃ t op, H[c]? = some (.call t op) ∧ H[r]? = some (.ret t res) ∧
    ∀ m e, c < m → m < r → H[m]? = some e → e.thread ≠ t

/-- The operation called at position `pos`, with a result. -/
structure OpRes (Op Res : Type) where
  pos : Nat
  op : Op
  res : Res

/-- The object, started in `σ`, executes the operations one after the other with these results and ends in
`σ'`. -/
inductive Executes (O : SeqObj S Op Res) : S → List (OpRes Op Res) → S → Prop where
  | nil (σ) : Executes O σ [] σ
  | cons {σ σ' x L} : (O.apply σ x.op).2 = x.res → Executes O (O.apply σ x.op).1 L σ' →
      Executes O σ (x :: L) σ'

/-- `L` is an order of the operations of `H` that explains the history:
every operation in it was called, once; every return in `H` is the return of an operation of `L`, with the same
result; executed in the order of `L`, the object gives these results and ends in `σ`; and no operation comes
before one that returned before it was called, in the sense of happens-before. -/
structure Explains (O : SeqObj S Op Res) (H : List (HEvent T Op Res)) (L : List (OpRes Op Res)) (σ : S) :
    Prop where
  called : ∀ x ∈ L, ∃ t, H[x.pos]? = some (.call t x.op)
  once : (L.map OpRes.pos).Nodup
  returned : ∀ r t res, H[r]? = some (.ret t res) → ∃ x ∈ L, x.res = res ∧ Returns H x.pos r res
  legal : Executes O O.init L σ
  order : L.Pairwise fun x y => ∀ r res, Returns H y.pos r res → ¬ HB H r x.pos

/-- Correct up to happens-before. -/
def HBLinearizable (O : SeqObj S Op Res) (H : List (HEvent T Op Res)) : Prop := ∃ L σ, Explains O H L σ

end Verif.Spec
