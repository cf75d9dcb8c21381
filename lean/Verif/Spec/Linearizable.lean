/- Specification of linearizability, independent of any model: a history of calls and returns is linearizable
when each operation can be assigned an instant between its call and its return at which it is executed
atomically on the sequential object, and returns the result computed at that instant. -/

namespace Verif.Spec

/-- A deterministic sequential object. -/
structure SeqObj (S Op Res : Type) where
  init : S
  apply : S → Op → S × Res

/-- Observable events of a concurrent history with threads `T`. -/
inductive Event (T Op Res : Type) where
  | call (t : T) (op : Op)
  | ret (t : T) (r : Res)
  deriving DecidableEq

/-- What a thread is doing: nothing; it called `op` which has not taken effect; its operation took effect with
result `r` and has not returned. -/
inductive Status (Op Res : Type) where
  | idle
  | called (op : Op)
  | done (r : Res)

variable {T S Op Res : Type} [DecidableEq T]

/-- `Atomic O σ st evs σ' st'`: from object state `σ` and thread statuses `st`, the events `evs` can be
observed of an object whose operations take effect at one instant (`effect`) between call and return. -/
inductive Atomic (O : SeqObj S Op Res) :
    S → (T → Status Op Res) → List (Event T Op Res) → S → (T → Status Op Res) → Prop where
  | nil (σ st) : Atomic O σ st [] σ st
  | call {σ st evs σ' st'} (t : T) (op : Op) : st t = .idle →
      Atomic O σ (fun x => if x = t then .called op else st x) evs σ' st' →
      Atomic O σ st (.call t op :: evs) σ' st'
  | effect {σ st evs σ' st'} (t : T) (op : Op) : st t = .called op →
      Atomic O (O.apply σ op).1 (fun x => if x = t then .done (O.apply σ op).2 else st x) evs σ' st' →
      Atomic O σ st evs σ' st'
  | ret {σ st evs σ' st'} (t : T) (r : Res) : st t = .done r →
      Atomic O σ (fun x => if x = t then .idle else st x) evs σ' st' →
      Atomic O σ st (.ret t r :: evs) σ' st'

/-- A history is linearizable. -/
def Linearizable (O : SeqObj S Op Res) (evs : List (Event T Op Res)) : Prop :=
  ∃ σ st, Atomic O O.init (fun _ => .idle) evs σ st

/-- Calls on a stack. -/
inductive StackOp (V : Type) where
  | push (v : V)
  | pop
  deriving DecidableEq

/-- Results: `push` returns nothing, `try_pop` an optional value. -/
inductive StackRes (V : Type) where
  | unit
  | popped (o : Option V)
  deriving DecidableEq

/-- The sequential LIFO stack. -/
def lifo (V : Type) : SeqObj (List V) (StackOp V) (StackRes V) where
  init := []
  apply
    | l, .push v => (v :: l, .unit)
    | [], .pop => ([], .popped none)
    | v :: l, .pop => (l, .popped (some v))

/-- The values of the `push` calls of a history. -/
def pushed {T V : Type} : List (Event T (StackOp V) (StackRes V)) → List V
  | [] => []
  | .call _ (.push v) :: evs => v :: pushed evs
  | _ :: evs => pushed evs

/-- The values handed out by the `try_pop` calls of a history. -/
def popped {T V : Type} : List (Event T (StackOp V) (StackRes V)) → List V
  | [] => []
  | .ret _ (.popped (some v)) :: evs => v :: popped evs
  | _ :: evs => popped evs

end Verif.Spec
