/- Model of `sync/stack.rs`: a transition system whose steps are the atomic accesses of `push` and `try_pop`
by any number of threads, interleaved in any order, and the reclamation of retired nodes by crossbeam-epoch.

Simplifications: interleaving (sequentially consistent) semantics instead of the C++11 orderings; the epoch
collector is the abstract contract "a node is reclaimed at some time after every thread that was pinned when
it was retired has unpinned"; an address may be allocated again as soon as it is reclaimed; the counter is an
integer and `len` its residue modulo 2^64. -/
import Verif.Spec.Linearizable

namespace Verif.Stack

open Verif.Spec

/-- Addresses. -/
abbrev Addr := Nat

/-- stack.rs:5-8 `Node`. -/
structure Node (V : Type) where
  value : V
  next : Option Addr

/-- Where a thread is in the code: the access it is about to make. -/
inductive Local (V : Type) where
  /-- not inside `push` or `try_pop`: not pinned -/
  | idle
  /-- stack.rs:70, `head.load` of `push`; `n` is the new node -/
  | pushLoad (n : Addr)
  /-- stack.rs:71, `new_node.next.store(head_shared)` -/
  | pushStore (n : Addr) (h : Option Addr)
  /-- stack.rs:72-75, `head.compare_and_set(head_shared, new_node)` -/
  | pushCas (n : Addr) (h : Option Addr)
  /-- stack.rs:77, `len.fetch_add(1)` -/
  | pushAdd
  /-- stack.rs:78-83, leave the loop, drop the guard, return -/
  | pushRet
  /-- stack.rs:103, `head.load` of `try_pop` -/
  | popLoad
  /-- stack.rs:104-106, dereference the head and load its `next` -/
  | popNext (h : Addr)
  /-- stack.rs:107-110, `head.compare_and_set(head_shared, next)` -/
  | popCas (h : Addr) (nx : Option Addr)
  /-- stack.rs:113, `len.fetch_sub(1)` -/
  | popSub (h : Addr)
  /-- stack.rs:114, `guard.defer(move || head_shared.into_owned())` -/
  | popDefer (h : Addr)
  /-- stack.rs:115, `ptr::read(&(*head).value)` -/
  | popRead (h : Addr)
  /-- stack.rs:115 / 119-122, drop the guard, return -/
  | popRet (r : Option V)

/-- A deferred `into_owned` (stack.rs:114) with the threads that were pinned at the time and have not unpinned
since. -/
structure Retired (n : Nat) where
  addr : Addr
  waits : Fin n → Bool

/-- Shared state: the heap, stack.rs:30-33 `Stack`, the threads, the retired nodes, the values whose destructor
the collector has run, and whether a freed address has been dereferenced or freed again. -/
structure State (n : Nat) (V : Type) where
  mem : Addr → Option (Node V)
  head : Option Addr
  len : Int
  th : Fin n → Local V
  retired : List (Retired n)
  dropped : List V
  fault : Bool

variable {n : Nat} {V : Type}

/-- stack.rs:45-50 `new`. -/
def init (n : Nat) (V : Type) : State n V :=
  ⟨fun _ => none, none, 0, fun _ => .idle, [], [], false⟩

/-- Pinned: a guard is held from stack.rs:68 / 101 until the return. -/
def Local.pinned : Local V → Bool
  | .idle => false
  | _ => true

/-- The thread goes to `l`. -/
def State.goto (s : State n V) (t : Fin n) (l : Local V) : State n V :=
  { s with th := fun x => if x = t then l else s.th x }

/-- Dropping the guard: no reclamation waits for `t` any more. -/
def State.unpin (s : State n V) (t : Fin n) : State n V :=
  { s.goto t .idle with retired := s.retired.map fun r => { r with waits := fun x => if x = t then false else r.waits x } }

/-- Writing `node` at address `a`. -/
def State.write (s : State n V) (a : Addr) (node : Option (Node V)) : State n V :=
  { s with mem := fun x => if x = a then node else s.mem x }

/-- One access of thread `t`, with the event it shows. -/
def tick (s : State n V) (t : Fin n) : Option (State n V × List (Event (Fin n) (StackOp V) (StackRes V))) :=
  match s.th t with
  | .idle => none
  | .pushLoad a => some (s.goto t (.pushStore a s.head), [])
  | .pushStore a h =>
    match s.mem a with
    | none => some ({ s with fault := true }, [])
    | some nd => some ((s.write a (some ⟨nd.value, h⟩)).goto t (.pushCas a h), [])
  | .pushCas a h =>
    if s.head = h then some ({ s with head := some a }.goto t .pushAdd, [])
    else some (s.goto t (.pushLoad a), [])
  | .pushAdd => some ({ s with len := s.len + 1 }.goto t .pushRet, [])
  | .pushRet => some (s.unpin t, [.ret t .unit])
  | .popLoad =>
    match s.head with
    | none => some (s.goto t (.popRet none), [])
    | some h => some (s.goto t (.popNext h), [])
  | .popNext h =>
    match s.mem h with
    | none => some ({ s with fault := true }, [])
    | some nd => some (s.goto t (.popCas h nd.next), [])
  | .popCas h nx =>
    if s.head = some h then some ({ s with head := nx }.goto t (.popSub h), [])
    else some (s.goto t .popLoad, [])
  | .popSub h => some ({ s with len := s.len - 1 }.goto t (.popDefer h), [])
  | .popDefer h =>
    some ({ s with retired := ⟨h, fun x => (s.th x).pinned⟩ :: s.retired }.goto t (.popRead h), [])
  | .popRead h =>
    match s.mem h with
    | none => some ({ s with fault := true }, [])
    | some nd => some (s.goto t (.popRet (some nd.value)), [])
  | .popRet r => some (s.unpin t, [.ret t (.popped r)])

/-- What can happen next. -/
inductive Action (n : Nat) (V : Type) where
  /-- thread `t` calls `push(v)`; the allocator picks the address `a` (stack.rs:63-68) -/
  | push (t : Fin n) (v : V) (a : Addr)
  /-- thread `t` calls `try_pop` (stack.rs:101) -/
  | pop (t : Fin n)
  /-- thread `t` makes its next access -/
  | tick (t : Fin n)
  /-- the collector runs the oldest deferred closure for address `a`: the node, with its value, is dropped and
  its memory freed -/
  | reclaim (a : Addr)

/-- The collector runs the deferred closure of `r`: it frees the node and drops the value inside (the `Owned`
returned by the closure is dropped). -/
def State.free (s : State n V) (a : Addr) : State n V :=
  match s.mem a with
  | none => { s with fault := true }
  | some nd => { s.write a none with dropped := nd.value :: s.dropped }

/-- One step; `none` if the action is not possible in `s`. -/
def step (s : State n V) : Action n V → Option (State n V × List (Event (Fin n) (StackOp V) (StackRes V)))
  | .push t v a =>
    match s.th t, s.mem a with
    | .idle, none => some ((s.write a (some ⟨v, none⟩)).goto t (.pushLoad a), [.call t (.push v)])
    | _, _ => none
  | .pop t =>
    match s.th t with
    | .idle => some (s.goto t .popLoad, [.call t .pop])
    | _ => none
  | .tick t => tick s t
  | .reclaim a =>
    match s.retired.find? (fun r => r.addr = a ∧ ∀ t, r.waits t = false) with
    | none => none
    | some _ =>
      some ({ s.free a with retired := s.retired.eraseP (fun r => r.addr = a ∧ ∀ t, r.waits t = false) }, [])

/-- A schedule: the events it shows and the state it ends in. -/
def exec (s : State n V) : List (Action n V) →
    Option (State n V × List (Event (Fin n) (StackOp V) (StackRes V)))
  | [] => some (s, [])
  | a :: as =>
    match step s a with
    | none => none
    | some (s', evs) =>
      match exec s' as with
      | none => none
      | some (s'', evs') => some (s'', evs ++ evs')

/-- The states some schedule reaches. -/
def Reachable (s : State n V) : Prop := ∃ as evs, exec (init n V) as = some (s, evs)

/-- stack.rs:137-139 `len`: one load of the counter, a `usize`. -/
def State.lenCall (s : State n V) : Nat := (s.len % 2 ^ 64).toNat

/-- stack.rs:154-156 `is_empty`. -/
def State.isEmpty (s : State n V) : Bool := s.lenCall == 0

/-- Dropping the `Stack`: the values whose destructor runs.  There is no `impl Drop for Stack`, and the fields
(`crossbeam_epoch::Atomic`, `AtomicUsize`, stack.rs:30-33) have no destructor. -/
def State.dropStack (_ : State n V) : List V := []

/-- The values of the stack, top first: what a sequence of `try_pop`s would read in the heap.  The first
argument bounds the number of nodes followed. -/
def walk (mem : Addr → Option (Node V)) : Nat → Option Addr → List V
  | 0, _ => []
  | _, none => []
  | k + 1, some a =>
    match mem a with
    | none => []
    | some nd => nd.value :: walk mem k nd.next

end Verif.Stack
