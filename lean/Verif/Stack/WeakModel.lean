/- Model of `sync/stack.rs` with the memory orderings it uses.

The machine is the usual view-based one for release/acquire and relaxed accesses (the RC11 fragment without fences
and without speculation): each atomic location keeps the history of all its writes, a thread has a view saying how
much of each history it must have seen, a load may return any write that is not older than the thread's view, a
read-modify-write takes the last one, releasing writes carry the writer's view, acquiring loads take it over, and a
read-modify-write passes on the view of the write it replaces (release sequence).  Accesses to ordinary memory (the
creation of the node, the reading of its value) that are not ordered by views count as failures.

Simplifications: the location `len` holds an integer; the `next` fields are only written by relaxed stores, so that
their writes carry no view.  All writes to `head` are compare-and-swaps, so a successful one always takes the last
write.  The epoch collector is the contract: a deferred closure runs only when every thread that holds a guard
pinned it after the node was unlinked, in the sense that its loads of `head` can no longer return anything older than
the unlinking. -/
import Verif.Stack.Model
import Verif.Spec.HappensBefore

namespace Verif.Stack.Weak

open Verif.Spec

/-- `std::sync::atomic::Ordering`, as far as it is used. -/
inductive MemOrd where
  | relaxed
  | acquire
  | release
  deriving DecidableEq

/-- The orderings of the accesses to `head` and `len`. -/
structure Orders where
  pushLoad : MemOrd
  pushCas : MemOrd
  pushAdd : MemOrd
  popLoad : MemOrd
  popCas : MemOrd
  popSub : MemOrd

/-- The orderings in the code: stack.rs:70, 74, 77, 103, 109, 113. -/
def code : Orders where
  pushLoad := .relaxed
  pushCas := .release
  pushAdd := .release
  popLoad := .acquire
  popCas := .release
  popSub := .release

/-- A view: how much of the history of `head`, of `len` and of the memory at each address has been seen, and how
many steps of the client's code in each thread. -/
structure View (n : Nat) where
  head : Nat
  len : Nat
  cell : Addr → Nat
  clock : Fin n → Nat

/-- Nothing seen. -/
def View.bot (n : Nat) : View n := ⟨0, 0, fun _ => 0, fun _ => 0⟩

/-- Both views together. -/
def View.join {n : Nat} (v w : View n) : View n :=
  ⟨max v.head w.head, max v.len w.len, fun a => max (v.cell a) (w.cell a), fun t => max (v.clock t) (w.clock t)⟩

/-- The view after writing or reading the write with stamp `ts` at address `a`. -/
def View.at {n : Nat} (w : View n) (a : Addr) (ts : Nat) : View n :=
  { w with cell := fun x => if x = a then max (w.cell a) ts else w.cell x }

/-- A write in the history of an atomic location. -/
structure Msg (α : Type) (n : Nat) where
  val : α
  view : View n

/-- stack.rs:5-8 `Node`, in memory: its value, the stamp of its creation, and the writes to `next` with their
stamps, the last one first.  `src` is not part of the program: the thread that called `push` and the number of that
call among the steps of the client's code in the thread. -/
structure Cell (n : Nat) (V : Type) where
  value : V
  birth : Nat
  next : List (Nat × Option Addr)
  src : Fin n × Nat

/-- Where a thread is in the code: the access it is about to make (as in `Verif.Stack.Local`); `src` in `popRet`
repeats that of the node. -/
inductive Local (n : Nat) (V : Type) where
  | idle
  /-- stack.rs:70 -/
  | pushLoad (a : Addr)
  /-- stack.rs:71 -/
  | pushStore (a : Addr) (h : Option Addr)
  /-- stack.rs:72-75 -/
  | pushCas (a : Addr) (h : Option Addr)
  /-- stack.rs:77 -/
  | pushAdd
  /-- stack.rs:78-83 -/
  | pushRet
  /-- stack.rs:103 -/
  | popLoad
  /-- stack.rs:104-106 -/
  | popNext (h : Addr)
  /-- stack.rs:107-110 -/
  | popCas (h : Addr) (nx : Option Addr)
  /-- stack.rs:113 -/
  | popSub (h : Addr)
  /-- stack.rs:114 -/
  | popDefer (h : Addr)
  /-- stack.rs:115 -/
  | popRead (h : Addr)
  /-- stack.rs:115, 119-122 -/
  | popRet (r : Option (V × Fin n × Nat))

/-- Holds a guard (stack.rs:68, 101). -/
def Local.pinned {n : Nat} {V : Type} : Local n V → Bool
  | .idle => false
  | _ => true

/-- A deferred `into_owned` (stack.rs:114): `unlink` is how much of the history of `head` the retiring thread had
seen, `waits` are the threads whose guards it has to outlive. -/
structure Retired (n : Nat) where
  addr : Addr
  unlink : Nat
  waits : Fin n → Bool

/-- The machine: memory with a counter for stamps, the histories of `head` and `len` (stack.rs:30-33, oldest write
first), the threads with their views, the retired nodes, how much of the history of `head` the collector has made
known to every new guard, the messages of the client's threads to each other, and whether something undefined has
happened: an access to freed memory, or an access to a node whose creation the thread has not seen. -/
structure State (n : Nat) (V : Type) where
  mem : Addr → Option (Cell n V)
  stamp : Nat
  head : List (Msg (Option Addr) n)
  len : List (Msg Int n)
  view : Fin n → View n
  th : Fin n → Local n V
  retired : List (Retired n)
  gone : Nat
  posts : List (View n)
  fault : Bool

variable {n : Nat} {V : Type}

/-- stack.rs:45-50 `new`, called before the stack is shared. -/
def init (n : Nat) (V : Type) : State n V where
  mem := fun _ => none
  stamp := 1
  head := [⟨none, .bot n⟩]
  len := [⟨0, .bot n⟩]
  view := fun _ => .bot n
  th := fun _ => .idle
  retired := []
  gone := 0
  posts := []
  fault := false

/-- The thread goes to `l`. -/
def State.goto (s : State n V) (t : Fin n) (l : Local n V) : State n V :=
  { s with th := fun x => if x = t then l else s.th x }

/-- The view of the thread becomes `w`. -/
def State.see (s : State n V) (t : Fin n) (w : View n) : State n V :=
  { s with view := fun x => if x = t then w else s.view x }

/-- Writing a cell at address `a`. -/
def State.write (s : State n V) (a : Addr) (c : Option (Cell n V)) : State n V :=
  { s with mem := fun x => if x = a then c else s.mem x }

/-- The view after reading write number `i` of `head`. -/
def readHead (o : MemOrd) (w : View n) (i : Nat) (m : Msg (Option Addr) n) : View n :=
  let w := { w with head := max w.head i }
  if o = .acquire then w.join m.view else w

/-- The view attached to a write that replaces `m`, by a thread whose view is now `w`. -/
def release {α : Type} (o : MemOrd) (w : View n) (m : Msg α n) : View n :=
  if o = .release then m.view.join w else m.view

/-- A compare-and-swap of `head` from `old` to `new` which sees write number `i`; `yes` and `no` are the places the
thread goes to.  Success needs the last write; a failure may also see an older one (its ordering is relaxed, as the
failure ordering for `Release` in crossbeam).  `none` if write `i` cannot be seen. -/
def casHead (o : MemOrd) (s : State n V) (t : Fin n) (i : Nat) (old new : Option Addr) (yes no : Local n V) :
    Option (State n V) :=
  match s.head[i]? with
  | none => none
  | some m =>
    if (s.view t).head ≤ i then
      if m.val = old then
        if i + 1 = s.head.length then
          let w := { s.view t with head := i + 1 }
          some (({ s with head := s.head ++ [Msg.mk new (release o w m)] }.see t w).goto t yes)
        else none
      else some ((s.see t { s.view t with head := i }).goto t no)
    else none

/-- `len.fetch_add(d)`: takes the last write. -/
def addLen (o : MemOrd) (s : State n V) (t : Fin n) (d : Int) (l : Local n V) : Option (State n V) :=
  match s.len.getLast? with
  | none => none
  | some m =>
    let w := { s.view t with len := s.len.length }
    some (({ s with len := s.len ++ [Msg.mk (m.val + d) (release o w m)] }.see t w).goto t l)

/-- The stamp of the last write to the cell. -/
def Cell.lastTs (c : Cell n V) : Nat :=
  match c.next with
  | [] => c.birth
  | (ts, _) :: _ => ts

/-- Dereferencing `a`: fails (`none`) if the memory is free or the thread has not seen the creation of the node. -/
def State.deref (s : State n V) (t : Fin n) (a : Addr) : Option (Cell n V) :=
  match s.mem a with
  | none => none
  | some c => if c.birth ≤ (s.view t).cell a then some c else none

/-- Something undefined happened. -/
def State.bad (s : State n V) : State n V := { s with fault := true }

/-- Taking a guard: of the retirements, the thread may or may not have seen the unlinking (`sees`); those it has not
seen wait for it.  What the collector has already reclaimed, it has seen. -/
def State.pin (s : State n V) (t : Fin n) (sees : Addr → Bool) : State n V :=
  { s.see t { s.view t with
      head := (s.retired.filter fun r => sees r.addr).foldl (fun h r => max h r.unlink) (max (s.view t).head s.gone) }
    with retired := s.retired.map fun r => if sees r.addr then r else { r with waits := fun x => if x = t then true else r.waits x } }

/-- Dropping the guard. -/
def State.unpin (s : State n V) (t : Fin n) : State n V :=
  { s.goto t .idle with retired := s.retired.map fun r => { r with waits := fun x => if x = t then false else r.waits x } }

/-- One more step of the client's code in thread `t`. -/
def State.clientStep (s : State n V) (t : Fin n) : State n V :=
  s.see t { s.view t with clock := fun x => if x = t then (s.view t).clock t + 1 else (s.view t).clock x }

/-- One access of thread `t`; the number says which write a load sees. -/
def tick (o : Orders) (s : State n V) (t : Fin n) (i : Nat) :
    Option (State n V × List (HEvent (Fin n) (StackOp V) (StackRes V))) :=
  match s.th t with
  | .idle => none
  | .pushLoad a =>
    match s.head[i]? with
    | none => none
    | some m =>
      if (s.view t).head ≤ i then
        some ((s.see t (readHead o.pushLoad (s.view t) i m)).goto t (.pushStore a m.val), [])
      else none
  | .pushStore a h =>
    match s.deref t a with
    | none => some (s.bad, [])
    | some c =>
      some (({ s.write a (some { c with next := (s.stamp, h) :: c.next }) with stamp := s.stamp + 1 }.see t
        ((s.view t).at a s.stamp)).goto t (.pushCas a h), [])
  | .pushCas a h => (casHead o.pushCas s t i h (some a) .pushAdd (.pushLoad a)).map (·, [])
  | .pushAdd => (addLen o.pushAdd s t 1 .pushRet).map (·, [])
  | .pushRet => some ((s.unpin t).clientStep t, [.ret t .unit])
  | .popLoad =>
    match s.head[i]? with
    | none => none
    | some m =>
      if (s.view t).head ≤ i then
        match m.val with
        | none => some ((s.see t (readHead o.popLoad (s.view t) i m)).goto t (.popRet none), [])
        | some h => some ((s.see t (readHead o.popLoad (s.view t) i m)).goto t (.popNext h), [])
      else none
  | .popNext h =>
    match s.deref t h with
    | none => some (s.bad, [])
    | some c =>
      match c.next[i]? with
      | none => none
      | some (ts, nx) =>
        if (s.view t).cell h ≤ ts then
          some ((s.see t ((s.view t).at h ts)).goto t (.popCas h nx), [])
        else none
  | .popCas h nx => (casHead o.popCas s t i (some h) nx (.popSub h) .popLoad).map (·, [])
  | .popSub h => (addLen o.popSub s t (-1) (.popDefer h)).map (·, [])
  | .popDefer h =>
    some ({ s with retired := ⟨h, (s.view t).head, fun x => (s.th x).pinned⟩ :: s.retired }.goto t (.popRead h), [])
  | .popRead h =>
    match s.deref t h with
    | none => some (s.bad, [])
    | some c => some (s.goto t (.popRet (some (c.value, c.src))), [])
  | .popRet r => some ((s.unpin t).clientStep t, [.ret t (.popped (r.map (·.1)))])

/-- What can happen next. -/
inductive Action (n : Nat) (V : Type) where
  /-- thread `t` calls `push(v)`; the allocator picks the address `a` (stack.rs:63-68) -/
  | push (t : Fin n) (v : V) (a : Addr) (sees : Addr → Bool)
  /-- thread `t` calls `try_pop` (stack.rs:101) -/
  | pop (t : Fin n) (sees : Addr → Bool)
  /-- thread `t` makes its next access -/
  | tick (t : Fin n) (i : Nat)
  /-- thread `t` sends a message to the other threads of the client -/
  | send (t : Fin n)
  /-- thread `t` receives the message number `k` -/
  | recv (t : Fin n) (k : Nat)
  /-- the collector runs the deferred closure for address `a` -/
  | reclaim (a : Addr)

/-- May be reclaimed. -/
def Retired.ripe (r : Retired n) : Bool := decide (∀ t, r.waits t = false)

/-- One step; `none` if the action is not possible in `s`. -/
def step (o : Orders) (s : State n V) :
    Action n V → Option (State n V × List (HEvent (Fin n) (StackOp V) (StackRes V)))
  | .push t v a sees =>
    match s.th t, s.mem a with
    | .idle, none =>
      let s := s.clientStep t
      let c : Cell n V := ⟨v, s.stamp, [(s.stamp, none)], (t, (s.view t).clock t)⟩
      let s := { s.write a (some c) with stamp := s.stamp + 1 }.see t ((s.view t).at a s.stamp)
      some ((s.pin t sees).goto t (.pushLoad a), [.call t (.push v)])
    | _, _ => none
  | .pop t sees =>
    match s.th t with
    | .idle => some (((s.clientStep t).pin t sees).goto t .popLoad, [.call t .pop])
    | _ => none
  | .tick t i => tick o s t i
  | .send t =>
    match s.th t with
    | .idle =>
      let s := s.clientStep t
      some ({ s with posts := s.posts ++ [s.view t] }, [.send t])
    | _ => none
  | .recv t k =>
    match s.th t, s.posts[k]? with
    | .idle, some w =>
      let s := s.clientStep t
      some (s.see t ((s.view t).join w), [.recv t k])
    | _, _ => none
  | .reclaim a =>
    match s.retired.find? (fun r => r.addr = a ∧ r.ripe = true) with
    | none => none
    | some r =>
      match s.mem a with
      | none => some (s.bad, [])
      | some _ =>
        some ({ s.write a none with gone := max s.gone r.unlink,
                                    retired := s.retired.eraseP (fun r => r.addr = a ∧ r.ripe = true) }, [])

/-- A schedule: the history it shows and the state it ends in. -/
def exec (o : Orders) (s : State n V) : List (Action n V) →
    Option (State n V × List (HEvent (Fin n) (StackOp V) (StackRes V)))
  | [] => some (s, [])
  | a :: as =>
    match step o s a with
    | none => none
    | some (s', evs) =>
      match exec o s' as with
      | none => none
      | some (s'', evs') => some (s'', evs ++ evs')

/-- The states some schedule reaches. -/
def Reachable (o : Orders) (s : State n V) : Prop := ∃ as evs, exec o (init n V) as = some (s, evs)

/-- stack.rs:137-139 `len` by thread `t`: one load of the counter, a `usize`, which sees write number `i`; `none` if
that write cannot be seen.  That the load also makes something known to the thread (it acquires) is left out. -/
def State.lenCall (s : State n V) (t : Fin n) (i : Nat) : Option Nat :=
  match s.len[i]? with
  | none => none
  | some m => if (s.view t).len ≤ i then some (m.val % 2 ^ 64).toNat else none

end Verif.Stack.Weak
