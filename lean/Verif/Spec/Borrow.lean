/- Specification of what a program can do with a shared reference to a map that hands out references to its values:
look keys up, make iterators, move them on, and read and write through the references it got, in any order. -/
import Verif.Spec.OrdMap

namespace Verif.Spec

/-- The steps of such a program.  References are numbered in the order in which they are handed out, iterators in the
order in which they are made. -/
inductive Act (K V : Type) where
  /-- look a key up; a reference is handed out if it is found -/
  | get (k : K)
  /-- make a mutable iterator -/
  | iterMut
  /-- call `next()` on iterator `i`; a reference is handed out unless the iterator is at its end -/
  | next (i : Nat)
  /-- replace the value `x` behind reference `r` by `f x` -/
  | write (r : Nat) (f : V → V)
  /-- read the value behind reference `r` -/
  | read (r : Nat)

/-- What the program sees: an entry, a value, nothing. -/
inductive Seen (K V : Type) where
  | item (o : Option (K × V))
  | val (o : Option V)
  | unit
  deriving DecidableEq

/-- The contents of the map, for each iterator the keys still to come, for each reference the key of its value. -/
structure Session (K V : Type) where
  map : AMap K V
  keys : List K
  iters : List (List K)
  refs : List K

/-- One step.  Steps with an iterator or a reference that does not exist do nothing. -/
def Session.act {K V : Type} [LinearOrder K] (s : Session K V) : Act K V → Session K V × Seen K V
  | .get k =>
    match s.map k with
    | none => (s, .val none)
    | some v => ({ s with refs := s.refs ++ [k] }, .val (some v))
  | .iterMut => ({ s with iters := s.iters ++ [s.keys] }, .unit)
  | .next i =>
    match s.iters[i]? with
    | none => (s, .unit)
    | some [] => (s, .item none)
    | some (k :: ks) =>
      ({ s with iters := s.iters.set i ks, refs := s.refs ++ [k] }, .item ((s.map k).map fun v => (k, v)))
  | .write r f =>
    match s.refs[r]? with
    | none => (s, .unit)
    | some k => ({ s with map := s.map.set k ((s.map k).map f) }, .unit)
  | .read r =>
    match s.refs[r]? with
    | none => (s, .unit)
    | some k => (s, .val (s.map k))

/-- All steps of a program and what it sees. -/
def Session.run {K V : Type} [LinearOrder K] (s : Session K V) : List (Act K V) → Session K V × List (Seen K V)
  | [] => (s, [])
  | a :: as => ((Session.run (s.act a).1 as).1, (s.act a).2 :: (Session.run (s.act a).1 as).2)

/-- A program that has just borrowed a map with these keys. -/
def Session.start {K V : Type} (m : AMap K V) (keys : List K) : Session K V := ⟨m, keys, [], []⟩

end Verif.Spec
