/-
The set types of the crate.

`avl_tree/set.rs`, `red_black_tree/set.rs`, `splay_tree/set.rs`, `treap/set.rs`, `skiplist/set.rs` and
`radix/set.rs` contain the same code around different map types: a set is a map with unit values and every call
is handed to the map.  The model is therefore one wrapper around a map implementation.
-/
import Verif.Spec.OrdSet

namespace Verif.Sets

open Verif.Spec

variable {K S : Type}

/-- The `.map(|pair| pair.0)` of `insert` and `remove`. -/
def pairKey : Option (S × MapRes K Unit) → Option (S × SetRes K)
  | some (s, .pair o) => some (s, .key (o.map (·.1)))
  | _ => none

/-- The result of `floor`, `ceil`, `min`, `max`, handed on. -/
def asKey : Option (S × MapRes K Unit) → Option (S × SetRes K)
  | some (s, .key o) => some (s, .key o)
  | _ => none

/-- The result of `contains_key`, `is_empty`, handed on. -/
def asBool : Option (S × MapRes K Unit) → Option (S × SetRes K)
  | some (s, .bool b) => some (s, .bool b)
  | _ => none

/-- The result of `len`, handed on. -/
def asNum : Option (S × MapRes K Unit) → Option (S × SetRes K)
  | some (s, .num n) => some (s, .num n)
  | _ => none

/-- The iterators' `self.map_iter.next().map(|pair| pair.0)`, collected. -/
def asList : Option (S × MapRes K Unit) → Option (S × SetRes K)
  | some (s, .list l) => some (s, .list (l.map (·.1)))
  | _ => none

/-- The result of `clear`, handed on. -/
def asUnit : Option (S × MapRes K Unit) → Option (S × SetRes K)
  | some (s, .unit) => some (s, .unit)
  | _ => none

/-- The calls of a set around the map implementation `I`; a result of the wrong form (impossible in Rust, where
the map calls are typed) counts as a failure.  Lines of set.rs, for avl / red-black / splay / treap / skiplist / radix:
`insert` 57-62 / 59-64 / 60-65 / 63-68 / 64-69 / 66-68, `remove` 77-82 / 79-84 / 80-85 / 83-88 / 84-90 / 83-85,
`contains` 96-102 / 98-104 / 99-105 / 102-108 / 104-110 / 99-101, `len` 115-117 / 117-119 / 118-120 / 121-123 /
123-125 / 114-116, `is_empty` 129-131 / 131-133 / 132-134 / 135-137 / 137-139 / 128-130, `clear` 146-148 / 148-150
/ 149-151 / 152-154 / 154-156 / 145-147, `floor` 163-169 / 165-171 / 166-172 / 169-175 / 171-177 / -, `ceil`
184-190 / 186-192 / 187-193 / 190-196 / 192-198 / -, `min` 204-209 / 206-211 / 207-212 / 210-215 / 212-217 /
181-183, `max` 223-228 / 225-230 / 226-231 / 229-234 / 231-236 / 197-199, `iter` and the iterators 246-307 /
248-309 / 249-310 / 394-455 / 368-430 / 217-272. -/
def step (I : MapImpl K Unit) (s : I.State) (op : SetOp K) (d : I.Draw) : Option (I.State × SetRes K) :=
  match op with
  | .insert k => pairKey (I.step s (.insert k ()) d)
  | .remove k => pairKey (I.step s (.remove k) d)
  | .contains k => asBool (I.step s (.containsKey k) d)
  | .floor k => asKey (I.step s (.floor k) d)
  | .ceil k => asKey (I.step s (.ceil k) d)
  | .min => asKey (I.step s .min d)
  | .max => asKey (I.step s .max d)
  | .len => asNum (I.step s .len d)
  | .isEmpty => asBool (I.step s .isEmpty d)
  | .iter => asList (I.step s .iter d)
  | .clear => asUnit (I.step s .clear d)

/-- The set type around the map type `I` (`struct AvlSet`, ... and `new`: avl 26-42, red-black 26-44, splay 27-45,
treap 30-48, skiplist 31-49, radix 33-51). -/
def ofMap (I : MapImpl K Unit) : SetImpl K := ⟨I.State, I.Draw, I.empty, step I⟩

end Verif.Sets
