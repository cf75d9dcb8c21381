/-
I/O errors in `BpMap`: for every call, where an operation on the file can fail, and the state in which the map is left
when it does.  The calls that do not fail are those of Verif/Bp/Model.lean.

A failing operation is taken to have no effect on the file: no page is overwritten in part.  What is of interest are
the answers of the process that goes on with the map after it has been given the error.
-/
import Verif.Bp.Props

namespace Verif.Bp

open Verif.Spec

variable {K V : Type}

/-- The place of a failing operation in its call. -/
inductive Fault where
  /-- A page could not be read, before anything was written. -/
  | read
  /-- The page of a new leaf could not be allocated. -/
  | alloc
  /-- The first write to a page of the tree. -/
  | write
  /-- The length, written last. -/
  | len
  /-- The length, written before the leaf, or the leaf after it. -/
  | early
  /-- Anything else: some but not all of the pages of the tree have been written. -/
  | torn
  deriving DecidableEq

namespace Pager

/-- pager.rs:215-258 `allocate_node`, the states in which it fails: the number of pages is incremented before the file
is extended, the head of the free list is replaced between the write of the page and that of the header. -/
def allocErr (p : Pager K V) (n : Node K V) : List (Pager K V) :=
  match p.md.free with
  | none =>
    let p1 := { p with md := { p.md with pages := p.md.pages + 1 } }
    let p2 := p1.setFileLen p1.md.pages
    p1 :: p2 :: (p2.writeNode (p2.md.pages - 1) n).toList
  | some f =>
    p ::
    match p.getPage f with
    | some (.free nf) => ((p.writeNode f n).map fun q => { q with md := { q.md with free := nf } }).toList
    | _ => []

/-- pager.rs:260-277 `deallocate_node`, when the header cannot be written.  (When the page cannot be written nothing
has changed.) -/
def deallocErr (p : Pager K V) (i : Nat) : List (Pager K V) :=
  ((p.writeNode i (.free p.md.free)).map fun q => { q with md := { q.md with free := some i } }).toList

/-- pager.rs:292-316 `clear`: all of the metadata is changed before the file is. -/
def clearErr (p : Pager K V) : List (Pager K V) :=
  let p := { p with md := { p.md with pages := 1, len := 0, root := 0, free := none } }
  [p, p.setFileLen 1, writeHdr (p.setFileLen 1)]

end Pager

section
variable [LinearOrder K]

/-- map.rs:230-260, the loop of `insert` that goes up the tree.  The root is replaced in memory before the header is
written. -/
def insertUpErr (p : Pager K V) (page : Nat) : Stack K → Option (K × Nat) → List (Pager K V)
  | _, none => []
  | [], some (k, q) =>
    let r : INode K := INode.new p.md.intDeg
    match r.keys, r.ptrs with
    | _ :: ks, _ :: _ :: ps =>
      let r := Node.internal ⟨1, some k :: ks, page :: q :: ps⟩
      p.allocErr r ++ ((p.allocate r).map fun x => { x.1 with md := { x.1.md with root := x.2 } }).toList
    | _, _ => []
  | (pp, n, _) :: st, some (k, q) =>
    match n.insert k q with
    | none => []
    | some (_, none) => [p]
    | some (n, some (k2, s)) =>
      p.allocErr (.internal s) ++
      match p.allocate (.internal s) with
      | none => []
      | some (p, q2) =>
        p ::
        match p.writeNode pp (.internal n) with
        | none => []
        | some p => insertUpErr p pp st (some (k2, q2))

/-- map.rs:196-264 `insert`. -/
def insertErr (p : Pager K V) (k : K) (v : V) : List (Fault × Pager K V) :=
  (.read, p) ::
  match search p k with
  | some (page, .leaf n, st) =>
    match n.insert (k, v) with
    | none => []
    | some (n, .split k s) =>
      (p.allocErr (.leaf s)).map (fun q => (Fault.alloc, q)) ++
      match p.allocate (.leaf s) with
      | none => []
      | some (p, q) =>
        (.write, p) ::
        match p.writeNode page (.leaf { n with next := some q }) with
        | none => []
        | some p =>
          (insertUpErr p page st (some (k, q))).map (fun q => (Fault.torn, q)) ++
          match insertUp p page st (some (k, q)) with
          | none => []
          | some p => [(.len, { p with md := { p.md with len := p.md.len + 1 } })]
    | some (_, .entry _) => [(.write, p)]
    | some (n, .done) =>
      (.write, p) ::
      match p.writeNode page (.leaf n) with
      | none => []
      | some p => [(.len, { p with md := { p.md with len := p.md.len + 1 } })]
  | _ => []

/-- Three writes one after the other: the states in which the second and the third fail, and the state after the
third. -/
def write3 (p : Pager K V) (i : Nat) (a : Node K V) (j : Nat) (b : Node K V) (k : Nat) (c : Node K V) :
    List (Pager K V) × Option (Pager K V) :=
  match p.writeNode i a with
  | none => ([], none)
  | some p =>
    match p.writeNode j b with
    | none => ([p], none)
    | some q => ([p, q], q.writeNode k c)

/-- map.rs:375-461, the loop of `remove` that goes up the tree, after `remove_at` (line 377). -/
def removeUpErr (p : Pager K V) (page : Nat) (n : INode K) : Stack K → List (Pager K V)
  | [] =>
    if n.len + 1 < (p.md.intDeg + 1) / 2 then
      if n.len = 0 then
        match n.ptrs[0]? with
        | none => []
        | some r => { p with md := { p.md with root := r } } :: p.setRoot r :: (p.setRoot r).deallocErr page
      else [p]
    else [p]
  | (pp, pn, i) :: st =>
    if n.len + 1 < (p.md.intDeg + 1) / 2 then
      let si := siblingIndex i
      match pn.ptrs[si]? with
      | none => []
      | some sp =>
        p ::
        match p.getPage sp with
        | some (.internal sn) =>
          if sn.len + 1 = (p.md.intDeg + 1) / 2 then
            if si = i + 1 then
              match pn.keys[i]? with
              | some (some pk) =>
                p.deallocErr sp ++
                match n.merge pk sn, p.deallocate sp with
                | some n, some p =>
                  p ::
                  match p.writeNode page (.internal n), pn.removeAt i true with
                  | some p, some (pn, _, _) => removeUpErr p pp pn st
                  | _, _ => []
                | _, _ => []
              | _ => []
            else
              match pn.keys[si]? with
              | some (some pk) =>
                p.deallocErr page ++
                match sn.merge pk n, p.deallocate page with
                | some sn, some p =>
                  p ::
                  match p.writeNode sp (.internal sn), pn.removeAt si true with
                  | some p, some (pn, _, _) => removeUpErr p pp pn st
                  | _, _ => []
                | _, _ => []
              | _ => []
          else if si = i + 1 then
            match sn.removeAt 0 false, pn.keys[i]? with
            | some (sn, rk, rp), some (some pk) =>
              match n.insert pk rp with
              | none => []
              | some (n, _) =>
                (write3 p pp (.internal { pn with keys := pn.keys.set i (some rk) }) sp (.internal sn)
                  page (.internal n)).1
            | _, _ => []
          else
            match sn.removeAt (sn.len - 1) true, pn.keys[si]? with
            | some (sn, rk, rp), some (some pk) =>
              match n.insertFirst pk rp with
              | none => []
              | some n =>
                (write3 p pp (.internal { pn with keys := pn.keys.set si (some rk) }) sp (.internal sn)
                  page (.internal n)).1
            | _, _ => []
        | _ => []
    else [p]

/-- map.rs:356-363: the three writes when a leaf takes an entry from its sibling, then the length (367-368). -/
def borrowErr (p : Pager K V) (i : Nat) (a : Node K V) (j : Nat) (b : Node K V) (k : Nat) (c : Node K V) :
    List (Fault × Pager K V) :=
  (.write, p) :: (write3 p i a j b k c).1.map (fun q => (Fault.torn, q)) ++
    ((write3 p i a j b k c).2.map fun q => (Fault.len, { q with md := { q.md with len := q.md.len - 1 } })).toList

/-- map.rs:325-338: two leaves are merged, one of them is freed and the other is written; then the length (367-368)
and the rest of the tree. -/
def mergeErr (p : Pager K V) (gone kept : Nat) (n : LNode K V) (pp : Nat) (pn : INode K) (i : Nat) (st : Stack K) :
    List (Fault × Pager K V) :=
  (.write, p) :: (p.deallocErr gone).map (fun q => (Fault.torn, q)) ++
    match p.deallocate gone with
    | none => []
    | some p =>
      (.torn, p) ::
      match p.writeNode kept (.leaf n), pn.removeAt i true with
      | some p, some (pn, _, _) =>
        (.torn, { p with md := { p.md with len := p.md.len - 1 } }) ::
          (removeUpErr (p.setLen (p.md.len - 1)) pp pn st).map fun q => (Fault.torn, q)
      | _, _ => []

/-- map.rs:369-373: the entry is taken out of a leaf that keeps enough entries. -/
def simpleErr (p : Pager K V) : List (Fault × Pager K V) :=
  [(.early, { p with md := { p.md with len := p.md.len - 1 } }), (.early, p.setLen (p.md.len - 1))]

/-- map.rs:299-371 and then 375-461: the rest of `remove` after the entry has been taken out of the leaf in memory. -/
def removeLeafErr (p : Pager K V) (page : Nat) (n : LNode K V) (found : Bool) : Stack K → List (Fault × Pager K V)
  | [] => if found then simpleErr p else []
  | (pp, pn, i) :: st =>
    if n.len < (p.md.leafDeg + 1) / 2 then
      let si := siblingIndex i
      match pn.ptrs[si]? with
      | none => []
      | some sp =>
        (.read, p) ::
        match p.getPage sp with
        | some (.leaf sn) =>
          if sn.len = (p.md.leafDeg + 1) / 2 then
            if si = i + 1 then
              match n.merge sn with
              | none => []
              | some n => mergeErr p sp page n pp pn i st
            else
              match sn.merge n with
              | none => []
              | some n => mergeErr p page sp n pp pn si st
          else if si = i + 1 then
            match sn.removeAt 0 with
            | none => []
            | some (sn, re) =>
              match sn.entries[0]? with
              | some (some ne) =>
                match store pn.keys i (some ne.1), n.insert re with
                | some ks, some (n, _) =>
                  borrowErr p pp (.internal { pn with keys := ks }) sp (.leaf sn) page (.leaf n)
                | _, _ => []
              | _ => []
          else
            match sn.removeAt (sn.len - 1) with
            | none => []
            | some (sn, re) =>
              match store pn.keys si (some re.1), n.insert re with
              | some ks, some (n, _) =>
                borrowErr p pp (.internal { pn with keys := ks }) sp (.leaf sn) page (.leaf n)
              | _, _ => []
        | _ => []
    else if found then simpleErr p else []

/-- map.rs:286-463 `remove`. -/
def removeErr (p : Pager K V) (k : K) : List (Fault × Pager K V) :=
  (.read, p) ::
  match search p k with
  | some (page, .leaf n, st) =>
    match n.remove k with
    | none => []
    | some (n, r) => removeLeafErr p page n r.isSome st
  | _ => []

/-- A call that ends with an error: the place of the failing operation and the state left behind.  The calls that only
read leave the map as it is; `len` and `is_empty` do not touch the file. -/
def stepErr (p : Pager K V) : MapOp K V → List (Fault × Pager K V)
  | .insert k v => insertErr p k v
  | .remove k => removeErr p k
  | .clear => p.clearErr.map fun q => (.torn, q)
  | .get _ | .containsKey _ | .min | .max | .iter => [(.read, p)]
  | .len | .isEmpty | .getMut _ _ | .floor _ | .ceil _ => []

end

end Verif.Bp
