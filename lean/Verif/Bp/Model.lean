/- Model of `bp_tree/pager.rs` and `bp_tree/map.rs`: the page file and the operations of `BpMap`.

Simplifications.  A page holds a node or (right after the file has grown) nothing readable; reading and writing a
node is exact, that is, (de)serialisation with bincode is taken to be the identity (the byte sizes are the subject of
`Verif/Bp/Bytes.lean`).  I/O errors are the subject of `Verif/Bp/Faults.lean`.  `validate_key`/`validate_value` (pager.rs:318-334) are taken to
succeed.  `none` is a panic (or the loss of a fuel-bounded loop). -/
import Verif.Bp.Node

namespace Verif.Bp

variable {K V : Type}

/-- pager.rs:58-68 `Metadata` without the byte sizes of keys and values. -/
structure Meta where
  pages : Nat
  len : Nat
  root : Nat
  leafDeg : Nat
  intDeg : Nat
  free : Option Nat
  deriving DecidableEq

/-- The database file: the header and the pages behind it. -/
structure Disk (K V : Type) where
  hdr : Meta
  pages : List (Option (Node K V))
  deriving DecidableEq

/-- pager.rs:70-74 `Pager`.  `trace` is a ghost: the states that the file has gone through, one per `write_all` or
`set_len` call, oldest first. -/
structure Pager (K V : Type) where
  md : Meta
  disk : Disk K V
  trace : List (Disk K V)
  deriving DecidableEq

namespace Pager

/-- The file becomes `d`. -/
def put (p : Pager K V) (d : Disk K V) : Pager K V := { p with disk := d, trace := p.trace ++ [d] }

/-- Writing the serialised metadata at the start of the file (pager.rs:183-187 and elsewhere). -/
def writeHdr (p : Pager K V) : Pager K V := p.put { p.disk with hdr := p.md }

/-- pager.rs:279-290 `write_node`.  A write beyond the end of the file is `none`. -/
def writeNode (p : Pager K V) (i : Nat) (n : Node K V) : Option (Pager K V) :=
  if i < p.disk.pages.length then some (p.put { p.disk with pages := p.disk.pages.set i (some n) }) else none

/-- `File::set_len` to hold `n` pages. -/
def setFileLen (p : Pager K V) (n : Nat) : Pager K V :=
  p.put { p.disk with pages := p.disk.pages.take n ++ List.replicate (n - p.disk.pages.length) none }

/-- pager.rs:77-124 `Pager::new`. -/
def new (leafDeg intDeg : Nat) : Pager K V :=
  let md : Meta := ⟨1, 0, 0, leafDeg, intDeg, none⟩
  ⟨md, ⟨md, [some (.leaf (LNode.new leafDeg))]⟩, []⟩

/-- pager.rs:126-146 `Pager::open`: everything is read back from the file. -/
def openFile (d : Disk K V) : Pager K V := ⟨d.hdr, d, []⟩

/-- pager.rs:181-188 `set_len`. -/
def setLen (p : Pager K V) (n : Nat) : Pager K V := writeHdr { p with md := { p.md with len := n } }

/-- pager.rs:194-201 `set_root_page`. -/
def setRoot (p : Pager K V) (r : Nat) : Pager K V := writeHdr { p with md := { p.md with root := r } }

/-- pager.rs:203-213 `get_page`. -/
def getPage (p : Pager K V) (i : Nat) : Option (Node K V) :=
  match p.disk.pages[i]? with
  | some (some n) => some n
  | _ => none

/-- pager.rs:215-258 `allocate_node`. -/
def allocate (p : Pager K V) (n : Node K V) : Option (Pager K V × Nat) :=
  match p.md.free with
  | none =>
    let p := { p with md := { p.md with pages := p.md.pages + 1 } }
    let p := p.setFileLen p.md.pages
    match p.writeNode (p.md.pages - 1) n with
    | none => none
    | some p => some (p.writeHdr, p.md.pages - 1)
  | some f =>
    match p.getPage f with
    | some (.free nf) =>
      match p.writeNode f n with
      | none => none
      | some p => some (writeHdr { p with md := { p.md with free := nf } }, f)
    | _ => none

/-- pager.rs:260-277 `deallocate_node`. -/
def deallocate (p : Pager K V) (i : Nat) : Option (Pager K V) :=
  match p.writeNode i (.free p.md.free) with
  | none => none
  | some p => some (writeHdr { p with md := { p.md with free := some i } })

/-- pager.rs:292-316 `Pager::clear`. -/
def clear (p : Pager K V) : Option (Pager K V) :=
  let p := { p with md := { p.md with pages := 1, len := 0, root := 0, free := none } }
  (writeHdr (p.setFileLen 1)).writeNode 0 (.leaf (LNode.new p.md.leafDeg))

end Pager

/-- map.rs:104-126 `with_degrees` and 69-85 `new` (the latter computes the degrees, see `Verif/Bp/Bytes.lean`). -/
def new (leafDeg intDeg : Nat) : Pager K V := Pager.new leafDeg intDeg

/-- map.rs:149-168: an entry of the search stack: page, node and the index of the child taken. -/
abbrev Stack (K : Type) := List (Nat × INode K × Nat)

section
variable [LinearOrder K]

/-- map.rs:149-168 `search_node`: page and node reached, and the stack, top first.  The first argument bounds the
rounds. -/
def searchNode (p : Pager K V) (key : K) : Nat → Nat → Stack K → Option (Nat × Node K V × Stack K)
  | 0, _, _ => none
  | f + 1, page, st =>
    match p.getPage page with
    | none => none
    | some (.internal n) =>
      match n.search key with
      | none => none
      | some i =>
        match n.ptrs[i]? with
        | none => none
        | some q => searchNode p key f q ((page, n, i) :: st)
    | some n => some (page, n, st)

/-- map.rs:155-156: a search from the root. -/
def search (p : Pager K V) (key : K) : Option (Nat × Node K V × Stack K) :=
  searchNode p key (p.disk.pages.length + 1) p.md.root []

/-- map.rs:206-228, the leaf part of `insert`: the key and page of a new sibling, or the entry replaced. -/
def insertLeaf (p : Pager K V) (page : Nat) (n : LNode K V) (e : K × V) :
    Option (Pager K V × Option (K × Nat) × Option (K × V)) :=
  match n.insert e with
  | none => none
  | some (n, .split k s) =>
    match p.allocate (.leaf s) with
    | none => none
    | some (p, q) => (p.writeNode page (.leaf { n with next := some q })).map fun p => (p, some (k, q), none)
  | some (n, .entry o) => (p.writeNode page (.leaf n)).map fun p => (p, none, some o)
  | some (n, .done) => (p.writeNode page (.leaf n)).map fun p => (p, none, none)

/-- map.rs:230-260, the loop of `insert` that goes up the tree; `page` is `curr_page`. -/
def insertUp (p : Pager K V) (page : Nat) : Stack K → Option (K × Nat) → Option (Pager K V)
  | _, none => some p
  | [], some (k, q) =>
    let r : INode K := INode.new p.md.intDeg
    match r.keys, r.ptrs with
    | _ :: ks, _ :: _ :: ps =>
      match p.allocate (.internal ⟨1, some k :: ks, page :: q :: ps⟩) with
      | none => none
      | some (p, r) => some (p.setRoot r)
    | _, _ => none
  | (pp, n, _) :: st, some (k, q) =>
    match n.insert k q with
    | none => none
    | some (n, none) => p.writeNode pp (.internal n)
    | some (n, some (k2, s)) =>
      match p.allocate (.internal s) with
      | none => none
      | some (p, q2) =>
        match p.writeNode pp (.internal n) with
        | none => none
        | some p => insertUp p pp st (some (k2, q2))

/-- map.rs:196-264 `insert`. -/
def insert (p : Pager K V) (k : K) (v : V) : Option (Pager K V × Option (K × V)) :=
  match search p k with
  | some (page, .leaf n, st) =>
    match insertLeaf p page n (k, v) with
    | none => none
    | some (p, _, some o) => some (p, some o)
    | some (p, s, none) =>
      match insertUp p page st s with
      | none => none
      | some p => some (p.setLen (p.md.len + 1), none)
  | _ => none

/-- map.rs:308-314 and 388-394. -/
def siblingIndex (i : Nat) : Nat := if i = 0 then i + 1 else i - 1

/-- Store into a slot that must exist, `arr[i] = x`. -/
def store {α : Type} (l : List α) (i : Nat) (x : α) : Option (List α) := if i < l.length then some (l.set i x) else none

/-- map.rs:375-461, the loop of `remove` that goes up the tree, after `remove_at` (line 377): `page` and `n` are
`curr_page` and `curr_node`. -/
def removeUp (p : Pager K V) (page : Nat) (n : INode K) : Stack K → Option (Pager K V)
  | [] =>
    if n.len + 1 < (p.md.intDeg + 1) / 2 then
      if n.len = 0 then
        match n.ptrs[0]? with
        | none => none
        | some r => (p.setRoot r).deallocate page
      else p.writeNode page (.internal n)
    else p.writeNode page (.internal n)
  | (pp, pn, i) :: st =>
    if n.len + 1 < (p.md.intDeg + 1) / 2 then
      let si := siblingIndex i
      match pn.ptrs[si]? with
      | none => none
      | some sp =>
        match p.getPage sp with
        | some (.internal sn) =>
          if sn.len + 1 = (p.md.intDeg + 1) / 2 then
            if si = i + 1 then
              match pn.keys[i]? with
              | some (some pk) =>
                match n.merge pk sn, p.deallocate sp with
                | some n, some p =>
                  match p.writeNode page (.internal n), pn.removeAt i true with
                  | some p, some (pn, _, _) => removeUp p pp pn st
                  | _, _ => none
                | _, _ => none
              | _ => none
            else
              match pn.keys[si]? with
              | some (some pk) =>
                match sn.merge pk n, p.deallocate page with
                | some sn, some p =>
                  match p.writeNode sp (.internal sn), pn.removeAt si true with
                  | some p, some (pn, _, _) => removeUp p pp pn st
                  | _, _ => none
                | _, _ => none
              | _ => none
          else if si = i + 1 then
            match sn.removeAt 0 false, pn.keys[i]? with
            | some (sn, rk, rp), some (some pk) =>
              match n.insert pk rp with
              | none => none
              | some (n, _) =>
                match p.writeNode pp (.internal { pn with keys := pn.keys.set i (some rk) }) with
                | none => none
                | some p =>
                  match p.writeNode sp (.internal sn) with
                  | none => none
                  | some p => p.writeNode page (.internal n)
            | _, _ => none
          else
            match sn.removeAt (sn.len - 1) true, pn.keys[si]? with
            | some (sn, rk, rp), some (some pk) =>
              match n.insertFirst pk rp with
              | none => none
              | some n =>
                match p.writeNode pp (.internal { pn with keys := pn.keys.set si (some rk) }) with
                | none => none
                | some p =>
                  match p.writeNode sp (.internal sn) with
                  | none => none
                  | some p => p.writeNode page (.internal n)
            | _, _ => none
        | _ => none
    else p.writeNode page (.internal n)

/-- map.rs:299-371 and then 375-461: the rest of `remove` after the entry has been taken out of the leaf `n` in
memory; `found` is `ret.is_some()`. -/
def removeLeaf (p : Pager K V) (page : Nat) (n : LNode K V) (found : Bool) : Stack K → Option (Pager K V)
  | [] =>
    if found then (p.setLen (p.md.len - 1)).writeNode page (.leaf n) else some p
  | (pp, pn, i) :: st =>
    if n.len < (p.md.leafDeg + 1) / 2 then
      let si := siblingIndex i
      match pn.ptrs[si]? with
      | none => none
      | some sp =>
        match p.getPage sp with
        | some (.leaf sn) =>
          if sn.len = (p.md.leafDeg + 1) / 2 then
            if si = i + 1 then
              match n.merge sn, p.deallocate sp with
              | some n, some p =>
                match p.writeNode page (.leaf n), pn.removeAt i true with
                | some p, some (pn, _, _) => removeUp (p.setLen (p.md.len - 1)) pp pn st
                | _, _ => none
              | _, _ => none
            else
              match sn.merge n, p.deallocate page with
              | some sn, some p =>
                match p.writeNode sp (.leaf sn), pn.removeAt si true with
                | some p, some (pn, _, _) => removeUp (p.setLen (p.md.len - 1)) pp pn st
                | _, _ => none
              | _, _ => none
          else if si = i + 1 then
            match sn.removeAt 0 with
            | none => none
            | some (sn, re) =>
              match sn.entries[0]? with
              | some (some ne) =>
                match store pn.keys i (some ne.1), n.insert re with
                | some ks, some (n, _) =>
                  match p.writeNode pp (.internal { pn with keys := ks }) with
                  | none => none
                  | some p =>
                    match p.writeNode sp (.leaf sn) with
                    | none => none
                    | some p =>
                      match p.writeNode page (.leaf n) with
                      | none => none
                      | some p => some (p.setLen (p.md.len - 1))
                | _, _ => none
              | _ => none
          else
            match sn.removeAt (sn.len - 1) with
            | none => none
            | some (sn, re) =>
              match store pn.keys si (some re.1), n.insert re with
              | some ks, some (n, _) =>
                match p.writeNode pp (.internal { pn with keys := ks }) with
                | none => none
                | some p =>
                  match p.writeNode sp (.leaf sn) with
                  | none => none
                  | some p =>
                    match p.writeNode page (.leaf n) with
                    | none => none
                    | some p => some (p.setLen (p.md.len - 1))
              | _, _ => none
        | _ => none
    else if found then (p.setLen (p.md.len - 1)).writeNode page (.leaf n) else some p

/-- map.rs:286-463 `remove`.  (In memory `remove_at` of the parent, line 377, happens after the length is written;
it does not touch the file.) -/
def remove (p : Pager K V) (k : K) : Option (Pager K V × Option (K × V)) :=
  match search p k with
  | some (page, .leaf n, st) =>
    match n.remove k with
    | none => none
    | some (n, r) => (removeLeaf p page n r.isSome st).map fun p => (p, r)
  | _ => none

/-- map.rs:513-526 `get`. -/
def get (p : Pager K V) (k : K) : Option (Option V) :=
  match search p k with
  | some (_, .leaf n, _) =>
    match n.search k with
    | none => none
    | some none => some none
    | some (some i) =>
      match n.entries[i]? with
      | none => none
      | some e => some (e.map Prod.snd)
  | _ => none

end

/-- map.rs:626-629 and 717-720: the leftmost leaf.  The first argument bounds the rounds. -/
def leftmost (p : Pager K V) : Nat → Nat → Option (LNode K V)
  | 0, _ => none
  | f + 1, page =>
    match p.getPage page with
    | some (.internal n) =>
      match n.ptrs[0]? with
      | none => none
      | some q => leftmost p f q
    | some (.leaf n) => some n
    | _ => none

/-- map.rs:666-669: the rightmost leaf. -/
def rightmost (p : Pager K V) : Nat → Nat → Option (LNode K V)
  | 0, _ => none
  | f + 1, page =>
    match p.getPage page with
    | some (.internal n) =>
      match n.ptrs[n.len]? with
      | none => none
      | some q => rightmost p f q
    | some (.leaf n) => some n
    | _ => none

/-- map.rs:618-637 `min`. -/
def min (p : Pager K V) : Option (Option K) :=
  match leftmost p (p.disk.pages.length + 1) p.md.root with
  | none => none
  | some n =>
    match n.entries[0]? with
    | none => none
    | some e => some (e.map Prod.fst)

/-- map.rs:658-683 `max`. -/
def max (p : Pager K V) : Option (Option K) :=
  match rightmost p (p.disk.pages.length + 1) p.md.root with
  | none => none
  | some n =>
    if n.len = 0 then some none
    else
      match n.entries[n.len - 1]? with
      | none => none
      | some e => some (e.map Prod.fst)

/-- map.rs:749-753 `BpMapIterMut`. -/
structure Iter (K V : Type) where
  node : LNode K V
  index : Nat

/-- map.rs:709-730 `iter_mut`. -/
def iterNew (p : Pager K V) : Option (Iter K V) :=
  (leftmost p (p.disk.pages.length + 1) p.md.root).map fun n => ⟨n, 0⟩

/-- map.rs:781-784. -/
def Iter.take (it : Iter K V) : Option (Iter K V × Option (K × V)) :=
  match it.node.entries[it.index]? with
  | none => none
  | some e => some (⟨{ it.node with entries := it.node.entries.set it.index none }, it.index + 1⟩, e)

/-- map.rs:762-785 `next`. -/
def Iter.next (p : Pager K V) (it : Iter K V) : Option (Iter K V × Option (K × V)) :=
  if it.node.len ≤ it.index then
    match it.node.next with
    | some q =>
      match p.getPage q with
      | some (.leaf n) => Iter.take ⟨n, 0⟩
      | _ => none
    | none => some (it, none)
  else it.take

/-- All that the iterator yields until its first `None`.  The first argument bounds the number of calls. -/
def Iter.drain (p : Pager K V) : Nat → Iter K V → Option (List (K × V))
  | 0, _ => none
  | f + 1, it =>
    match it.next p with
    | none => none
    | some (_, none) => some []
    | some (it, some e) => (Iter.drain p f it).map (e :: ·)

/-- A loop over `iter_mut`; there are at most `pages * leaf_degree` entries. -/
def toList (p : Pager K V) : Option (List (K × V)) :=
  match iterNew p with
  | none => none
  | some it => it.drain p (p.disk.pages.length * p.md.leafDeg + 1)

end Verif.Bp
