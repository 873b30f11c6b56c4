import Verif.Model.Indexer
/-! # `doc2Id` called by several goroutines (indexer.go:246-253, fnames.go:71-105, dmd/adder.go:53-64)

`Model/Indexer` and `Model/Callers` make `doc2Id` one step.  Here it is a sequence of steps, each of them
a read or a write of memory the callers share: the slice `fnames.d`, its array, the maps of children, the
slice `Adder.buf`, its array, and `Adder.flushed`.  The steps of different callers may be interleaved.  The
interleavings here are some of those the program has: what is one step here need not be one in the program
(storing the header of a slice, `flush`, and operations on a map are single steps), and the memory is
sequentially consistent. -/

namespace Dupi.Race

/-- a slice that begins at the beginning of its array: which array, and the length -/
structure Slice where
  arr : Nat
  len : Nat
deriving DecidableEq, Repr

/-- fnames.go:28-32; `children` is `nil` or says which map it is -/
structure Node where
  parent : UInt32
  name : Bytes
  children : Option Nat
deriving DecidableEq, Repr

/-- the memory the callers share -/
structure Mem where
  /-- fnames.go:36 `d` -/
  d : Slice
  /-- the arrays of nodes, up to their capacities -/
  nodes : List (List Node)
  maps : List (List (Bytes × UInt32))
  /-- dmd/adder.go:28 `buf` -/
  buf : Slice
  /-- the arrays of records, up to their capacities -/
  recs : List (List Fields)
  /-- dmd/adder.go:26 -/
  flushed : UInt32
  /-- dmd/adder.go:27 -/
  flushRate : UInt32
  /-- the metadata file -/
  file : Option Bytes

/-- the array of a slice -/
def array {α : Type} (as : List (List α)) (s : Slice) : List α := as.getD s.arr []

/-- the elements of a slice -/
def elems {α : Type} (as : List (List α)) (s : Slice) : List α := (array as s).take s.len

/-- what `append` writes, `zero` being the zero value and `room` the elements beyond the length that a
new array gets: an element in place if there is capacity, or a new array -/
def appendWrite {α : Type} (zero : α) (room : Nat) (as : List (List α)) (s : Slice) (x : α) : List (List α) × Slice :=
  if s.len < (array as s).length then (as.set s.arr ((array as s).set s.len x), ⟨s.arr, s.len + 1⟩)
  else (as ++ [elems as s ++ x :: List.replicate room zero], ⟨as.length, s.len + 1⟩)

/-- where a call of `doc2Id` is; `ps` are the parts of the path still to be done (fnames.go:89) -/
inductive Pc where
  /-- at the top of the loop, fnames.go:89-91 -/
  | walk (parent : UInt32) (ps : List Bytes)
  /-- the node has no map, fnames.go:92-95 -/
  | make (parent : UInt32) (p : Bytes) (ps : List Bytes)
  /-- before `m[p]` is read, fnames.go:96 -/
  | look (parent : UInt32) (m : Nat) (p : Bytes) (ps : List Bytes)
  /-- before `len(s.d)` is read, fnames.go:98 -/
  | size (parent : UInt32) (m : Nat) (p : Bytes) (ps : List Bytes)
  /-- before `m[p] = child`, fnames.go:99 -/
  | note (parent : UInt32) (m : Nat) (child : UInt32) (p : Bytes) (ps : List Bytes)
  /-- before `append` reads the slice, fnames.go:100 -/
  | take (parent child : UInt32) (p : Bytes) (ps : List Bytes)
  /-- before `append` writes the node -/
  | put (parent child : UInt32) (p : Bytes) (ps : List Bytes) (s : Slice)
  /-- before the new slice is stored -/
  | store (child : UInt32) (ps : List Bytes) (s : Slice)
  /-- at the beginning of Adder.Add, dmd/adder.go:54-60 -/
  | flush (fid : UInt32)
  /-- before `len(t.buf)` is read again, dmd/adder.go:61 -/
  | count (fid : UInt32)
  /-- before `append` reads the slice, dmd/adder.go:62 -/
  | takeRec (fid n : UInt32)
  /-- before `append` writes the record -/
  | putRec (fid n : UInt32) (s : Slice)
  /-- before the new slice is stored -/
  | storeRec (n : UInt32) (s : Slice)
  /-- before `t.flushed` is read, dmd/adder.go:63 -/
  | result (n : UInt32)
  /-- returned -/
  | done (id : UInt32)
deriving DecidableEq

/-- the zero node -/
def Node.zero : Node := ⟨0, [], none⟩

/-- One step of a call for a document with these `start` and `stop`.  `room` is how much longer than needed
new arrays are. -/
def step (room : Nat) (start stop : UInt32) (x : Mem) : Pc → M (Mem × Pc)
  | .walk parent [] => .ok (x, .flush parent)
  | .walk parent (p :: ps) =>
    match (elems x.nodes x.d)[parent.toNat]? with
    | none => panic'
    | some n =>
      match n.children with
      | none => .ok (x, .make parent p ps)
      | some m => .ok (x, .look parent m p ps)
  | .make parent p ps =>
    match (elems x.nodes x.d)[parent.toNat]? with
    | none => panic'
    | some n => .ok ({ x with
        maps := x.maps ++ [[]]
        nodes := x.nodes.set x.d.arr ((array x.nodes x.d).set parent.toNat { n with children := some x.maps.length }) },
        .look parent x.maps.length p ps)
  | .look parent m p ps =>
    let child := Fnames.get (x.maps.getD m []) p
    .ok (x, if child = 0 then .size parent m p ps else .walk child ps)
  | .size parent m p ps => .ok (x, .note parent m (UInt32.ofNat x.d.len) p ps)
  | .note parent m child p ps => .ok ({ x with maps := x.maps.set m ((p, child) :: x.maps.getD m []) }, .take parent child p ps)
  | .take parent child p ps => .ok (x, .put parent child p ps x.d)
  | .put parent child p ps s =>
    let (as, s) := appendWrite Node.zero room x.nodes s ⟨parent, p, none⟩
    .ok ({ x with nodes := as }, .store child ps s)
  | .store child ps s => .ok ({ x with d := s }, .walk child ps)
  | .flush fid =>
    if UInt32.ofNat x.buf.len = x.flushRate then
      .ok ({ x with
        flushed := x.flushed + UInt32.ofNat x.buf.len
        file := some (x.file.getD [] ++ (elems x.recs x.buf).flatMap Dmd.encode)
        buf := ⟨x.buf.arr, 0⟩ }, .count fid)
    else .ok (x, .count fid)
  | .count fid => .ok (x, .takeRec fid (UInt32.ofNat x.buf.len))
  | .takeRec fid n => .ok (x, .putRec fid n x.buf)
  | .putRec fid n s =>
    let (as, s) := appendWrite Dmd.zeroFields room x.recs s ⟨fid, start, stop⟩
    .ok ({ x with recs := as }, .storeRec n s)
  | .storeRec n s => .ok ({ x with buf := s }, .result n)
  | .result n => .ok (x, .done (n + x.flushed))
  | .done id => .ok (x, .done id)

/-- where a call for `doc` begins: `filepath.Abs` and the splitting touch nothing shared (fnames.go:72-83) -/
def begin (cwd : Bytes) (doc : Doc) : Pc := .walk 0 (Fnames.pathParts (absPath cwd doc.path))

/-- the calls of several goroutines, one each: the documents and where they are -/
abbrev Calls := List (Doc × Pc)

/-- goroutine `i` makes a step -/
def stepOf (room : Nat) (s : Mem × Calls) (i : Nat) : M (Mem × Calls) :=
  match s.2[i]? with
  | none => .ok s
  | some (doc, pc) => do
    let (x, pc) ← step room doc.start doc.stop s.1 pc
    return (x, s.2.set i (doc, pc))

/-- the goroutines make steps in the order `σ` -/
def run (room : Nat) : Mem × Calls → List Nat → M (Mem × Calls)
  | s, [] => .ok s
  | s, i :: σ => do
    let s ← stepOf room s i
    run room s σ

/-- the calls begin -/
def start (cwd : Bytes) (docs : List Doc) : Calls := docs.map fun doc => (doc, begin cwd doc)

end Dupi.Race
