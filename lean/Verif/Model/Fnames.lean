import Verif.Model.Path
/-! # The path table (fnames.go) -/

namespace Dupi

/-- fnames.go:28-32.  `children` is a Go map: an association list where the first entry for a
key counts; a missing key reads as 0, `nil` and empty maps are not distinguished. -/
structure Fname where
  parent : UInt32
  name : Bytes
  children : List (Bytes × UInt32)
deriving Repr, DecidableEq

namespace Fnames

/-- the zero value of `fname` -/
def zero : Fname := ⟨0, [], []⟩

/-- fnames.go:35-43: the table is the slice `d`; a new one holds one zero node, the root. -/
abbrev Table := List Fname

/-- fnames.go:39-43 -/
def newFnames : Table := [zero]

/-- `m[p]` of a `map[string]uint32` -/
def get (m : List (Bytes × UInt32)) (p : Bytes) : UInt32 := (m.lookup p).getD 0

/-- fnames.go:55-60: walk up to the root, collecting names (in walking order).  The walk need
not end on a damaged table, hence the fuel. -/
def absLoop (d : Table) : Nat → Nat → List Bytes → M (List Bytes)
  | 0, _, _ => .error .diverge
  | fuel + 1, i, parts =>
    match d[i]? with
    | none => panic'
    | some n => if i = 0 then .ok parts else absLoop d fuel n.parent.toNat (parts ++ [n.name])

/-- fnames.go:65: `parts[i], parts[N-i] = parts[N-i], parts[i]` (after `N--`) -/
def swap (n : Nat) (parts : List Bytes) (i : Nat) : List Bytes :=
  (parts.set i (parts.getD (n - i) [])).set (n - i) (parts.getD i [])

/-- fnames.go:61-66: the loop reversing `parts` in place -/
def revInPlace (parts : List Bytes) : List Bytes :=
  (List.range (parts.length / 2)).foldl (swap (parts.length - 1)) parts

/-- fnames.go:54-69 -/
def abs (d : Table) (v : UInt32) : M Bytes := do
  let parts ← absLoop d (d.length + 1) v.toNat []
  return sep :: joinSlash (revInPlace parts)

/-- fnames.go:89-103, one pass of the loop per element of `parts` -/
def addParts (d : Table) (parent : UInt32) : List Bytes → M (UInt32 × Table)
  | [] => .ok (parent, d)
  | p :: ps =>
    match d[parent.toNat]? with
    | none => panic'
    | some n =>
      let child := get n.children p
      if child = 0 then
        let child := UInt32.ofNat d.length
        let d := d.set parent.toNat { n with children := (p, child) :: n.children }
        addParts (d ++ [⟨parent, p, []⟩]) child ps
      else addParts d child ps

/-- fnames.go:80-83 -/
def pathParts (abs : Bytes) : List Bytes :=
  match splitSlash abs with
  | [] => []
  | p :: ps => if p = [] then ps else p :: ps

/-- fnames.go:71-105 (`filepath.Abs` only fails when `os.Getwd` does: not modelled) -/
def addPath (cwd : Bytes) (d : Table) (path : Bytes) : M (UInt32 × Table) :=
  addParts d 0 (pathParts (absPath cwd path))

/-- consecutive `addPath`s -/
def addAll (cwd : Bytes) (d : Table) : List Bytes → M (List UInt32 × Table)
  | [] => .ok ([], d)
  | p :: ps => do
    let (id, d) ← addPath cwd d p
    let (ids, d) ← addAll cwd d ps
    return (id :: ids, d)

/-- fnames.go:107-116 -/
def readUvarint32 (r : Bytes) : M (UInt32 × Bytes) := do
  let (v, r) ← readUvarint r
  if v % 2 ^ 32 ≠ v then fail (.msg "overflow 32bit varint")
  else return (UInt32.ofNat v, r)

/-- fnames.go:130-154: the loop over `i`; `n` nodes remain to be read -/
def readLoop : Nat → Nat → Table → Bytes → M (Table × Bytes)
  | 0, _, d, r => .ok (d, r)
  | n + 1, i, d, r => do
    let (v, r) ← readUvarint32 r
    let (name, r) ← readFull r v.toNat
    let (parent, r) ← readUvarint32 r
    let d := d.set i { d.getD i zero with name := name, parent := parent }
    match d[parent.toNat]? with
    | none => panic'
    | some pn =>
      readLoop n (i + 1)
        (d.set parent.toNat { pn with children := (name, UInt32.ofNat i) :: pn.children }) r

/-- fnames.go:118-156 (the reader's remaining bytes are dropped) -/
def read (r : Bytes) : M Table := do
  let (v, r) ← readUvarint32 r
  let (d, _) ← readLoop v.toNat 0 (List.replicate v.toNat zero) r
  return d

/-- fnames.go:158-163 -/
def writeUvarint32 (v : UInt32) : Bytes := putUvarint v.toNat

/-- fnames.go:171-183 -/
def writeNode (n : Fname) : Bytes :=
  writeUvarint32 (UInt32.ofNat n.name.length) ++ n.name ++ writeUvarint32 n.parent

/-- fnames.go:165-186 (write errors are not modelled) -/
def write (d : Table) : Bytes :=
  writeUvarint32 (UInt32.ofNat d.length) ++ d.flatMap writeNode

end Fnames
end Dupi
