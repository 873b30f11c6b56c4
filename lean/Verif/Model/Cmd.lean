import Verif.Model.Find
/-! # cmd/dupi: the commands on an open index

For flags, arguments and formatting see Model/Main and Model/Text; here a command is the function from its values to the
values it prints. -/

namespace Dupi.Cmd

/-! ## unblot -/

/-- a `map[string][]*dupi.Doc` -/
abbrev Groups := List (Bytes × List Doc)

/-- `m[k] = append(m[k], d)` -/
def Groups.add (m : Groups) (k : Bytes) (d : Doc) : Groups :=
  match m with
  | [] => [(k, [d])]
  | (k', ds) :: m => if k' = k then (k', ds ++ [d]) :: m else (k', ds) :: Groups.add m k d

/-- cmd/dupi/unblot.go:60-72: the loop over the documents; the second result counts warnings -/
def unblotLoop (u : Uni) (fs : Files) (c : Config) (hex : UInt32) : List Doc → Groups → Nat → M (Groups × Nat)
  | [], m, w => .ok (m, w)
  | doc :: docs, m, w =>
    match Index.findBlot u fs c hex doc with
    | .error (.err _) => unblotLoop u fs c hex docs m (w + 1)
    | .error f => .error f
    | .ok ((start, stop), doc) => do
      let dat ← slice (doc.dat.getD []) (start - doc.start).toNat (stop - doc.start).toNat
      unblotLoop u fs c hex docs (m.add dat { doc with dat := none }) w

/-- cmd/dupi/unblot.go:49-83 for one argument: the groups printed (in an unspecified order, as maps are
iterated over) and the number of warnings -/
def unblot (u : Uni) (fs : Files) (grow : Nat → Nat) (x : Index) (fuel : Nat) (q : QState) (all : Bool) (hex : UInt32) :
    M (Groups × Nat) := do
  let b ← Query.get grow x fuel q ⟨hex, none⟩
  let (m, w) ← unblotLoop u fs x.config hex b.vis [] 0
  return (m.filter fun g => all || 2 ≤ g.2.length, w)

/-! ## blot -/

/-- cmd/dupi/blot.go:78-86, with -offsets, from blot number `i` on -/
def blotOffsetsLoop (c : Config) (toks : List Tok) : Nat → List UInt32 → M (List (UInt32 × UInt32 × UInt32))
  | _, [] => .ok []
  | i, b :: bs => do
    let beg ← match toks[i]? with
      | none => panic'
      | some t => .ok t.pos
    let stop ← if (i : Int) + c.seqLen < 0 then panic' else match toks[((i : Int) + c.seqLen).toNat]? with
      | none => panic'
      | some t => .ok (t.pos + UInt32.ofNat t.lit.length)
    if Index.blotMod c = 0 then panic'
    else
      let rest ← blotOffsetsLoop c toks (i + 1) bs
      return (b % Index.blotMod c, beg, stop) :: rest

/-- cmd/dupi/blot.go:60-88 with -offsets: each blot with the range printed for it -/
def blotOffsets (u : Uni) (c : Config) (dat : Bytes) : M (List (UInt32 × UInt32 × UInt32)) := do
  let blots ← blotDoc u c [] dat 0
  c.tokenFunc
  let toks ← Token.tokenize u [] dat 0
  blotOffsetsLoop c toks 0 blots

/-- cmd/dupi/blot.go:60-88 without -offsets -/
def blots (u : Uni) (c : Config) (dat : Bytes) : M (List UInt32) := do
  let blots ← blotDoc u c [] dat 0
  if Index.blotMod c = 0 ∧ blots ≠ [] then panic'
  else return blots.map (· % Index.blotMod c)

/-! ## like -/

/-- cmd/dupi/like.go:95-100, from blot number `i` on; `toks` has the words at its front -/
def likeMap (c : Config) (dat : Bytes) (toks : List Tok) : Nat → List UInt32 → Index.Texts → M Index.Texts
  | _, [], m => .ok m
  | i, b :: bs, m => do
    let beg ← match toks[i]? with
      | none => panic'
      | some t => .ok t.pos
    let stop ← if (i : Int) + c.seqLen < 0 then panic' else match toks[((i : Int) + c.seqLen).toNat]? with
      | none => panic'
      | some t => .ok (t.pos + UInt32.ofNat t.lit.length)
    if Index.blotMod c = 0 then panic'
    else
      let txt ← slice dat beg.toNat stop.toNat
      likeMap c dat toks (i + 1) bs (m.set (b % Index.blotMod c) txt)

/-- cmd/dupi/like.go:59-69 -/
abbrev DocKey := Bytes × UInt32 × UInt32

def dkey (d : Doc) : DocKey := (d.path, d.start, d.stop)

/-- cmd/dupi/like.go:111-125: the documents of one blot.  `found` has the keys found so far (the map only
ever holds 1 for a key). -/
def likeDocs (u : Uni) (fs : Files) (c : Config) (bm : UInt32 → Option Bytes) : List Doc → List DocKey → M (List DocKey)
  | [], found => .ok found
  | d :: ds, found =>
    if dkey d ∈ found then likeDocs u fs c bm ds found
    else do
      let (rm, _) ← Index.findBlots u fs c bm d
      if rm.length = 0 then likeDocs u fs c bm ds found
      else likeDocs u fs c bm ds (found ++ [dkey d])

/-- cmd/dupi/like.go:103-126 -/
def likeLoop (u : Uni) (fs : Files) (grow : Nat → Nat) (x : Index) (fuel : Nat) (q : QState) (bm : UInt32 → Option Bytes) :
    List UInt32 → List DocKey → M (List DocKey)
  | [], found => .ok found
  | b :: bs, found =>
    if Index.blotMod x.config = 0 then panic'
    else do
      let db ← Query.get grow x fuel q ⟨b % Index.blotMod x.config, none⟩
      let found ← likeDocs u fs x.config bm db.vis found
      likeLoop u fs grow x fuel q bm bs found

/-- cmd/dupi/like.go:71-139: the keys printed, in an unspecified order -/
def like (u : Uni) (fs : Files) (grow : Nat → Nat) (x : Index) (fuel : Nat) (q : QState) (dat : Bytes) : M (List DocKey) := do
  let blots ← blotDoc u x.config [] dat 0
  x.config.tokenFunc
  let toks ← Token.tokenize u [] dat 0
  let bm ← likeMap x.config dat (compact toks) 0 blots []
  likeLoop u fs grow x fuel q bm.get blots []

/-! ## extract -/

/-- cmd/dupi/extract.go:68-123 for a threshold `N` (computed from floating point statistics): the blots
printed.  One unit of `k` for each call of Next.  With -json (`json`) the filter (cmd/dupi/extract.go:90-97) has no effect: `shape` is not cut. -/
def extractLoop (json : Bool) (grow : Nat → Nat) (x : Index) (ff fuel : Nat) (N : Int) : Nat → QState → Blot → M (List Blot)
  | 0, _, _ => .error .diverge
  | k + 1, q, b => do
    let r ← Query.next grow x ff fuel q [b]
    if r.eof then
      if r.n ≠ 0 then panic' else return []
    else if r.n = 0 then fail (.msg "Query.Next gave 0 and no error")
    else match r.dst[0]? with
      | none => panic'
      | some b =>
        if (b.len : Int) < N then return []
        else do
          let rest ← extractLoop json grow x ff fuel N k r.state { b with docs := none }
          return if b.len ≤ 1 ∧ json = false then rest else b :: rest

/-- cmd/dupi/extract.go:66-123: the blots printed -/
def extract (json : Bool) (grow : Nat → Nat) (x : Index) (ff fuel k : Nat) (N : Int) : M (List Blot) := do
  let q ← x.startQuery
  extractLoop json grow x ff fuel N k q ⟨0, none⟩

/-! ## index -/

/-- what reading a file leads to -/
inductive FileRead where
  | openFails
  | readFails
  | data (b : Bytes)

/-- A directory entry: a directory with its entries in the order `os.ReadDir` gives them (`none` if it cannot be read), or
something else. -/
inductive Node where
  | file (r : FileRead)
  | dir (entries : Option (List (Bytes × Node)))

/-- what a call of the walk function or of `walkDir` returned -/
inductive Walked where
  | ok
  | skipDir
  | err
deriving DecidableEq

/-- what the walk has done so far: documents added, and whether `*perr` was set -/
structure WalkSt where
  added : List Doc
  perr : Bool

/-- cmd/dupi/index.go:112: the test for hidden entries (".." is one) -/
def hidden (name : Bytes) : Bool := name.head? == some 46 && 1 < name.length

section
variable (join : Bytes → Bytes → Bytes) (addOk : Doc → Bool)

/-- cmd/dupi/index.go:122-136: a file that is not hidden.  `addOk`: whether Indexer.Add succeeds. -/
def addFile (path : Bytes) (s : WalkSt) : FileRead → Walked × WalkSt
  | .openFails => (.err, s)
  | .readFails => (.err, { s with perr := true })
  | .data dat =>
    let doc : Doc := ⟨path, 0, UInt32.ofNat dat.length, some dat⟩
    if addOk doc then (.ok, { s with added := s.added ++ [doc] }) else (.err, s)

mutual
/-- path/filepath `walkDir` (Go 1.17, library code) with the walk function of cmd/dupi/index.go:105-138 -/
def walk (path name : Bytes) (s : WalkSt) : Node → Walked × WalkSt
  | .file r => if hidden name then (.ok, s) else addFile addOk path s r
  | .dir es =>
    if hidden name then (.ok, s)
    else match es with
      | none => (.skipDir, { s with perr := true })
      | some es => walkAll path s es
/-- the loop of `walkDir` over the entries of a directory -/
def walkAll (path : Bytes) (s : WalkSt) : List (Bytes × Node) → Walked × WalkSt
  | [] => (.ok, s)
  | (n, node) :: es =>
    match walk (join path n) n s node with
    | (.ok, s) => walkAll path s es
    | (.skipDir, s) => (.ok, s)
    | (.err, s) => (.err, s)
end

/-- cmd/dupi/index.go:140-144 with `filepath.WalkDir`, whose result is dropped.  `root = none`: `os.Lstat` fails.
Returns whether there was an error, and the documents added. -/
def doPath (fpath name : Bytes) (root : Option Node) (added : List Doc) : Bool × List Doc :=
  match root with
  | none => (true, added)
  | some node =>
    let (_, s) := walk join addOk fpath name ⟨added, false⟩ node
    (s.perr, s.added)
end

end Dupi.Cmd
