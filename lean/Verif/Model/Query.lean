import Verif.Model.Indexer
/-! # index.go, query.go, blot.go: reading an index -/

namespace Dupi

/-- index.go:31-37 (without the lock; `dmd` is the contents of the metadata file) -/
structure Index where
  config : Config
  dmd : Bytes
  fnames : Fnames.Table
  shards : List ShardIndex

namespace Index

/-- index.go:68-74: opening shards `i`, `i+1`, ... (errors are wrapped) -/
def openShards (srt : Sorter) (d : Dir) : Nat → Nat → M (List ShardIndex)
  | 0, _ => .ok []
  | n + 1, i => do
    let iix ← d.read (.iix i)
    -- the posting file is opened after the other was read
    let es ← ShardIndex.readIix ShardIndexer.nBlots iix
    let post ← d.read (.pos i)
    let x : ShardIndex := ⟨0, es.map Prod.fst, es.map Prod.snd, srt (es.map Prod.snd), post⟩
    let xs ← openShards srt d n (i + 1)
    return x :: xs

/-- index.go:39-76 (locking: see Model/Lock; opening a file and reading it later are one step) -/
def «open» (J : CfgCodec) (srt : Sorter) (d : Dir) : M Index := do
  let c ← Config.readFrom J d
  let dmd ← d.read .dmd
  let fnm ← d.read .fnm
  let t ← Fnames.read fnm
  if c.numShards < 0 then panic'
  else
    let xs ← openShards srt d c.numShards.toNat 0
    return ⟨c, dmd, t, xs⟩

/-- index.go:290-299: the path, start and end of a document -/
def docid2Doc (x : Index) (did : UInt32) : M (Bytes × UInt32 × UInt32) :=
  match Dmd.lookup x.dmd did with
  | .error (.err e) => fail (.wrap "docid2Doc" e)
  | .error f => .error f
  | .ok r => do
    let p ← Fnames.abs x.fnames r.fid
    return (p, r.start, r.stop)

/-- stats.go; the mean and the deviation, floating point numbers, are not modelled -/
structure Stats where
  numDocs : Nat
  numPaths : Nat
  numPosts : Nat
  numBlots : Nat
deriving DecidableEq, Repr

/-- index.go:100-114 (sums below 2^64) -/
def stats (x : Index) : Stats :=
  ⟨Dmd.numDocs x.dmd, x.fnames.length, (x.shards.map ShardIndex.numPosts).sum, 65536 * x.shards.length⟩

end Index

/-- A non-nil Go slice of documents: the elements up to its length, and those between its length and
its capacity. -/
structure DocSlice where
  vis : List Doc
  spare : List Doc
deriving DecidableEq, Repr

/-- blot.go:30-33; `docs = none` is the nil slice -/
structure Blot where
  blot : UInt32
  docs : Option DocSlice
deriving DecidableEq, Repr

/-- the zero value -/
def Doc.zero : Doc := ⟨[], 0, 0, none⟩

namespace Blot

/-- `len(b.Docs)`, blot.go:43-45 -/
def len (b : Blot) : Nat :=
  match b.docs with
  | none => 0
  | some s => s.vis.length

/-- `cap(b.Docs)`, blot.go:39-41 -/
def cap (b : Blot) : Nat :=
  match b.docs with
  | none => 0
  | some s => s.vis.length + s.spare.length

/-- the documents a caller sees -/
def vis (b : Blot) : List Doc :=
  match b.docs with
  | none => []
  | some s => s.vis

/-- blot.go:47-55.  `grow n` is the number of unused elements after `append` had to make a new array
for a slice of length `n`: the allocator's choice. -/
def next (grow : Nat → Nat) (lim : Bool) (b : Blot) : M Blot :=
  match lim, b.docs with
  | true, none => panic'
  | true, some ⟨_, []⟩ => panic'
  | true, some ⟨v, d :: ds⟩ => .ok { b with docs := some ⟨v ++ [d], ds⟩ }
  | false, none => .ok { b with docs := some ⟨[Doc.zero], List.replicate (grow 0) Doc.zero⟩ }
  | false, some ⟨v, []⟩ => .ok { b with docs := some ⟨v ++ [Doc.zero], List.replicate (grow v.length) Doc.zero⟩ }
  | false, some ⟨v, _ :: ds⟩ => .ok { b with docs := some ⟨v ++ [Doc.zero], ds⟩ }

/-- assigning path, start and end of the last document (the pointer `Next` returned), index.go:295-297 -/
def setLast (b : Blot) (r : Bytes × UInt32 × UInt32) : Blot :=
  match b.docs with
  | none => b
  | some ⟨v, s⟩ =>
    match v.getLast? with
    | none => b
    | some d => { b with docs := some ⟨v.dropLast ++ [{ d with path := r.1, start := r.2.1, stop := r.2.2 }], s⟩ }

end Blot

/-- query.go:26-31 -/
structure QState where
  shardStates : List (Option ReadState)
  i : UInt32
  n : UInt32
  nilCount : UInt32
deriving DecidableEq, Repr

namespace QState

/-- query.go:34-43: the loop of setMax, from position `k` on -/
def maxLoop : List (Option ReadState) → Nat → UInt32 → UInt32 → UInt32
  | [], _, _, p => p
  | none :: ss, k, m, p => maxLoop ss (k + 1) m p
  | some s :: ss, k, m, p => if s.total > m then maxLoop ss (k + 1) s.total (UInt32.ofNat k) else maxLoop ss (k + 1) m p

/-- query.go:33-45 -/
def setMax (s : QState) : QState := { s with i := maxLoop s.shardStates 0 0 0 }

end QState

namespace Index

/-- index.go:281-285: the initial read states -/
def initStates : List ShardIndex → M (List (Option ReadState))
  | [] => .ok []
  | x :: xs => do
    let s ← x.readStateAt 0
    let ss ← initStates xs
    return some s :: ss

/-- index.go:269-288 (the strategy is not used) -/
def startQuery (x : Index) : M QState := do
  let ss ← initStates x.shards
  return QState.setMax ⟨ss, 0, UInt32.ofNat x.shards.length, 0⟩

end Index

/-! The methods of `Query` (query.go:57-61).  What they do not change: the index, `x`. -/
namespace Query

/-- query.go:73-87: the loop of Get.  One unit of fuel for each pass. -/
def getLoop (grow : Nat → Nat) (x : Index) (lim : Bool) : Nat → ReadState → Blot → M Blot
  | 0, _, _ => .error .diverge
  | fuel + 1, rs, b =>
    if lim && b.len == b.cap then .ok b
    else match rs.next with
      | .error (.err .eof) => .ok b
      | .error f => .error f
      | .ok (docid, rs) => do
        -- `blot.Next` is evaluated before `docid2Doc` runs
        let b ← b.next grow lim
        match x.docid2Doc docid with
        | .error (.err e) => fail (.wrap "internal error docid2Doc" e)
        | .error f => .error f
        | .ok r => getLoop grow x lim fuel rs (b.setLast r)

/-- query.go:63-88 (division by zero when there are no shards) -/
def get (grow : Nat → Nat) (x : Index) (fuel : Nat) (q : QState) (b : Blot) : M Blot :=
  if q.n = 0 then panic'
  else
    match x.shards[(b.blot % q.n).toNat]? with
    | none => panic'
    | some sh => do
      let rs ← sh.readStateFor (b.blot / q.n).toUInt16.toNat
      getLoop grow x b.docs.isSome fuel rs b

/-- query.go:155-168 -/
def advance (x : Index) (q : QState) (src : ReadState) (pos : UInt32) : M QState := do
  let rs ← if src.at_ = 65535 then pure none
    else if src.total ≤ 1 then pure none
    else match x.shards[pos.toNat]? with
      | none => panic'
      | some sh => (sh.readStateAt (src.at_ + 1)).map some
  if pos.toNat < q.shardStates.length then
    return QState.setMax { q with shardStates := q.shardStates.set pos.toNat rs }
  else panic'

/-- query.go:138-152: the loop of fillBlot; `src` is the object `shardStates[srcPos]` points to, and is
written back there when the loop ends because the slice is full. -/
def fillLoop (grow : Nat → Nat) (x : Index) (q : QState) (srcPos : UInt32) (lim : Bool) : Nat → ReadState → Blot → M (Blot × QState)
  | 0, _, _ => .error .diverge
  | fuel + 1, src, b =>
    if !lim || b.len < b.cap then
      match src.next with
      | .error (.err .eof) => do
        let q ← advance x q src srcPos
        return (b, q)
      | .error f => .error f
      | .ok (docid, src) => do
        let b ← b.next grow lim
        let r ← x.docid2Doc docid
        fillLoop grow x q srcPos lim fuel src (b.setLast r)
    else .ok (b, { q with shardStates := q.shardStates.set srcPos.toNat (some src) })

/-- query.go:129-153 -/
def fillBlot (grow : Nat → Nat) (x : Index) (fuel : Nat) (q : QState) (dst : Blot) (src : ReadState) (srcPos : UInt32) :
    M (Blot × QState) :=
  let dst := { dst with blot := UInt32.ofNat src.blot * q.n + q.i }
  fillLoop grow x q srcPos dst.docs.isSome fuel src dst

/-- What `Next` leaves: the number of blots filled in, whether it returned `io.EOF`, the slice, and
the state of the query. -/
structure NextResult where
  n : Nat
  eof : Bool
  dst : List Blot
  state : QState

/-- query.go:115-123: give up a blot with at most one document -/
def dropBlot (lim : Bool) (b : Blot) : Blot :=
  match lim, b.docs with
  | true, some s => { b with docs := some ⟨[], s.vis ++ s.spare⟩ }
  | _, _ => { b with docs := none }

/-- query.go:90-127; `n` blots are filled in.  One unit of fuel for each pass, and `ff` for each
call of fillBlot. -/
def nextLoop (grow : Nat → Nat) (x : Index) (ff : Nat) : Nat → QState → Nat → List Blot → M NextResult
  | 0, _, _, _ => .error .diverge
  | fuel + 1, q, n, dst =>
    match dst[n]? with
    | none => .ok ⟨n, false, dst, q⟩
    | some b =>
      match q.shardStates[q.i.toNat]? with
      | none => panic'
      | some none =>
        let q := { q with nilCount := q.nilCount + 1 }
        if q.nilCount = q.n then .ok ⟨n, n == 0, dst, q⟩
        else
          let i := q.i + 1
          nextLoop grow x ff fuel { q with i := if i = q.n then 0 else i } n dst
      | some (some src) => do
        let (b', q) ← fillBlot grow x ff q b src q.i
        if b'.len ≤ 1 then
          let q ← advance x q src q.i
          nextLoop grow x ff fuel q n (dst.set n (dropBlot b.docs.isSome b'))
        else nextLoop grow x ff fuel q (n + 1) (dst.set n b')

/-- query.go:90-127 -/
def next (grow : Nat → Nat) (x : Index) (ff fuel : Nat) (q : QState) (dst : List Blot) : M NextResult :=
  nextLoop grow x ff fuel q 0 dst

end Query
end Dupi
