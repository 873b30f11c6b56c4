import Verif.Model.Crash
/-! # An index that is open for reading while its files change

`OpenIndex` reads the configuration, the path table and the tables of the shards into memory (index.go:52-74,
internal/shard/index.go:35-46); the metadata file and the posting files stay open and are read at each use.  Here
`m t` is the directory at the moment of the `t`-th of these reads; `m` may take any values, so that all ways
in which the reads can fall between the writes of another process are covered.  The functions are those of
Model/Poster and Model/Query except for the contents read. -/

namespace Dupi

/-- internal/shard/posts.go:54-66; the byte number `k` of the varint is read at moment `k` -/
def readVarintAtLoopL (fs : Nat → Bytes) (p : Int) : Nat → Bytes → M Bytes
  | 0, _ => fail (.msg "read varint overflow")
  | fuel + 1, acc => do
    let b ← readAt (fs acc.length) (p + acc.length) 1
    let acc := acc ++ b
    if b.all (· < 0x80) then return acc else readVarintAtLoopL fs p fuel acc

/-- internal/shard/posts.go:48-72 -/
def readVarintAtL (fs : Nat → Bytes) (p : Int) : M (Int × Nat) := do
  let bs ← readVarintAtLoopL fs p maxVarintLen64 []
  let (v, m) := varint bs
  if m ≤ 0 then fail (.msg "binary.Varint") else return (v, bs.length)

namespace Posts

/-- internal/shard/posts.go:89-126; the varint is read at moments below 10 (MaxVarintLen64), the block at moment 10 -/
def readNextL (p : Posts) (fs : Nat → Bytes) : M Posts := do
  let (v, n) ← wrapErr "1" (readVarintAtL fs p.nextpos)
  if v < 0 ∨ (bufLen : Int) < v then panic'
  else
    let buf ← wrapErr "2" (readAt (fs 10) (p.nextpos + n) v.toNat)
    let (i, current, docids) ← decodeLoop buf (buf.length + 1) 0 p.current []
    let next ← getBE64 (buf.drop i)
    return ⟨0, u64ToI64 next, current, docids⟩

/-- internal/shard/posts.go:74-87 -/
def nextL (p : Posts) (fs : Nat → Bytes) : M (UInt32 × Posts) := do
  let p ← (if p.i = p.docids.length then
      if p.nextpos = -1 then fail .eof else p.readNextL fs
    else pure p)
  match p.docids[p.i]? with
  | none => panic'
  | some d => return (d, { p with i := p.i + 1 })

end Posts

/-- the contents of an open file (the files are not removed while they are open) -/
def Dir.contents (d : Dir) (f : File) : Bytes := (d f).getD []

/-- index.go:290-299 at a moment: the record comes from the file as it is, the path from the table in memory -/
def Index.docid2DocL (x : Index) (d : Dir) (did : UInt32) : M (Bytes × UInt32 × UInt32) :=
  { x with dmd := d.contents .dmd }.docid2Doc did

namespace Query

/-- query.go:73-87: the loop of Get, for a bucket of shard `j`.  A pass reads the posting file at the moments
`t`, ..., `t + 10` and the metadata file at `t + 11`. -/
def getLoopL (grow : Nat → Nat) (x : Index) (m : Nat → Dir) (j : Nat) (lim : Bool) : Nat → Nat → Posts → Blot → M Blot
  | 0, _, _, _ => .error .diverge
  | fuel + 1, t, ps, b =>
    if lim && b.len == b.cap then .ok b
    else match ps.nextL fun k => (m (t + k)).contents (.pos j) with
      | .error (.err .eof) => .ok b
      | .error f => .error f
      | .ok (docid, ps) => do
        let b ← b.next grow lim
        match x.docid2DocL (m (t + 11)) docid with
        | .error (.err e) => fail (.wrap "internal error docid2Doc" e)
        | .error f => .error f
        | .ok r => getLoopL grow x m j lim fuel (t + 12) ps (b.setLast r)

/-- query.go:63-88 -/
def getL (grow : Nat → Nat) (x : Index) (m : Nat → Dir) (fuel : Nat) (q : QState) (b : Blot) : M Blot :=
  if q.n = 0 then panic'
  else
    match x.shards[(b.blot % q.n).toNat]? with
    | none => panic'
    | some sh => do
      let rs ← sh.readStateFor (b.blot / q.n).toUInt16.toNat
      getLoopL grow x m (b.blot % q.n).toNat b.docs.isSome fuel 0 rs.posts b

/-- query.go:138-152: the loop of fillBlot, for shard `srcPos`; as `fillLoop` and `getLoopL`.  Also the moment of the next read.  (After an
error the state of the query is not kept here, see Model/ReadFaults for that.) -/
def fillLoopL (grow : Nat → Nat) (x : Index) (m : Nat → Dir) (q : QState) (srcPos : UInt32) (lim : Bool) : Nat → Nat → ReadState → Blot → M (Nat × Blot × QState)
  | 0, _, _, _ => .error .diverge
  | fuel + 1, t, src, b =>
    if !lim || b.len < b.cap then
      match src.posts.nextL fun k => (m (t + k)).contents (.pos srcPos.toNat) with
      | .error (.err .eof) => do
        let q ← advance x q src srcPos
        return (t + 12, b, q)
      | .error f => .error f
      | .ok (docid, ps) => do
        let b ← b.next grow lim
        let r ← x.docid2DocL (m (t + 11)) docid
        fillLoopL grow x m q srcPos lim fuel (t + 12) { src with posts := ps } (b.setLast r)
    else .ok (t, b, { q with shardStates := q.shardStates.set srcPos.toNat (some src) })

/-- query.go:129-153 -/
def fillBlotL (grow : Nat → Nat) (x : Index) (m : Nat → Dir) (fuel t : Nat) (q : QState) (dst : Blot) (src : ReadState) (srcPos : UInt32) :
    M (Nat × Blot × QState) :=
  let dst := { dst with blot := UInt32.ofNat src.blot * q.n + q.i }
  fillLoopL grow x m q srcPos dst.docs.isSome fuel t src dst

/-- query.go:90-127, as `nextLoop`; the next read is at moment `t` -/
def nextLoopL (grow : Nat → Nat) (x : Index) (m : Nat → Dir) (ff : Nat) : Nat → Nat → QState → Nat → List Blot → M NextResult
  | 0, _, _, _, _ => .error .diverge
  | fuel + 1, t, q, n, dst =>
    match dst[n]? with
    | none => .ok ⟨n, false, dst, q⟩
    | some b =>
      match q.shardStates[q.i.toNat]? with
      | none => panic'
      | some none =>
        let q := { q with nilCount := q.nilCount + 1 }
        if q.nilCount = q.n then .ok ⟨n, n == 0, dst, q⟩
        else
          let i := q.i + 1
          nextLoopL grow x m ff fuel t { q with i := if i = q.n then 0 else i } n dst
      | some (some src) => do
        let (t, b', q) ← fillBlotL grow x m ff t q b src q.i
        if b'.len ≤ 1 then
          let q ← advance x q src q.i
          nextLoopL grow x m ff fuel t q n (dst.set n (dropBlot b.docs.isSome b'))
        else nextLoopL grow x m ff fuel t q (n + 1) (dst.set n b')

/-- query.go:90-127 -/
def nextL (grow : Nat → Nat) (x : Index) (m : Nat → Dir) (ff fuel : Nat) (q : QState) (dst : List Blot) : M NextResult :=
  nextLoopL grow x m ff fuel 0 q 0 dst

end Query

namespace Trace

/-- What another process can find in the directory `d` during a session with `n` shards and after it: as `Crashed`,
but with each write done or not done. -/
inductive Seen (n : Nat) (tr : Trace) (d : Dir) : Dir → Prop where
  | setup {ops : List Op} : ops <+: tr.setup → Seen n tr d (d.run ops)
  | adding {a : List Op} {s : Nat → List Op} {ops : List Op} : a <+: tr.adds → (∀ j, j < n → s j <+: tr.serve j) →
      Interleave (workers n a s) ops → Seen n tr d (d.run (tr.setup ++ ops))
  | closing {ops cs : List Op} : Interleave (workers n tr.adds tr.serve) ops → cs <+: tr.closing →
      Seen n tr d (d.run (tr.setup ++ ops ++ cs))
  | shards {s : Nat → List Op} {ops ops' : List Op} : Interleave (workers n tr.adds tr.serve) ops → (∀ j, j < n → s j <+: tr.shard j) →
      Interleave ((List.range n).map s) ops' → Seen n tr d (d.run (tr.setup ++ ops ++ tr.closing ++ ops'))

end Trace
end Dupi
