import Verif.Model.Query
/-! # Reads that fail

The rest of the model lets every read of a file of the index succeed.  Here opening a file, `Seek`, `Read`
and `ReadAt` may fail at any call, and a call after one that failed may succeed or fail. -/

namespace Dupi

/-- What the `Read` calls on an open file give, one after the other: a byte, or an error.  (`(*os.File).Read`
gives some bytes or an error, not both; how many bytes at a time does not matter to `bufio.Reader` and
`io.ReadAll`.) -/
inductive Ev where
  | byte (b : UInt8)
  | fail (e : Err)
deriving Repr, DecidableEq

/-- what reading an open file gives; after the last event, end of file -/
abbrev Stream := List Ev

namespace Stream

/-- the bytes among the events -/
def content : Stream → Bytes
  | [] => []
  | .byte b :: s => b :: content s
  | .fail _ :: s => content s

/-- `(*bufio.Reader).ReadByte`: an error of the file is returned once, after the bytes before it; the next
call reads on -/
def readByte : Stream → M UInt8 × Stream
  | [] => (fail .eof, [])
  | .byte b :: s => (.ok b, s)
  | .fail e :: s => (Dupi.fail e, s)

/-- `io.ReadFull(r, buf)`, `n` bytes remaining, `acc` read -/
def readFull : Nat → Bytes → Stream → M Bytes × Stream
  | 0, acc, s => (.ok acc, s)
  | n + 1, acc, s =>
    match s.readByte with
    | (.ok b, s) => readFull n (acc ++ [b]) s
    | (.error (.err .eof), s) => (if acc = [] then fail .eof else fail .unexpectedEOF, s)
    | (.error f, s) => (.error f, s)

/-- the loop of `binary.ReadUvarint`: `k` bytes may still be read.  An error comes with the value so far. -/
def uvarintLoop : Nat → Stream → Nat → Nat × Option Err × Stream
  | 0, s, x => (x % 2 ^ 64, some .overflow, s)
  | k + 1, s, x =>
    let i := maxVarintLen64 - (k + 1)
    match s with
    | [] => (x, some .eof, [])
    | .fail e :: s => (x, some e, s)
    | .byte b :: s =>
      if b < 0x80 then
        if i = maxVarintLen64 - 1 ∧ b > 1 then (x, some .overflow, s)
        else (x ||| (b.toNat <<< (7 * i)), none, s)
      else uvarintLoop k s (x ||| ((b &&& 0x7f).toNat <<< (7 * i)))

/-- `binary.ReadUvarint(r)`: value, error, what remains -/
def readUvarint (s : Stream) : Nat × Option Err × Stream := uvarintLoop maxVarintLen64 s 0

/-- `binary.ReadVarint(r)` -/
def readVarint (s : Stream) : Int × Option Err × Stream :=
  let (ux, e, s) := s.readUvarint
  (unzigzag ux, e, s)

/-- `io.ReadAll(r)`: `io.EOF` is the end, not an error -/
def readAll : Stream → M Bytes
  | [] => .ok []
  | .byte b :: s => do
    let r ← readAll s
    return b :: r
  | .fail .eof :: _ => .ok []
  | .fail e :: _ => Dupi.fail e

end Stream

namespace Fnames

/-- fnames.go:107-116 -/
def readUvarint32S (s : Stream) : M UInt32 × Stream :=
  match s.readUvarint with
  | (_, some e, s) => (fail e, s)
  | (v, none, s) => if v % 2 ^ 32 ≠ v then (fail (.msg "overflow 32bit varint"), s) else (.ok (UInt32.ofNat v), s)

/-- fnames.go:130-154 -/
def readLoopS : Nat → Nat → Table → Stream → M Table
  | 0, _, d, _ => .ok d
  | n + 1, i, d, s => do
    let (v, s) := readUvarint32S s
    let v ← v
    let (name, s) := s.readFull v.toNat []
    let name ← name
    let (parent, s) := readUvarint32S s
    let parent ← parent
    let d := d.set i { d.getD i zero with name := name, parent := parent }
    match d[parent.toNat]? with
    | none => panic'
    | some pn =>
      readLoopS n (i + 1)
        (d.set parent.toNat { pn with children := (name, UInt32.ofNat i) :: pn.children }) s

/-- fnames.go:118-156 -/
def readS (s : Stream) : M Table := do
  let (v, s) := readUvarint32S s
  let v ← v
  readLoopS v.toNat 0 (List.replicate v.toNat zero) s

end Fnames

/-- internal/shard/index.go:122-143: the count is checked before the error that came with it -/
def ShardIndex.readIixS : Nat → Stream → M (List (Int × UInt32))
  | 0, _ => .ok []
  | n + 1, s =>
    match s.readVarint with
    | (_, some e, _) => fail e
    | (hd, none, s) =>
      match s.readVarint with
      | (ct, e, s) =>
        if ct < 0 ∨ 2 ^ 32 ≤ ct then fail (.msg "not a 32 bit count")
        else match e with
          | some e => fail e
          | none => do
            let (b, s) := s.readFull 4 []
            let _ ← b
            let rest ← readIixS n s
            return (hd, UInt32.ofNat ct.toNat) :: rest

/-- reading four bytes one at a time, internal/shard/poster.go:73-79 -/
def Poster.read4S (s : Stream) : M Bytes × Stream :=
  match s.readByte with
  | (.error f, s) => (.error f, s)
  | (.ok b0, s) =>
    match s.readByte with
    | (.error f, s) => (.error f, s)
    | (.ok b1, s) =>
      match s.readByte with
      | (.error f, s) => (.error f, s)
      | (.ok b2, s) =>
        match s.readByte with
        | (.error f, s) => (.error f, s)
        | (.ok b3, s) => (.ok [b0, b1, b2, b3], s)

/-- internal/shard/poster.go:60-83.  The error of reading the total is not looked at: the next assignment to `err`
overwrites it. -/
def Poster.initAppendS (s : Stream) : M Poster × Stream :=
  match s.readVarint with
  | (_, some e, s) => (fail e, s)
  | (head, none, s) =>
    match s.readVarint with
    | (ttl, _, s) =>
      if ttl < 0 ∨ 2 ^ 32 ≤ ttl then (fail (.msg "invalid total"), s)
      else
        match read4S s with
        | (.error f, s) => (.error f, s)
        | (.ok b, s) => (do
            let current ← getBE32 b
            return ⟨-1, head, current, UInt32.ofNat ttl.toNat, []⟩, s)

/-- internal/shard/indexer.go:97-103 -/
def ShardIndexer.readIixS : Nat → Stream → M (List Poster)
  | 0, _ => .ok []
  | n + 1, s => do
    let (p, s) := Poster.initAppendS s
    let p ← p
    let ps ← readIixS n s
    return p :: ps

/-- internal/shard/indexer.go:61-64, 70-87, the `.iix` file giving `s` and the posting file being read without errors -/
def ShardIndexer.initAppendS (n : Nat) (s : Stream) (post : Bytes) : M ShardIndexer := do
  let ps ← readIixS n s
  let ps ← readLinks post ps
  return ⟨ps, post⟩

/-- what becomes of opening and reading the files of an index directory: opening may fail, and reading gives `rd` -/
structure OpenFates where
  op : File → Option Err
  rd : File → Stream

/-- `os.Open`: the file's contents, as they are on the disk -/
def Dir.openF (d : Dir) (φ : OpenFates) (g : File) : M Bytes :=
  match φ.op g with
  | some e => fail e
  | none => d.read g

namespace Index

/-- index.go:68-74 (as `openShards`); the posting file is only opened here -/
def openShardsS (srt : Sorter) (d : Dir) (φ : OpenFates) : Nat → Nat → M (List ShardIndex)
  | 0, _ => .ok []
  | n + 1, i => do
    let _ ← d.openF φ (.iix i)
    let es ← ShardIndex.readIixS ShardIndexer.nBlots (φ.rd (.iix i))
    let post ← d.openF φ (.pos i)
    let x : ShardIndex := ⟨0, es.map Prod.fst, es.map Prod.snd, srt (es.map Prod.snd), post⟩
    let xs ← openShardsS srt d φ n (i + 1)
    return x :: xs

/-- index.go:39-76, config.go:117-138 (as `Index.open` and `Config.readFrom`); dmd is only opened here -/
def openS (J : CfgCodec) (srt : Sorter) (d : Dir) (φ : OpenFates) : M Index := do
  let _ ← d.openF φ .cfg
  let cb ← (φ.rd .cfg).readAll
  let c ← J.dec cb
  c.check
  let dmd ← d.openF φ .dmd
  let _ ← d.openF φ .fnm
  let t ← Fnames.readS (φ.rd .fnm)
  if c.numShards < 0 then panic'
  else
    let xs ← openShardsS srt d φ c.numShards.toNat 0
    return ⟨c, dmd, t, xs⟩

end Index

/-! ## Queries: `Seek`, `Read` and `ReadAt` on the files of an open index -/

/-- what becomes of the `Seek`, `ReadAt` and `io.ReadFull` calls, by number: `some e`, it fails with `e` -/
abbrev ReadFates := Nat → Option Err

/-- `ReadAt` as call number `k` -/
def readAtF (φ : ReadFates) (k : Nat) (f : Bytes) (off : Int) (n : Nat) : M Bytes :=
  match φ k with
  | some e => fail e
  | none => readAt f off n

/-- internal/shard/posts.go:54-66; also the number of the next call -/
def readVarintAtLoopF (φ : ReadFates) (f : Bytes) (p : Int) : Nat → Nat → Bytes → Nat × M Bytes
  | 0, k, _ => (k, fail (.msg "read varint overflow"))
  | fuel + 1, k, acc =>
    match readAtF φ k f (p + acc.length) 1 with
    | .error e => (k + 1, .error e)
    | .ok b =>
      let acc := acc ++ b
      if b.all (· < 0x80) then (k + 1, .ok acc) else readVarintAtLoopF φ f p fuel (k + 1) acc

/-- internal/shard/posts.go:48-72 -/
def readVarintAtF (φ : ReadFates) (k : Nat) (f : Bytes) (p : Int) : Nat × M (Int × Nat) :=
  match readVarintAtLoopF φ f p maxVarintLen64 k [] with
  | (k, .error e) => (k, .error e)
  | (k, .ok bs) =>
    let (v, m) := varint bs
    (k, if m ≤ 0 then fail (.msg "binary.Varint") else .ok (v, bs.length))

namespace Posts

/-- internal/shard/posts.go:89-126.  An error of a read leaves the object as it was.  (An error of decoding the
block does not; it cannot occur in the files of a finished session.) -/
def readNextF (φ : ReadFates) (k : Nat) (p : Posts) (f : Bytes) : Nat × M Posts :=
  match readVarintAtF φ k f p.nextpos with
  | (k, .error e) => (k, wrapErr "1" (.error e))
  | (k, .ok (v, n)) =>
    if v < 0 ∨ (bufLen : Int) < v then (k, panic')
    else
      match readAtF φ k f (p.nextpos + n) v.toNat with
      | .error e => (k + 1, wrapErr "2" (.error e))
      | .ok buf => (k + 1, do
        let (i, current, docids) ← decodeLoop buf (buf.length + 1) 0 p.current []
        let next ← getBE64 (buf.drop i)
        return ⟨0, u64ToI64 next, current, docids⟩)

/-- internal/shard/posts.go:74-87 -/
def nextF (φ : ReadFates) (k : Nat) (p : Posts) (f : Bytes) : Nat × M (UInt32 × Posts) :=
  let r : Nat × M Posts := if p.i = p.docids.length then
      if p.nextpos = -1 then (k, fail .eof) else p.readNextF φ k f
    else (k, .ok p)
  (r.1, do
    let p ← r.2
    match p.docids[p.i]? with
    | none => panic'
    | some d => return (d, { p with i := p.i + 1 }))

end Posts

/-- internal/shard/read_state.go:29-33 -/
def ReadState.nextF (φ : ReadFates) (k : Nat) (s : ReadState) : Nat × M (UInt32 × ReadState) :=
  let r := s.posts.nextF φ k s.file
  (r.1, do
    let (d, ps) ← r.2
    return (d, { s with posts := ps }))

/-- dmd/t.go:50-65: a `Seek` and an `io.ReadFull` -/
def Dmd.lookupF (φ : ReadFates) (k : Nat) (file : Bytes) (did : UInt32) : Nat × M Fields :=
  match φ k with
  | some e => (k + 1, fail e)
  | none =>
    match φ (k + 1) with
    | some e => (k + 2, fail e)
    | none => (k + 2, Dmd.lookup file did)

/-- index.go:290-299 -/
def Index.docid2DocF (φ : ReadFates) (k : Nat) (x : Index) (did : UInt32) : Nat × M (Bytes × UInt32 × UInt32) :=
  match Dmd.lookupF φ k x.dmd did with
  | (k, .error (.err e)) => (k, fail (.wrap "docid2Doc" e))
  | (k, .error f) => (k, .error f)
  | (k, .ok r) => (k, do
    let p ← Fnames.abs x.fnames r.fid
    return (p, r.start, r.stop))

namespace Query

/-- query.go:73-87.  Besides the blot, which is the caller's, the error returned. -/
def getLoopF (φ : ReadFates) (grow : Nat → Nat) (x : Index) (lim : Bool) : Nat → Nat → ReadState → Blot → M (Blot × Option Err)
  | 0, _, _, _ => .error .diverge
  | fuel + 1, k, rs, b =>
    if lim && b.len == b.cap then .ok (b, none)
    else match rs.nextF φ k with
      | (_, .error (.err .eof)) => .ok (b, none)
      | (_, .error (.err e)) => .ok (b, some e)
      | (_, .error f) => .error f
      | (k, .ok (docid, rs)) => do
        let b ← b.next grow lim
        match x.docid2DocF φ k docid with
        | (_, .error (.err e)) => .ok (b, some (.wrap "internal error docid2Doc" e))
        | (_, .error f) => .error f
        | (k, .ok r) => getLoopF φ grow x lim fuel k rs (b.setLast r)

/-- query.go:63-88 -/
def getF (φ : ReadFates) (grow : Nat → Nat) (x : Index) (fuel : Nat) (q : QState) (b : Blot) : M (Blot × Option Err) :=
  if q.n = 0 then panic'
  else
    match x.shards[(b.blot % q.n).toNat]? with
    | none => panic'
    | some sh => do
      let rs ← sh.readStateFor (b.blot / q.n).toUInt16.toNat
      getLoopF φ grow x b.docs.isSome fuel 0 rs b

/-- the object `shardStates[pos]` points to, after it was changed -/
def _root_.Dupi.QState.put (q : QState) (pos : UInt32) (src : ReadState) : QState :=
  { q with shardStates := q.shardStates.set pos.toNat (some src) }

/-- query.go:138-152: the number of the next call, the blot, the state and the error.  `src`, which
`shardStates[srcPos]` points to, has moved past the docid whose metadata cannot be read. -/
def fillLoopF (φ : ReadFates) (grow : Nat → Nat) (x : Index) (q : QState) (srcPos : UInt32) (lim : Bool) :
    Nat → Nat → ReadState → Blot → M (Nat × Blot × QState × Option Err)
  | 0, _, _, _ => .error .diverge
  | fuel + 1, k, src, b =>
    if !lim || b.len < b.cap then
      match src.nextF φ k with
      | (k, .error (.err .eof)) => do
        let q ← advance x q src srcPos
        return (k, b, q, none)
      | (k, .error (.err e)) => .ok (k, b, q.put srcPos src, some e)
      | (_, .error f) => .error f
      | (k, .ok (docid, src)) => do
        let b ← b.next grow lim
        match x.docid2DocF φ k docid with
        | (k, .error (.err e)) => .ok (k, b, q.put srcPos src, some e)
        | (_, .error f) => .error f
        | (k, .ok r) => fillLoopF φ grow x q srcPos lim fuel k src (b.setLast r)
    else .ok (k, b, q.put srcPos src, none)

/-- query.go:129-153 -/
def fillBlotF (φ : ReadFates) (grow : Nat → Nat) (x : Index) (fuel k : Nat) (q : QState) (dst : Blot) (src : ReadState) (srcPos : UInt32) :
    M (Nat × Blot × QState × Option Err) :=
  let dst := { dst with blot := UInt32.ofNat src.blot * q.n + q.i }
  fillLoopF φ grow x q srcPos dst.docs.isSome fuel k src dst

/-- What `Next` leaves: the number of blots it returns, its error, the slice, and the state of the query. -/
structure NextOut where
  n : Nat
  err : Option Err
  dst : List Blot
  state : QState

/-- query.go:90-127 -/
def nextLoopF (φ : ReadFates) (grow : Nat → Nat) (x : Index) (ff : Nat) : Nat → Nat → QState → Nat → List Blot → M NextOut
  | 0, _, _, _, _ => .error .diverge
  | fuel + 1, k, q, n, dst =>
    match dst[n]? with
    | none => .ok ⟨n, none, dst, q⟩
    | some b =>
      match q.shardStates[q.i.toNat]? with
      | none => panic'
      | some none =>
        let q := { q with nilCount := q.nilCount + 1 }
        if q.nilCount = q.n then .ok ⟨n, if n == 0 then some .eof else none, dst, q⟩
        else
          let i := q.i + 1
          nextLoopF φ grow x ff fuel k { q with i := if i = q.n then 0 else i } n dst
      | some (some src) => do
        let (k, b', q, e) ← fillBlotF φ grow x ff k q b src q.i
        match e with
        | some e => .ok ⟨n, some e, dst.set n b', q⟩
        | none =>
          if b'.len ≤ 1 then
            let q ← advance x q src q.i
            nextLoopF φ grow x ff fuel k q n (dst.set n (dropBlot b.docs.isSome b'))
          else nextLoopF φ grow x ff fuel k q (n + 1) (dst.set n b')

/-- query.go:90-127 -/
def nextF (φ : ReadFates) (grow : Nat → Nat) (x : Index) (ff fuel : Nat) (q : QState) (dst : List Blot) : M NextOut :=
  nextLoopF φ grow x ff fuel 0 q 0 dst

end Query
end Dupi
