import Verif.Model.Go
/-! # internal/shard: the writing and reading sides of posting lists
(poster.go, posts.go) -/

namespace Dupi

/-- internal/shard/poster.go:24-36.  `buf` is scratch space and `blot` is only used for messages:
both are left out.  `posts` starts with capacity 530 and (C17) never outgrows it. -/
structure Poster where
  link : Int
  head : Int
  current : UInt32
  total : UInt32
  posts : Bytes
deriving Repr, DecidableEq

namespace Poster

/-- internal/shard/poster.go:36 -/
abbrev flushRate : Nat := 512

/-- capacity of `posts` set up by initCommon (internal/shard/poster.go:42-45):
`flushRate + 2*MaxVarintLen64 + 8` minus the first `MaxVarintLen64` bytes -/
def postsCap : Nat := flushRate + 2 * maxVarintLen64 + 8 - maxVarintLen64

/-- internal/shard/poster.go:39-47 -/
def initCommon : Poster := ⟨-1, -1, 0, 0, []⟩

/-- internal/shard/poster.go:49-58: what initCreate writes to the iix file (a head and four zero bytes: not the
format readIix expects) -/
def initCreateBytes (p : Poster) : Bytes := putVarint p.head ++ [0, 0, 0, 0]

/-- reading four bytes one at a time, internal/shard/poster.go:73-79 -/
def read4 (r : Bytes) : M (Bytes × Bytes) := do
  let (b0, r) ← readByte r
  let (b1, r) ← readByte r
  let (b2, r) ← readByte r
  let (b3, r) ← readByte r
  return ([b0, b1, b2, b3], r)

/-- the loop of `binary.ReadUvarint` for a caller that does not look at the error: the value that comes with it, a
uint64, and what remains to be read -/
def readUvarintLax : Bytes → Nat → Nat → Nat × Bytes
  | r, i, x =>
    if i = maxVarintLen64 then (x % 2 ^ 64, r)
    else match r with
      | [] => (x, [])
      | b :: bs =>
        if b < 0x80 then
          if i = maxVarintLen64 - 1 ∧ b > 1 then (x, bs)
          else (x ||| (b.toNat <<< (7 * i)), bs)
        else readUvarintLax bs (i + 1) (x ||| ((b &&& 0x7f).toNat <<< (7 * i)))

/-- `binary.ReadVarint(r)` for a caller that does not look at the error -/
def readVarintLax (r : Bytes) : Int × Bytes :=
  let (ux, r) := readUvarintLax r 0 0
  (unzigzag ux, r)

/-- internal/shard/poster.go:60-83.  The error of reading the total is not looked at: the next assignment to `err`
overwrites it. -/
def initAppend (r : Bytes) : M (Poster × Bytes) := do
  let (head, r) ← readVarint r
  let (ttl, r) := readVarintLax r
  if ttl < 0 ∨ 2 ^ 32 ≤ ttl then fail (.msg "invalid total")
  else
    let (b, r) ← read4 r
    let current ← getBE32 b
    return (⟨-1, head, current, UInt32.ofNat ttl.toNat, []⟩, r)

/-- The writes `flushTo` issues on a posting file of length `size` (internal/shard/poster.go:147-189), as
(offset, data) in order, and the poster afterwards. -/
def flushWrites (p : Poster) (size : Nat) : M (List (Nat × Bytes) × Poster) :=
  if p.posts = [] then .ok ([], p)
  else do
    let patch ← (if p.link ≠ -1 then
        if p.link < 0 then fail (.msg "negative offset")
        else pure [(p.link.toNat, be64 (UInt64.ofNat size))]
      else pure [])
    let head := if p.link ≠ -1 then p.head else (size : Int)
    let posts := p.posts ++ be64 (i64ToU64 (-1))
    let len := putVarint posts.length
    let link : Int := size + len.length + posts.length - 8
    return (patch ++ [(size, len), (size + len.length, posts)], { p with head := head, link := link, posts := [] })

/-- perform some writes in order -/
def applyWrites (file : Bytes) (ws : List (Nat × Bytes)) : Bytes :=
  ws.foldl (fun f w => writeAt f w.1 w.2) file

/-- internal/shard/poster.go:147-189 (I/O errors are not modelled, except for a negative offset) -/
def flushTo (p : Poster) (file : Bytes) : M (Poster × Bytes) := do
  let (ws, p) ← p.flushWrites file.length
  return (p, applyWrites file ws)

/-- internal/shard/poster.go:85-99 -/
def addPost (p : Poster) (v : UInt32) (file : Bytes) : M (Poster × Bytes) :=
  if p.current = v ∧ p.total ≠ 0 then .ok (p, file)
  else
    let delta := v - p.current
    let p := { p with current := v, total := p.total + 1, posts := p.posts ++ putUvarint delta.toNat }
    if flushRate ≤ p.posts.length then p.flushTo file else .ok (p, file)

end Poster

/-- internal/shard/posts.go:54-66: read bytes one at a time up to one below 0x80; `acc` are the
bytes read so far, fuel is what remains of `MaxVarintLen64` -/
def readVarintAtLoop (f : Bytes) (p : Int) : Nat → Bytes → M Bytes
  | 0, _ => fail (.msg "read varint overflow")
  | fuel + 1, acc => do
    let b ← readAt f (p + acc.length) 1
    let acc := acc ++ b
    if b.all (· < 0x80) then return acc else readVarintAtLoop f p fuel acc

/-- internal/shard/posts.go:48-72 -/
def readVarintAt (f : Bytes) (p : Int) : M (Int × Nat) := do
  let bs ← readVarintAtLoop f p maxVarintLen64 []
  let (v, m) := varint bs
  if m ≤ 0 then fail (.msg "binary.Varint") else return (v, bs.length)

namespace Poster

/-- internal/shard/poster.go:116-138.  The chain of links need not end in a damaged file, hence the fuel.  Growing the buffer to
`2*v` bytes panics when this is not an int (that there may be no memory for it is left out). -/
def readToLinkLoop (f : Bytes) : Nat → Int → M Int
  | 0, _ => .error .diverge
  | fuel + 1, head => do
    let (v, n) ← readVarintAt f head
    if 2 ^ 62 ≤ v then panic'
    else if v ≤ 8 then fail (.msg "invalid length of flushed post buffer")
    else
      let buf ← readAt f (head + n) v.toNat
      let last8 ← slice buf (v.toNat - 8) v.toNat
      let link ← getBE64 last8
      if u64ToI64 link = -1 then return head + n + v - 8
      else readToLinkLoop f fuel (u64ToI64 link)

/-- internal/shard/poster.go:107-139 -/
def readToLink (p : Poster) (f : Bytes) : M Poster :=
  if p.head = -1 then .ok p
  else if p.link ≠ -1 then panic'
  else do
    let link ← readToLinkLoop f (f.length + 1) p.head
    return { p with link := link }

end Poster

/-- internal/shard/posts.go:24-31 (`buf`, `vbuf` are scratch space of fixed size) -/
structure Posts where
  i : Nat
  nextpos : Int
  current : UInt32
  docids : List UInt32
deriving Repr, DecidableEq

namespace Posts

/-- length (and capacity) of `buf`, internal/shard/posts.go:43-45 -/
def bufLen : Nat := Poster.flushRate + 2 * maxVarintLen64 + 8 - maxVarintLen64

/-- internal/shard/posts.go:33-46 -/
def new (head : Int) : Posts := ⟨0, head, 0, []⟩

/-- internal/shard/posts.go:105-123: decode deltas from `buf` at `i`.  Every pass consumes a byte; fuel is the
length of the buffer plus one. -/
def decodeLoop (buf : Bytes) : Nat → Nat → UInt32 → List UInt32 → M (Nat × UInt32 × List UInt32)
  | 0, _, _, _ => .error .diverge
  | fuel + 1, i, current, docids =>
    let (d, t) := uvarint (buf.drop i)
    if t ≤ 0 then fail (.msg "error decoding uvarint delta")
    else
      let i := i + t.toNat
      if d % 2 ^ 32 ≠ d then fail (.msg "32bit uvarint overflow")
      else
        let current := current + UInt32.ofNat d
        let docids := docids ++ [current]
        if (i : Int) > (buf.length : Int) - 8 then fail (.msg "misaligned")
        else if (i : Int) = (buf.length : Int) - 8 then .ok (i, current, docids)
        else decodeLoop buf fuel i current docids

/-- wrap an error with `fmt.Errorf("n %w")` -/
def wrapErr {α : Type} (s : String) : M α → M α
  | .error (.err e) => .error (.err (.wrap s e))
  | r => r

/-- internal/shard/posts.go:89-126.  `p.buf[:v]` panics unless `0 ≤ v ≤ 530`. -/
def readNext (p : Posts) (f : Bytes) : M Posts := do
  let (v, n) ← wrapErr "1" (readVarintAt f p.nextpos)
  if v < 0 ∨ (bufLen : Int) < v then panic'
  else
    let buf ← wrapErr "2" (readAt f (p.nextpos + n) v.toNat)
    let (i, current, docids) ← decodeLoop buf (buf.length + 1) 0 p.current []
    let next ← getBE64 (buf.drop i)
    return ⟨0, u64ToI64 next, current, docids⟩

/-- internal/shard/posts.go:74-87 -/
def next (p : Posts) (f : Bytes) : M (UInt32 × Posts) := do
  let p ← (if p.i = p.docids.length then
      if p.nextpos = -1 then fail .eof else p.readNext f
    else pure p)
  match p.docids[p.i]? with
  | none => panic'
  | some d => return (d, { p with i := p.i + 1 })

end Posts
end Dupi
