import Verif.Model.Go
/-! # post/t.go — posts, and the places that split a blot into shard and sub-blot -/

namespace Dupi

/-- post/t.go:21-22 `type T uint64` -/
abbrev Post := UInt64

namespace Post

/-- post/t.go:24-26 `return uint32(p >> 32)` -/
def docid (p : Post) : UInt32 := UInt64.toUInt32 (p >>> 32)

/-- post/t.go:32-34 `return uint32(p)` -/
def blot (p : Post) : UInt32 := UInt64.toUInt32 p

/-- post/t.go:36-38 -/
def split (p : Post) : UInt32 × UInt32 := (docid p, blot p)

/-- post/t.go:40-42 `return T(uint64(docid)<<32 | uint64(blot))` -/
def make (docid blot : UInt32) : Post := docid.toUInt64 <<< 32 ||| blot.toUInt64

end Post

/-- shatter.go:138-142 `n := uint32(len(s.d)); i := b % n; s.d[i] = append(s.d[i], post.Make(docid, b/n))`:
the shard a blot goes to and the post sent there.  `b % 0` panics. -/
def shatterRoute (n docid b : UInt32) : M (UInt32 × Post) :=
  if n = 0 then panic' else .ok (b % n, Post.make docid (b / n))

/-- internal/shard/indexer.go:168-170 `docid, hash := p.Docid(), p.Blot(); hash &= 0xffff; x.ind[hash]`:
docid and the index of the poster that stores the post. -/
def serveBucket (p : Post) : UInt32 × Nat := (p.docid, (p.blot &&& 0xffff).toNat)

/-- query.go:64-65 `shard := blot.Blot % q.state.n; shardblot := uint16(blot.Blot / q.state.n)` -/
def getRoute (n b : UInt32) : M (UInt32 × UInt16) :=
  if n = 0 then panic' else .ok (b % n, (b / n).toUInt16)

/-- query.go:136 `dst.Blot = uint32(src.Blot)*q.state.n + q.state.i` -/
def fillBlotId (n i : UInt32) (blot : UInt16) : UInt32 := blot.toUInt32 * n + i

/-- index.go:177-183 `b = b % (nsh * (1 << 16)); shard = b % nsh; sblot = uint16(b / nsh)`;
`nsh * 65536` wraps at 32 bits, a zero divisor panics. -/
def splitBlot (nsh b : UInt32) : M (UInt32 × UInt16) :=
  if nsh * 65536 = 0 then panic'
  else
    let b := b % (nsh * 65536)
    .ok (b % nsh, (b / nsh).toUInt16)

/-- index.go:185-190 `blot := nsh * uint32(sblot); blot += shard` -/
def joinBlot (nsh shard : UInt32) (sblot : UInt16) : UInt32 := nsh * sblot.toUInt32 + shard

end Dupi
