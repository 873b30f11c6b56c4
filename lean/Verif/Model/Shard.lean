import Verif.Model.Poster
import Verif.Model.Post
/-! # internal/shard: Indexer and Index (indexer.go, index.go, read_state.go) -/

namespace Dupi

/-- internal/shard/indexer.go:27-34.  `ind` has 65536 entries (the model is generic in their number);
`file` is the contents of `postFile`. -/
structure ShardIndexer where
  ind : List Poster
  file : Bytes
deriving Repr, DecidableEq

/-- the files of one shard on disk: the posting file and the `.iix` file -/
structure ShardFiles where
  post : Bytes
  iix : Bytes
deriving Repr, DecidableEq

namespace ShardIndexer

/-- the number of posters of a shard, internal/shard/indexer.go:31 -/
abbrev nBlots : Nat := 65536

/-- internal/shard/indexer.go:42-59 -/
def initCreate (n : Nat) : ShardIndexer := ⟨List.replicate n Poster.initCommon, []⟩

/-- the `.iix` file initCreate leaves on disk (internal/shard/indexer.go:46-56) -/
def initCreateIix (n : Nat) : Bytes := (List.replicate n Poster.initCommon).flatMap Poster.initCreateBytes

/-- internal/shard/indexer.go:97-103 -/
def readIix : Nat → Bytes → M (List Poster)
  | 0, _ => .ok []
  | n + 1, r => do
    let (p, r) ← Poster.initAppend r
    let ps ← readIix n r
    return p :: ps

/-- internal/shard/indexer.go:79-85 -/
def readLinks (f : Bytes) : List Poster → M (List Poster)
  | [] => .ok []
  | p :: ps => do
    let p ← p.readToLink f
    let ps ← readLinks f ps
    return p :: ps

/-- internal/shard/indexer.go:61-64, 70-87 -/
def initAppend (n : Nat) (d : ShardFiles) : M ShardIndexer := do
  let ps ← readIix n d.iix
  let ps ← readLinks d.post ps
  return ⟨ps, d.post⟩

/-- internal/shard/indexer.go:168-170: one post of a batch -/
def add (x : ShardIndexer) (docid : UInt32) (blot : Nat) : M ShardIndexer :=
  match x.ind[blot]? with
  | none => panic'
  | some p => do
    let (p, file) ← p.addPost docid x.file
    return ⟨x.ind.set blot p, file⟩

/-- internal/shard/indexer.go:160-177: the posts received by the serving goroutine, in order, as (docid, bucket) -/
def addAll (x : ShardIndexer) : List (UInt32 × Nat) → M ShardIndexer
  | [] => .ok x
  | (d, b) :: ps => do
    let x ← x.add d b
    x.addAll ps

/-- internal/shard/indexer.go:150-156 -/
def flushInd : List Poster → Bytes → M (List Poster × Bytes)
  | [], f => .ok ([], f)
  | p :: ps, f => do
    let (p, f) ← p.flushTo f
    let (ps, f) ← flushInd ps f
    return (p :: ps, f)

/-- internal/shard/indexer.go:128-142 -/
def iixEntry (p : Poster) : Bytes :=
  putVarint p.head ++ putVarint p.total.toNat ++ be32 p.current

/-- internal/shard/indexer.go:113-145 -/
def close (x : ShardIndexer) : M ShardFiles := do
  let (ps, f) ← flushInd x.ind x.file
  return ⟨f, ps.flatMap iixEntry⟩

end ShardIndexer

/-- internal/shard/index.go:26-33 -/
structure ShardIndex where
  id : UInt32
  heads : List Int
  counts : List UInt32
  perm : List Nat
  file : Bytes
deriving Repr, DecidableEq

/-- `sort.Slice` of `perm` by decreasing count (internal/shard/index.go:144-146) as a parameter: the permutation
computed from the counts.  `sort.Slice` is not stable, so all that is assumed is `IsSorter`. -/
abbrev Sorter := List UInt32 → List Nat

/-- What `sort.Slice` guarantees: the result is a permutation of the initial `perm` (0, 1, 2, ...)
sorted w.r.t. "larger count first". -/
structure IsSorter (s : Sorter) : Prop where
  perm : ∀ counts, (s counts).Perm (List.range counts.length)
  sorted : ∀ counts, (s counts).Pairwise fun i j => counts.getD j 0 ≤ counts.getD i 0

namespace ShardIndex

/-- internal/shard/index.go:122-143 -/
def readIix : Nat → Bytes → M (List (Int × UInt32))
  | 0, _ => .ok []
  | n + 1, r => do
    let (hd, r) ← readVarint r
    let (ct, r) ← readVarint r
    if ct < 0 ∨ 2 ^ 32 ≤ ct then fail (.msg "not a 32 bit count")
    else
      let (_, r) ← readFull r 4
      let rest ← readIix n r
      return (hd, UInt32.ofNat ct.toNat) :: rest

/-- internal/shard/index.go:35-46, 115-148.  The shard's `id` is never assigned by the code of this package
(internal/shard/index.go:27, 73), it stays 0. -/
def init (srt : Sorter) (n : Nat) (d : ShardFiles) : M ShardIndex := do
  let es ← readIix n d.iix
  let counts := es.map Prod.snd
  return ⟨0, es.map Prod.fst, counts, srt counts, d.post⟩

/-- internal/shard/index.go:90-92 -/
def count (x : ShardIndex) (blot : Nat) : M UInt32 :=
  match x.counts[blot]? with
  | none => panic'
  | some c => .ok c

/-- internal/shard/index.go:94-100 (the sum of 65536 uint32 fits a uint64) -/
def numPosts (x : ShardIndex) : Nat := (x.counts.map UInt32.toNat).sum

end ShardIndex

/-- internal/shard/read_state.go:19-27 (`rdr` is the posting file of the shard) -/
structure ReadState where
  shard : UInt32
  blot : Nat
  at_ : Nat
  total : UInt32
  posts : Posts
  file : Bytes
deriving Repr, DecidableEq

namespace ShardIndex

/-- internal/shard/index.go:70-79 -/
def readStateForBlotAt (x : ShardIndex) (blot at_ : Nat) : M ReadState :=
  match x.heads[blot]?, x.counts[blot]? with
  | some h, some c => .ok ⟨x.id, blot, at_, c, Posts.new h, x.file⟩
  | _, _ => panic'

/-- internal/shard/index.go:52-68 -/
def readStateFor (x : ShardIndex) (blot : Nat) : M ReadState := x.readStateForBlotAt blot 0

/-- internal/shard/index.go:81-84 -/
def blotAt (x : ShardIndex) (i : Nat) : M Nat :=
  match x.perm[i]? with
  | none => panic'
  | some b => .ok b

/-- internal/shard/index.go:86-88 -/
def readStateAt (x : ShardIndex) (i : Nat) : M ReadState := do
  let b ← x.blotAt i
  x.readStateForBlotAt b i

end ShardIndex

namespace ReadState

/-- internal/shard/read_state.go:29-33 -/
def next (s : ReadState) : M (UInt32 × ReadState) := do
  let (d, ps) ← s.posts.next s.file
  return (d, { s with posts := ps })

end ReadState
end Dupi
