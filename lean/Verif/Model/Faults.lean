import Verif.Model.Crash
/-! # Sessions in which system calls fail

The rest of the model lets every system call that writes succeed.  Here each of them may fail: opening a
file for writing, `Stat`, `Seek`, `Write` and `WriteAt`, a write possibly after some of its bytes have
been written.  What `close(2)` returns is ignored by the code. -/

namespace Dupi

/-- What becomes of the system calls of a goroutine, one after the other: `none`, it succeeds; `some k`,
it fails, and if it is a write, after `k` bytes.  Calls beyond the list succeed. -/
abbrev Fates := List (Option Nat)

/-- the fate of the next call -/
def Fates.now (φ : Fates) : Option Nat := φ.head?.join

namespace Op

/-- what is left of an operation that fails after `k` bytes, as a change of the file -/
def onFileFailed (k : Nat) : Op → Option Bytes → Option Bytes
  | create _, o => o
  | trunc _, o => o
  | write _ off data, o => some (writeAt (o.getD []) off (data.take k))

end Op

/-- operations one after the other, up to the first that fails; `false`: an error is returned.  (`Seek`
before the writes is not among the operations: its failure is one of the write after it, with no byte
written.) -/
def Dir.runF (d : Dir) : List Op → Fates → Bool × Dir × Fates
  | [], φ => (true, d, φ)
  | op :: ops, φ =>
    match Fates.now φ with
    | none => (d.apply op).runF ops φ.tail
    | some k => (false, fun g => if g = op.file then op.onFileFailed k (d g) else d g, φ.tail)

namespace Dmd

/-- consecutive appending writes to a file, up to the first that fails -/
def writesF (file : Bytes) : List Bytes → Fates → Bool × Bytes × Fates
  | [], φ => (true, file, φ)
  | b :: bs, φ =>
    match Fates.now φ with
    | none => writesF (file ++ b) bs φ.tail
    | some k => (false, file ++ b.take k, φ.tail)

/-- dmd/adder.go:77-97 (`Seek` as for `Dir.runF`) -/
def flushF (t : Adder) (file : Option Bytes) (φ : Fates) : Bool × Adder × Option Bytes × Fates :=
  match Fates.now φ with
  | some _ => (false, t, file, φ.tail)
  | none =>
    match writesF (file.getD []) (t.buf.map encode) φ.tail with
    | (true, f, φ) => (true, { t with flushed := t.flushed + UInt32.ofNat t.buf.length, buf := [] }, some f, φ)
    | (false, f, φ) => (false, t, some f, φ)

/-- dmd/adder.go:53-64; no id if an error is returned -/
def addF (t : Adder) (file : Option Bytes) (x : Fields) (φ : Fates) : Option UInt32 × Adder × Option Bytes × Fates :=
  let (ok, t, file, φ) := if UInt32.ofNat t.buf.length = t.flushRate then flushF t file φ else (true, t, file, φ)
  if ok then
    let n := UInt32.ofNat t.buf.length
    (some (n + t.flushed), { t with buf := t.buf ++ [x] }, file, φ)
  else (none, t, file, φ)

end Dmd

namespace Front

/-- indexer.go:235-253 `Add` up to sending the request; `none`: an error is returned and nothing is sent -/
def addF (cwd : Bytes) (x : Front) (doc : Doc) (φ : Fates) : M (Option Req × Front × Fates) := do
  let (n, t) ← Fnames.addPath cwd x.fnames doc.path
  let (id, a, f, φ) := Dmd.addF x.dmds x.file ⟨n, doc.start, doc.stop⟩ φ
  return (id.map fun id => (id, doc.start, doc.dat.getD []), ⟨t, a, f⟩, φ)

/-- consecutive calls of `Add`, by a caller who carries on after an error -/
def addsF (cwd : Bytes) (x : Front) : List Doc → Fates → M (List (Option Req) × Front × Fates)
  | [], φ => .ok ([], x, φ)
  | doc :: docs, φ => do
    let (r, x, φ) ← x.addF cwd doc φ
    let (rs, x, φ) ← x.addsF cwd docs φ
    return (r :: rs, x, φ)

end Front

namespace Poster

/-- internal/shard/poster.go:165-188, the second half of flushTo: from `Seek` on, the file having had `size` bytes -/
def flushTailF (p : Poster) (size : Nat) (file : Bytes) (φ : Fates) : Bool × Poster × Bytes × Fates :=
  match Fates.now φ with
  | some _ => (false, p, file, φ.tail)
  | none =>
    let posts := p.posts ++ be64 (i64ToU64 (-1))
    let p := { p with posts := posts }
    let len := putVarint posts.length
    let φ := φ.tail
    match Fates.now φ with
    | some k => (false, p, writeAt file size (len.take k), φ.tail)
    | none =>
      let file := writeAt file size len
      let φ := φ.tail
      match Fates.now φ with
      | some k => (false, p, writeAt file (size + len.length) (posts.take k), φ.tail)
      | none =>
        (true, { p with link := size + len.length + posts.length - 8, posts := [] },
          writeAt file (size + len.length) posts, φ.tail)

/-- internal/shard/poster.go:147-189.  After a failure the poster is left as it is at that point. -/
def flushF (p : Poster) (file : Bytes) (φ : Fates) : Bool × Poster × Bytes × Fates :=
  if p.posts = [] then (true, p, file, φ)
  else
    match Fates.now φ with
    | some _ => (false, p, file, φ.tail)
    | none =>
      let φ := φ.tail
      if p.link ≠ -1 then
        if p.link < 0 then (false, p, file, φ)
        else
          match Fates.now φ with
          | some k => (false, p, writeAt file p.link.toNat ((be64 (UInt64.ofNat file.length)).take k), φ.tail)
          | none => p.flushTailF file.length (writeAt file p.link.toNat (be64 (UInt64.ofNat file.length))) φ.tail
      else { p with head := file.length }.flushTailF file.length file φ

/-- internal/shard/poster.go:85-99 -/
def addPostF (p : Poster) (v : UInt32) (file : Bytes) (φ : Fates) : Bool × Poster × Bytes × Fates :=
  if p.current = v ∧ p.total ≠ 0 then (true, p, file, φ)
  else
    let delta := v - p.current
    let p := { p with current := v, total := p.total + 1, posts := p.posts ++ putUvarint delta.toNat }
    if flushRate ≤ p.posts.length then p.flushF file φ else (true, p, file, φ)

end Poster

/-- a shard indexer, the fates of its goroutine's system calls, and whether "couldn't add post" has been logged -/
structure FShard where
  x : ShardIndexer
  fates : Fates
  logged : Bool

namespace FShard

/-- internal/shard/indexer.go:168-173: an error is logged and nothing else -/
def add (s : FShard) (docid : UInt32) (blot : Nat) : M FShard :=
  match s.x.ind[blot]? with
  | none => panic'
  | some p =>
    let (ok, p, file, φ) := p.addPostF docid s.x.file s.fates
    .ok ⟨⟨s.x.ind.set blot p, file⟩, φ, s.logged || !ok⟩

/-- the posts received by the serving goroutine -/
def addAll (s : FShard) : List (UInt32 × Nat) → M FShard
  | [] => .ok s
  | (d, b) :: ps => do
    let s ← s.add d b
    s.addAll ps

/-- internal/shard/indexer.go:147-158, up to the first error -/
def flushIndF : List Poster → Bytes → Fates → Bool × List Poster × Bytes × Fates
  | [], f, φ => (true, [], f, φ)
  | p :: ps, f, φ =>
    match p.flushF f φ with
    | (false, p, f, φ) => (false, p :: ps, f, φ)
    | (true, p, f, φ) =>
      let (ok, ps, f, φ) := flushIndF ps f φ
      (ok, p :: ps, f, φ)

/-- internal/shard/indexer.go:113-145 for shard `i` in the directory `d` (its posting file being `s.x.file`) -/
def close (i : Nat) (s : FShard) (d : Dir) : Bool × Dir :=
  let (ok, ps, f, φ) := flushIndF s.x.ind s.x.file s.fates
  let d := d.set (.pos i) f
  if ok then
    let (ok, d, _) := d.runF (.trunc (.iix i) :: Op.writes (.iix i) 0 (ps.flatMap ShardIndexer.iixChunks)) φ
    (ok, d)
  else (false, d)

end FShard

namespace Indexer

/-- the goroutines of a session, shards with failing calls -/
def paramsF (u : Uni) (x : Indexer) : Sched.Params Blotter FShard (UInt32 × Bytes) Post where
  nw := x.blotters.length
  n := x.shards.length
  compute := (x.params u).compute
  serve := fun s p => let (d, b) := serveBucket p; s.add d b

/-- their initial state; `φ j` are the fates of the calls of the goroutines working on shard `j` -/
def startF (x : Indexer) (φ : Nat → Fates) (rs : List Front.Req) : Sched.St Blotter FShard (UInt32 × Bytes) Post :=
  Sched.init (fun w => x.blotters.getD w (.circ ⟨[], 0, 0⟩)) (fun j => ⟨x.shards.getD j ⟨[], []⟩, φ j, false⟩) (Dmd.last x.front.dmds) rs

/-- indexer.go:216-232: all shards are closed, whatever becomes of the others; an error of one of them is returned -/
def closeShardsF (sh : Nat → FShard) : Nat → Dir → Bool × Dir
  | 0, d => (true, d)
  | n + 1, d =>
    let (ok, d) := closeShardsF sh n d
    let (ok', d) := (sh n).close n d
    (ok && ok', d)

/-- indexer.go:207-233.  `d` is the directory at the start of the session; what was written to the document table
since is in `front.file`. -/
def closeF (J : CfgCodec) (c : Config) (front : Front) (n : Nat) (sh : Nat → FShard) (d : Dir) (φ : Fates) : Bool × Dir :=
  let d : Dir := fun g => if g = .dmd then front.file else d g
  let (ok, d, _) := d.runF (closingOps J c front) φ
  if ok then closeShardsF sh n d else (false, d)

/-- A session in which calls may fail: `φ` are the fates of the caller's calls of `Add`, `φ'` those of its call of
`Close`, `ψ j` those of the goroutines of shard `j`.  `rs` is what the calls of `Add` returned (`none`: an error), `ok` whether
`Close` returned nil, `logged j` whether a line was logged for shard `j`. -/
inductive SessionF (u : Uni) (J : CfgCodec) (cwd : Bytes) (x : Indexer) (docs : List Doc) (d : Dir) (φ φ' : Fates) (ψ : Nat → Fates) :
    List (Option Front.Req) → (Nat → Bool) → Bool → Dir → Prop where
  | run {rs : List (Option Front.Req)} {front : Front} {ρ : Fates} {k : Nat} {t : Sched.St Blotter FShard (UInt32 × Bytes) Post} {ok : Bool} {d' : Dir} :
      x.front.addsF cwd docs φ = .ok (rs, front, ρ) →
      Sched.Steps (x.paramsF u) k (x.startF ψ (rs.filterMap id)) t → t.client = .done →
      closeF J x.config front x.shards.length (fun j => (t.servers j).shard) d φ' = (ok, d') →
      SessionF u J cwd x docs d φ φ' ψ rs (fun j => (t.servers j).shard.logged) ok d'

end Indexer
end Dupi
