import Verif.Model.Dmd
import Verif.Model.Fnames
import Verif.Model.Shard
import Verif.Model.Shatter
import Verif.Model.Sched
/-! # indexer.go: creating, opening, filling and closing an index -/

namespace Dupi

/-- the files of an index directory: cfg.json, dmd, files.fnm, b%d.pos and b%d.pos.iix
(config.go:85-107, internal/shard/indexer.go:45; `IixPath` of config.go:101 is not used) -/
inductive File where
  | cfg
  | dmd
  | fnm
  | pos (i : Nat)
  | iix (i : Nat)
deriving DecidableEq, Repr

/-- the contents of an index directory; `none`: there is no such file.  The directory itself is taken
to exist, and to be the one cfg.json names as `IndexRoot`. -/
abbrev Dir := File → Option Bytes

namespace Dir

/-- the directory just after `os.Mkdir` -/
def empty : Dir := fun _ => none

/-- a file gets new contents -/
def set (d : Dir) (f : File) (b : Bytes) : Dir := fun g => if g = f then some b else d g

/-- `os.Open`/`os.OpenFile` without O_CREATE, and reading all of it -/
def read (d : Dir) (f : File) : M Bytes :=
  match d f with
  | none => fail .notExist
  | some b => .ok b

end Dir

/-- encoding/json on `Config` values: `json.MarshalIndent(cfg, "", "\t")` and `json.Unmarshal`.
A parameter of the model; the theorems assume that reading back what was written succeeds. -/
structure CfgCodec where
  enc : Config → Bytes
  dec : Bytes → M Config

namespace Config

/-- config.go:117-138 -/
def readFrom (J : CfgCodec) (d : Dir) : M Config := do
  let b ← d.read .cfg
  let c ← J.dec b
  c.check
  return c

/-- config.go:140-160.  Without O_TRUNC: the bytes of a longer old file beyond the ones written stay. -/
def writeTo (J : CfgCodec) (c : Config) (d : Dir) : Dir :=
  d.set .cfg (writeAt ((d .cfg).getD []) 0 (J.enc c ++ [10]))

end Config

/-- doc.go:26-31; `dat = none` is the nil slice -/
structure Doc where
  path : Bytes
  start : UInt32
  stop : UInt32
  dat : Option Bytes
deriving DecidableEq, Repr

/-- the part of an indexer the caller's goroutine works on: the path table and the document
metadata with its file -/
structure Front where
  fnames : Fnames.Table
  dmds : Dmd.Adder
  file : Option Bytes

namespace Front

/-- indexer.go:246-253 `doc2Id` (`doc.Path = ""` is an effect on the caller's value, not modelled;
`dmds.Add` fails only when writing does) -/
def add (cwd : Bytes) (x : Front) (doc : Doc) : M (UInt32 × Front) := do
  let (n, t) ← Fnames.addPath cwd x.fnames doc.path
  let (id, a, f) := Dmd.add x.dmds x.file ⟨n, doc.start, doc.stop⟩
  return (id, ⟨t, a, f⟩)

/-- the request `Add` sends: id, offset and data (indexer.go:242) -/
abbrev Req := UInt32 × UInt32 × Bytes

/-- consecutive calls of `Add`, up to the sending of the requests, which are returned.  In the program
each request is sent before the next document is looked at; the goroutines receiving them share no
data with this part, so it can be done first. -/
def adds (cwd : Bytes) (x : Front) : List Doc → M (List Req × Front)
  | [] => .ok ([], x)
  | doc :: docs => do
    let (id, x) ← x.add cwd doc
    let (rs, x) ← x.adds cwd docs
    return ((id, doc.start, doc.dat.getD []) :: rs, x)

end Front

/-- indexer.go:28-40 (the channels are part of the goroutine system `Sched`; the lock is not modelled
here) -/
structure Indexer where
  config : Config
  front : Front
  /-- the shatterers' blotters, one for each shatterer -/
  blotters : List Blotter
  shards : List ShardIndexer

namespace Indexer

/-- shatter.go:37-41: `ns` blotters (none if `ns` is negative) -/
def makeBlotters (c : Config) : M (List Blotter) := do
  if c.numShatters ≤ 0 then return []
  else
    let b ← Blotter.fromConfig c.blotConfig
    return List.replicate c.numShatters.toNat b

/-- `make([]shard.Indexer, cfg.NumShards)` panics when the number is negative -/
def makeShards (c : Config) : M Nat := if c.numShards < 0 then panic' else .ok c.numShards.toNat

/-- indexer.go:42-84 (`cfg.check` is not called). The directory does not exist before. -/
def create (c : Config) : M Indexer := do
  let n ← makeShards c
  c.tokenConfig.fromConfig
  let a ← Dmd.newAdder none c.docFlushRate
  let bs ← makeBlotters c
  return ⟨c, ⟨Fnames.newFnames, a, none⟩, bs, List.replicate n (ShardIndexer.initCreate ShardIndexer.nBlots)⟩

/-- indexer.go:144-152 with internal/shard/indexer.go:61-103 -/
def openShards (d : Dir) : Nat → Nat → M (List ShardIndexer)
  | 0, _ => .ok []
  | n + 1, i => do
    let iix ← d.read (.iix i)
    let post ← d.read (.pos i)
    let x ← ShardIndexer.initAppend ShardIndexer.nBlots ⟨post, iix⟩
    let xs ← openShards d n (i + 1)
    return x :: xs

/-- indexer.go:86-96, 116-160 -/
def «open» (J : CfgCodec) (d : Dir) : M Indexer := do
  let c ← Config.readFrom J d
  let n ← makeShards c
  let a ← Dmd.newAdder (d .dmd) c.docFlushRate
  let fnm ← d.read .fnm
  let t ← Fnames.read fnm
  c.tokenConfig.fromConfig
  let xs ← openShards d n 0
  let bs ← makeBlotters c
  return ⟨c, ⟨t, a, d .dmd⟩, bs, xs⟩

/-- the goroutines of the session: what shatterers and shard servers compute -/
def params (u : Uni) (x : Indexer) : Sched.Params Blotter ShardIndexer (UInt32 × Bytes) Post where
  nw := x.blotters.length
  n := x.shards.length
  compute := fun b did d => do
    let (b, out) ← Shatter.compute u x.config.seqLen x.shards.length b did d.1 d.2
    return (b, fun j => out.getD j [])
  serve := fun s p => let (d, b) := serveBucket p; s.add d b

/-- their initial state, with the requests to be sent -/
def start (x : Indexer) (rs : List Front.Req) : Sched.St Blotter ShardIndexer (UInt32 × Bytes) Post :=
  Sched.init (fun w => x.blotters.getD w (.circ ⟨[], 0, 0⟩)) (fun j => x.shards.getD j ⟨[], []⟩) (Dmd.last x.front.dmds) rs

/-- indexer.go:216-232: closing the shards `0, ..., n-1` (their files are disjoint) -/
def closeShards (sh : Nat → ShardIndexer) : Nat → Dir → M Dir
  | 0, d => .ok d
  | n + 1, d => do
    let d ← closeShards sh n d
    let f ← (sh n).close
    return (d.set (.pos n) f.post).set (.iix n) f.iix

/-- indexer.go:207-233: `Close` after the goroutines have been told to stop, on the directory `d` as it
was at the start of the session.  (What the session wrote before Close is in `front.file` and the
shards' `file`.) -/
def close (J : CfgCodec) (c : Config) (front : Front) (n : Nat) (sh : Nat → ShardIndexer) (d : Dir) : M Dir := do
  let d := c.writeTo J d
  let d := d.set .fnm (Fnames.write front.fnames)
  let d := match Dmd.close front.dmds front.file with
    | some b => d.set .dmd b
    | none => d
  closeShards sh n d

/-- A whole session with an open indexer `x`: `docs` are added one after the other and the indexer is
closed; `d'` is the directory afterwards.  One execution for each schedule of the goroutines.  The
shards are closed as soon as the caller gets there, whether or not the servers have returned. -/
inductive Session (u : Uni) (J : CfgCodec) (cwd : Bytes) (x : Indexer) (docs : List Doc) (d : Dir) : Dir → Prop where
  | run {rs : List Front.Req} {front : Front} {k : Nat} {t : Sched.St Blotter ShardIndexer (UInt32 × Bytes) Post} {d' : Dir} :
      x.front.adds cwd docs = .ok (rs, front) →
      Sched.Steps (x.params u) k (x.start rs) t → t.client = .done →
      close J x.config front x.shards.length (fun j => (t.servers j).shard) d = .ok d' →
      Session u J cwd x docs d d'

end Indexer

/-- The sessions that made an index: the working directory and the documents of each. -/
abbrev Sessions := List (Bytes × List Doc)

/-- Executions: an index is created with configuration `c`, then opened for appending any number of
times; each time documents are added and it is closed. -/
inductive History (u : Uni) (J : CfgCodec) (c : Config) : Sessions → Dir → Prop where
  | create {x : Indexer} {cwd : Bytes} {docs : List Doc} {d : Dir} : Indexer.create c = .ok x →
      Indexer.Session u J cwd x docs Dir.empty d → History u J c [(cwd, docs)] d
  | append {h : Sessions} {d d' : Dir} {x : Indexer} {cwd : Bytes} {docs : List Doc} : History u J c h d →
      Indexer.open J d = .ok x → Indexer.Session u J cwd x docs d d' → History u J c (h ++ [(cwd, docs)]) d'

end Dupi
