import Verif.Model.Query
/-! # The file operations of a session, one by one, and what a dead process leaves behind

`Indexer.close` (Model/Indexer) gives the directory after a whole session.  Here are the single system
calls of a session that change files, in the order in which each goroutine issues them, so that one can
speak of a session that ended in between.  The process dies, not the machine: what was written is there.
A `write` that is under way may have been done in part. -/

namespace Dupi

/-- a system call that changes a file of the index directory -/
inductive Op where
  /-- `os.OpenFile` with O_CREATE, without O_TRUNC -/
  | create (f : File)
  /-- `os.OpenFile` with O_CREATE and O_TRUNC -/
  | trunc (f : File)
  /-- `Write` with the file position at `off`, or `WriteAt` -/
  | write (f : File) (off : Nat) (data : Bytes)
deriving DecidableEq, Repr

namespace Op

/-- the file an operation changes -/
def file : Op → File
  | create f => f
  | trunc f => f
  | write f _ _ => f

/-- its effect on the contents of that file (`none`: there is no such file) -/
def onFile : Op → Option Bytes → Option Bytes
  | create _, o => some (o.getD [])
  | trunc _, _ => some []
  | write _ off data, o => some (writeAt (o.getD []) off data)

/-- consecutive `Write`s to a file, the first one at offset `off` -/
def writes (f : File) : Nat → List Bytes → List Op
  | _, [] => []
  | off, b :: bs => write f off b :: writes f (off + b.length) bs

end Op

namespace Dir

/-- the effect of an operation -/
def apply (d : Dir) (op : Op) : Dir := fun g => if g = op.file then op.onFile (d g) else d g

/-- the effect of some operations, one after the other -/
def run (d : Dir) (ops : List Op) : Dir := ops.foldl apply d

end Dir

/-- what is done of a goroutine's operations when it is stopped: some of them from the first on, and
perhaps a part of the next write -/
inductive Cut : List Op → List Op → Prop where
  | stop {ops : List Op} : Cut ops []
  | part {f : File} {off : Nat} {data : Bytes} {ops : List Op} (k : Nat) : Cut (.write f off data :: ops) [.write f off (data.take k)]
  | step {op : Op} {ops ops' : List Op} : Cut ops ops' → Cut (op :: ops) (op :: ops')

/-- an order in which several goroutines' operations can take place -/
inductive Interleave {α : Type} : List (List α) → List α → Prop where
  | nil {ls : List (List α)} : (∀ l ∈ ls, l = []) → Interleave ls []
  | cons {ls : List (List α)} {i : Nat} {a : α} {as l : List α} : ls[i]? = some (a :: as) → Interleave (ls.set i as) l → Interleave ls (a :: l)

/-! ### What the parts of the program write -/

/-- dmd/adder.go:77-97 with O_APPEND: one `Write` for each record (`binary.Write` makes a single one) -/
def Dmd.flushOps (t : Adder) (file : Option Bytes) : List Op :=
  .create .dmd :: Op.writes .dmd (file.getD []).length (t.buf.map encode)

/-- dmd/adder.go:53-64 -/
def Dmd.addOps (t : Adder) (file : Option Bytes) : List Op :=
  if UInt32.ofNat t.buf.length = t.flushRate then flushOps t file else []

/-- dmd/adder.go:70-75 -/
def Dmd.closeOps (t : Adder) (file : Option Bytes) : List Op :=
  if t.buf.length = 0 then [] else flushOps t file

/-- what the goroutine calling `Add` writes, indexer.go:235-253 -/
def Front.addsOps (cwd : Bytes) (x : Front) : List Doc → M (List Op)
  | [] => .ok []
  | doc :: docs => do
    let (_, y) ← x.add cwd doc
    let ops ← y.addsOps cwd docs
    return Dmd.addOps x.dmds x.file ++ ops

/-- fnames.go:165-186: the `Write`s (the file is not buffered) -/
def Fnames.writeChunks (t : Table) : List Bytes :=
  writeUvarint32 (UInt32.ofNat t.length) ::
    t.flatMap fun n => [writeUvarint32 (UInt32.ofNat n.name.length), n.name, writeUvarint32 n.parent]

/-- config.go:140-160 -/
def Config.writeOps (J : CfgCodec) (c : Config) : List Op := .create .cfg :: Op.writes .cfg 0 [J.enc c, [10]]

/-- indexer.go:162-171 -/
def Fnames.writeOps (t : Table) : List Op := .trunc .fnm :: Op.writes .fnm 0 (writeChunks t)

namespace Poster

/-- internal/shard/poster.go:49-58: the two `Write`s -/
def initCreateChunks (p : Poster) : List Bytes := [putVarint p.head, [0, 0, 0, 0]]

/-- internal/shard/poster.go:85-99: the writes of AddPost, as (offset, data) -/
def addPostWrites (p : Poster) (v : UInt32) (file : Bytes) : M (List (Nat × Bytes)) :=
  if p.current = v ∧ p.total ≠ 0 then .ok []
  else
    let delta := v - p.current
    let p := { p with current := v, total := p.total + 1, posts := p.posts ++ putUvarint delta.toNat }
    if flushRate ≤ p.posts.length then (p.flushWrites file.length).map Prod.fst else .ok []

end Poster

namespace ShardIndexer

/-- internal/shard/indexer.go:42-59 for shard `i` with `n` posters: the `.iix` file is filled (in a form
that cannot be read), then the posting file is made -/
def initCreateOps (n i : Nat) : List Op :=
  .trunc (.iix i) :: Op.writes (.iix i) 0 ((List.replicate n Poster.initCommon).flatMap Poster.initCreateChunks) ++ [.trunc (.pos i)]

/-- internal/shard/indexer.go:168-170 -/
def addWrites (x : ShardIndexer) (docid : UInt32) (blot : Nat) : M (List (Nat × Bytes)) :=
  match x.ind[blot]? with
  | none => panic'
  | some p => p.addPostWrites docid x.file

/-- internal/shard/indexer.go:160-177: the writes of the serving goroutine for the posts it receives -/
def addAllWrites (x : ShardIndexer) : List (UInt32 × Nat) → M (List (Nat × Bytes))
  | [] => .ok []
  | (d, b) :: ps => do
    let ws ← x.addWrites d b
    let x ← x.add d b
    let rest ← x.addAllWrites ps
    return ws ++ rest

/-- internal/shard/indexer.go:147-158 -/
def flushIndWrites : List Poster → Bytes → M (List (Nat × Bytes))
  | [], _ => .ok []
  | p :: ps, f => do
    let (ws, _) ← p.flushWrites f.length
    let rest ← flushIndWrites ps (Poster.applyWrites f ws)
    return ws ++ rest

/-- internal/shard/indexer.go:128-142: the three `Write`s for a poster -/
def iixChunks (p : Poster) : List Bytes := [putVarint p.head, putVarint p.total.toNat, be32 p.current]

/-- writes to the posting file of shard `i` -/
def posOps (i : Nat) (ws : List (Nat × Bytes)) : List Op := ws.map fun w => .write (.pos i) w.1 w.2

/-- internal/shard/indexer.go:113-145 for shard `i` -/
def closeOps (i : Nat) (x : ShardIndexer) : M (List Op) := do
  let ws ← flushIndWrites x.ind x.file
  let (ps, _) ← flushInd x.ind x.file
  return posOps i ws ++ .trunc (.iix i) :: Op.writes (.iix i) 0 (ps.flatMap iixChunks)

end ShardIndexer

/-! ### Sessions -/

/-- the operations of a session, by goroutine -/
structure Trace where
  /-- before the first document (internal/shard/indexer.go:69-78), by the caller -/
  setup : List Op
  /-- by the goroutine that calls `Add` -/
  adds : List Op
  /-- by the goroutine serving shard `j` -/
  serve : Nat → List Op
  /-- by the goroutine that calls `Close`, up to closing the shards (internal/shard/indexer.go:207-215) -/
  closing : List Op
  /-- by the goroutine that closes shard `j` (internal/shard/indexer.go:216-222) -/
  shard : Nat → List Op

namespace Indexer

/-- indexer.go:67-78: the shards are initialised one after the other, from number `i` on -/
def createOps : Nat → Nat → List Op
  | 0, _ => []
  | n + 1, i => ShardIndexer.initCreateOps ShardIndexer.nBlots i ++ createOps n (i + 1)

/-- indexer.go:207-215 -/
def closingOps (J : CfgCodec) (c : Config) (front : Front) : List Op :=
  Config.writeOps J c ++ Fnames.writeOps front.fnames ++ Dmd.closeOps front.dmds front.file

/-- A session with an open indexer `x` on the directory `d`, as in `Session`, and its operations.  The
posts shard `j` gets are those the serving goroutine received in the schedule. -/
inductive Run (u : Uni) (J : CfgCodec) (cwd : Bytes) (x : Indexer) (docs : List Doc) (d : Dir) (setup : List Op) : Trace → Dir → Prop where
  | run {rs : List Front.Req} {front : Front} {k : Nat} {t : Sched.St Blotter ShardIndexer (UInt32 × Bytes) Post} {d' : Dir}
      {adds : List Op} {ws : Nat → List (Nat × Bytes)} {cl : Nat → List Op} :
      x.front.adds cwd docs = .ok (rs, front) →
      Sched.Steps (x.params u) k (x.start rs) t → t.client = .done →
      close J x.config front x.shards.length (fun j => (t.servers j).shard) d = .ok d' →
      x.front.addsOps cwd docs = .ok adds →
      (∀ (j : Nat) (s : ShardIndexer), x.shards[j]? = some s →
        s.addAll ((t.servers j).log.flatten.map serveBucket) = .ok (t.servers j).shard ∧ s.addAllWrites ((t.servers j).log.flatten.map serveBucket) = .ok (ws j)) →
      (∀ j, j < x.shards.length → ShardIndexer.closeOps j (t.servers j).shard = .ok (cl j)) →
      Run u J cwd x docs d setup ⟨setup, adds, fun j => ShardIndexer.posOps j (ws j), closingOps J x.config front, cl⟩ d'

end Indexer

namespace Trace

/-- the goroutines at work between opening and `Close` -/
def workers (n : Nat) (a : List Op) (s : Nat → List Op) : List (List Op) := a :: (List.range n).map s

/-- What a process that dies during a session with `n` shards can leave of the directory `d`.  `Close`
gets to its own operations when all documents have been added and served, and the shards are closed
concurrently after that. -/
inductive Crashed (n : Nat) (tr : Trace) (d : Dir) : Dir → Prop where
  | setup {ops : List Op} : Cut tr.setup ops → Crashed n tr d (d.run ops)
  | adding {a : List Op} {s : Nat → List Op} {ops : List Op} : Cut tr.adds a → (∀ j, j < n → Cut (tr.serve j) (s j)) →
      Interleave (workers n a s) ops → Crashed n tr d (d.run (tr.setup ++ ops))
  | closing {ops cs : List Op} : Interleave (workers n tr.adds tr.serve) ops → Cut tr.closing cs →
      Crashed n tr d (d.run (tr.setup ++ ops ++ cs))
  | shards {s : Nat → List Op} {ops ops' : List Op} : Interleave (workers n tr.adds tr.serve) ops → (∀ j, j < n → Cut (tr.shard j) (s j)) →
      Interleave ((List.range n).map s) ops' → Crashed n tr d (d.run (tr.setup ++ ops ++ tr.closing ++ ops'))

/-- the whole session -/
inductive Finished (n : Nat) (tr : Trace) (d : Dir) : Dir → Prop where
  | finished {ops ops' : List Op} : Interleave (workers n tr.adds tr.serve) ops → Interleave ((List.range n).map tr.shard) ops' →
      Finished n tr d (d.run (tr.setup ++ ops ++ tr.closing ++ ops'))

end Trace
end Dupi
