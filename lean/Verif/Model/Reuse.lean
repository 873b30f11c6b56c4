import Verif.Model.Indexer
/-! # The memory of the documents (indexer.go:235-244, shatter.go:19-24, 42-57, 94-113)

`Indexer.Session` takes the data of a document to be what it was when `Add` was called.  But `Add`
hands over only a slice (`d: doc.Dat`, indexer.go:242); a shatterer reads the memory behind it when
it tokenizes the document (shatter.go:95) and again when it blots the tokens (shatter.go:104; they
are slices of that memory, too).  Here the caller's memory is part of the state, and the caller may
write to it between the calls of `Add`. -/

namespace Dupi.Reuse

/-- the caller's memory: the contents of its buffers -/
abbrev Mem := Nat → Bytes

/-- a Go slice: `len` bytes of buffer `buf` from `lo` on -/
structure Slice where
  buf : Nat
  lo : Nat
  len : Nat
deriving DecidableEq, Repr

/-- the bytes behind a slice -/
def Slice.read (m : Mem) (s : Slice) : Bytes := ((m s.buf).drop s.lo).take s.len

/-- a document whose data is in the caller's memory (doc.go:26-31) -/
structure Item where
  path : Bytes
  start : UInt32
  stop : UInt32
  dat : Slice
deriving DecidableEq, Repr

/-- what the caller does before closing the index -/
inductive Act where
  /-- `copy(buf, v)`, a read into the buffer, or the like -/
  | write (b : Nat) (v : Bytes)
  /-- `x.Add(doc)` -/
  | add (d : Item)
deriving DecidableEq, Repr

/-- the documents added by a program -/
def items : List Act → List Item
  | [] => []
  | .write _ _ :: l => items l
  | .add d :: l => d :: items l

/-- what is not in the data of the document: all `doc2Id` looks at (indexer.go:246-253) -/
def Item.doc (d : Item) (dat : Bytes) : Doc := ⟨d.path, d.start, d.stop, some dat⟩

/-- the system: as `Indexer.params`, with the shatterers reading the memory `m` (shatter.go:95-111;
one document is read in one step) -/
def params (u : Uni) (x : Indexer) (m : Mem) : Sched.Params Blotter ShardIndexer (UInt32 × Slice) Post where
  nw := x.blotters.length
  n := x.shards.length
  compute := fun b did d => (x.params u).compute b did (d.1, d.2.read m)
  serve := (x.params u).serve

structure St where
  core : Sched.St Blotter ShardIndexer (UInt32 × Slice) Post
  mem : Mem
  /-- what the caller still has to do -/
  prog : List Act

/-- the number of documents still to be handed over -/
def left {D : Type} : Sched.Client D → Nat
  | .add ds => ds.length
  | _ => 0

/-- One step of the system with the caller's memory.  After the last `Add` the caller may write at any
time, also while the index is being closed. -/
inductive Step (u : Uni) (x : Indexer) : St → St → Prop where
  /-- the caller writes to a buffer, whose size does not change -/
  | write {s : St} {b : Nat} {v : Bytes} {l : List Act} : s.prog = .write b v :: l → v.length = (s.mem b).length →
      Step u x s ⟨s.core, Sched.upd s.mem b v, l⟩
  /-- indexer.go:242: `Add` hands over the document and returns -/
  | add {s : St} {d : Item} {l : List Act} {t : Sched.St Blotter ShardIndexer (UInt32 × Slice) Post} : s.prog = .add d :: l →
      Sched.Step (params u x s.mem) s.core t → left s.core.client = left t.client + 1 →
      Step u x s ⟨t, s.mem, l⟩
  /-- anything else -/
  | go {s : St} {t : Sched.St Blotter ShardIndexer (UInt32 × Slice) Post} :
      Sched.Step (params u x s.mem) s.core t → left s.core.client = left t.client →
      Step u x s ⟨t, s.mem, s.prog⟩

/-- any number of steps -/
inductive Steps (u : Uni) (x : Indexer) : St → St → Prop where
  | refl {s : St} : Steps u x s s
  | step {s t r : St} : Steps u x s t → Step u x t r → Steps u x s r

/-- the state of the goroutines when the session begins; `rs` are the requests `Add` will send -/
def start (x : Indexer) (rs : List (UInt32 × UInt32 × Slice)) : Sched.St Blotter ShardIndexer (UInt32 × Slice) Post :=
  Sched.init (fun w => x.blotters.getD w (.circ ⟨[], 0, 0⟩)) (fun j => x.shards.getD j ⟨[], []⟩) (Dmd.last x.front.dmds) rs

/-- the requests: the ids come from `doc2Id`, the rest from the documents (indexer.go:242) -/
def requests : List Front.Req → List Item → List (UInt32 × UInt32 × Slice)
  | r :: rs, d :: ds => (r.1, d.start, d.dat) :: requests rs ds
  | _, _ => []

/-- One session: the caller runs `prog` on an open indexer, with its memory being `m` at first, and
closes it. (`doc2Id` does not look at the data.) -/
inductive Session (u : Uni) (J : CfgCodec) (cwd : Bytes) (x : Indexer) (m : Mem) (prog : List Act) (d : Dir) : Dir → Prop where
  | run {rs : List Front.Req} {front : Front} {t : St} {d' : Dir} :
      x.front.adds cwd ((items prog).map fun i => i.doc []) = .ok (rs, front) →
      Steps u x ⟨start x (requests rs (items prog)), m, prog⟩ t → t.core.client = .done →
      Indexer.close J x.config front x.shards.length (fun j => (t.core.servers j).shard) d = .ok d' →
      Session u J cwd x m prog d d'

end Dupi.Reuse
