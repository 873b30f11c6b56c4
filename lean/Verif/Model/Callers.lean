import Verif.Model.Indexer
import Verif.Model.Crash
/-! # Several goroutines calling `Add` (indexer.go:235-253)

`Model/Sched` has one goroutine that adds the documents.  Here any number of them share an indexer.
Nothing in indexer.go, fnames.go or dmd/adder.go keeps two calls of `Add` apart.  `doc2Id` is made one
step here, as if it were atomic; the code does not even have that (`fnames.d` and `Adder.buf` are
changed without a lock). -/

namespace Dupi.Sched

variable {W S D E α : Type}

/-- a goroutine that calls `Add` for some documents, one after the other -/
structure Caller (E : Type) where
  /-- `doc2Id` has returned this id for this document (indexer.go:236), the send at :242 is to come -/
  pending : Option (UInt32 × E)
  /-- the documents whose `Add` has not begun -/
  todo : List E

/-- everything it had to do is done -/
def Caller.finished (c : Caller E) : Prop := c.pending = none ∧ c.todo = []

structure MSt (W S D E α : Type) where
  /-- shatterers, shard servers, mutex, `mono`; its client only closes the indexer -/
  core : St W S D α
  callers : List (Caller E)
  /-- the documents that have got an id, in the order of their ids -/
  order : List E

/-- the id `doc2Id` gives next (dmd/adder.go:53-64; C06), `last` being the last one before the session -/
def nextId (last : UInt32) (order : List E) : UInt32 := UInt32.ofNat (last.toNat + order.length + 1)

/-- One step.  `load` is what of a document goes into the request (its start and bytes).  With
`locked`, the callers hold a mutex of their own around `Add`. -/
inductive MStep (P : Params W S D α) (load : E → D) (last : UInt32) (locked : Bool) : MSt W S D E α → MSt W S D E α → Prop where
  /-- indexer.go:236-239 -/
  | number {s : MSt W S D E α} {i : Nat} {e : E} {es : List E} : s.callers[i]? = some ⟨none, e :: es⟩ →
      (locked = true → ∀ c ∈ s.callers, c.pending = none) →
      MStep P load last locked s
        { s with callers := s.callers.set i ⟨some (nextId last s.order, e), es⟩, order := s.order ++ [e] }
  /-- indexer.go:242 meets shatter.go:46 -/
  | give {s : MSt W S D E α} {i : Nat} {did : UInt32} {e : E} {es : List E} {w : Nat} : s.callers[i]? = some ⟨some (did, e), es⟩ →
      w < P.nw → (s.core.workers w).2 = .idle →
      MStep P load last locked s
        { s with core := s.core.setW w (.computing did (load e)), callers := s.callers.set i ⟨none, es⟩ }
  /-- a step of the other goroutines; Close is called when all calls of `Add` have returned -/
  | inner {s : MSt W S D E α} {t : St W S D α} : Step P s.core t →
      (t.client = s.core.client ∨ ∀ c ∈ s.callers, c.finished) →
      MStep P load last locked s { s with core := t }

/-- the start of the session, with the documents of each caller -/
def MSt.init (b0 : Nat → W) (s0 : Nat → S) (last : UInt32) (callers : List (List E)) : MSt W S D E α where
  core := Sched.init b0 s0 last []
  callers := callers.map (⟨none, ·⟩)
  order := []

/-- a number of steps -/
inductive MSteps (P : Params W S D α) (load : E → D) (last : UInt32) (locked : Bool) (s : MSt W S D E α) : Nat → MSt W S D E α → Prop where
  | refl : MSteps P load last locked s 0 s
  | step {k : Nat} {t u : MSt W S D E α} : MSteps P load last locked s k t → MStep P load last locked t u → MSteps P load last locked s (k + 1) u

end Dupi.Sched

namespace Dupi.Indexer

/-- what of a document goes into its request, indexer.go:242 -/
def payload (d : Doc) : UInt32 × Bytes := (d.start, d.dat.getD [])

/-- the start of a session with these callers -/
def startN (x : Indexer) (callers : List (List Doc)) : Sched.MSt Blotter ShardIndexer (UInt32 × Bytes) Doc Post :=
  .init (fun w => x.blotters.getD w (.circ ⟨[], 0, 0⟩)) (fun j => x.shards.getD j ⟨[], []⟩) (Dmd.last x.front.dmds) callers

/-- the states a session with these callers can be in after so many steps -/
abbrev ReachN (u : Uni) (x : Indexer) (callers : List (List Doc)) (locked : Bool) :=
  Sched.MSteps (x.params u) payload (Dmd.last x.front.dmds) locked (x.startN callers)

/-- a step in such a session -/
abbrev StepN (u : Uni) (x : Indexer) (locked : Bool) :=
  Sched.MStep (E := Doc) (x.params u) payload (Dmd.last x.front.dmds) locked

/-- A whole session with several callers: the path table and the document table are those after the calls of
`doc2Id` in the order in which they took place. -/
inductive SessionN (u : Uni) (J : CfgCodec) (cwd : Bytes) (x : Indexer) (callers : List (List Doc)) (locked : Bool) (d : Dir) : Dir → Prop where
  | run {rs : List Front.Req} {front : Front} {k : Nat} {t : Sched.MSt Blotter ShardIndexer (UInt32 × Bytes) Doc Post} {d' : Dir} :
      x.ReachN u callers locked k t → t.core.client = .done →
      x.front.adds cwd t.order = .ok (rs, front) →
      close J x.config front x.shards.length (fun j => (t.core.servers j).shard) d = .ok d' →
      SessionN u J cwd x callers locked d d'

end Dupi.Indexer
