import Verif.Model.Indexer
/-! # Calls made on an indexer after `Close` (indexer.go:196-253)

Nothing in an `Indexer` says that it has been closed: `Add` and `Close` do what they always do.  Each call
is made by a goroutine of its own (a caller that does not get an answer can make no other). -/

namespace Dupi

/-- indexer.go:213: what `Close` leaves of the path table and of the document table (dmd/adder.go:70-75) -/
def Front.closed (x : Front) : Front :=
  if x.dmds.buf.length = 0 then x
  else
    let (a, f) := Dmd.flush x.dmds x.file
    ⟨x.fnames, a, f⟩

namespace Late

/-- where a call is -/
inductive Pos where
  /-- in `Add`, before `doc2Id` (indexer.go:237) -/
  | numbering (doc : Doc)
  /-- in `Add`, before `x.shatter <- ...` (indexer.go:242) -/
  | sending (r : Front.Req)
  /-- in `Close`, this many shutdown requests to go (indexer.go:198-203) -/
  | shutting (k : Nat)
  /-- in `Close`, before closing the channels of the shards (indexer.go:204-206) -/
  | closing
  /-- in `Close`, past that (there is no shard) -/
  | writing
  /-- `Add` returned nil -/
  | added
  /-- `Add` returned an error -/
  | refused
  /-- the goroutine, and with it the program, panicked -/
  | panicked

structure St where
  /-- the goroutines of the indexer -/
  core : Sched.St Blotter ShardIndexer (UInt32 × Bytes) Post
  /-- the caller's part, with the file dmd -/
  front : Front
  calls : List Pos
  /-- history variable: the documents numbered since -/
  numbered : List Doc

/-- One step.  (`doc2Id` is one step, as in Model/Callers.) -/
inductive Step (u : Uni) (cwd : Bytes) (x : Indexer) : St → St → Prop where
  /-- indexer.go:237, 246-253 -/
  | number {s : St} {i : Nat} {doc : Doc} {id : UInt32} {f : Front} : s.calls[i]? = some (.numbering doc) →
      s.front.add cwd doc = .ok (id, f) →
      Step u cwd x s { s with front := f, calls := s.calls.set i (.sending (id, doc.start, doc.dat.getD [])), numbered := s.numbered ++ [doc] }
  /-- indexer.go:238-240 -/
  | refuse {s : St} {i : Nat} {doc : Doc} {e : Fault} : s.calls[i]? = some (.numbering doc) → s.front.add cwd doc = .error e →
      Step u cwd x s { s with calls := s.calls.set i .refused }
  /-- indexer.go:242 meets shatter.go:46 -/
  | give {s : St} {i w : Nat} {r : Front.Req} : s.calls[i]? = some (.sending r) → w < (x.params u).nw → (s.core.workers w).2 = .idle →
      Step u cwd x s { s with core := s.core.setW w (.computing r.1 r.2), calls := s.calls.set i .added }
  /-- indexer.go:199 meets shatter.go:46 -/
  | shut {s : St} {i w k : Nat} : s.calls[i]? = some (.shutting (k + 1)) → w < (x.params u).nw → (s.core.workers w).2 = .idle →
      Step u cwd x s { s with core := s.core.setW w .exited, calls := s.calls.set i (.shutting k) }
  | shutDone {s : St} {i : Nat} : s.calls[i]? = some (.shutting 0) → Step u cwd x s { s with calls := s.calls.set i .closing }
  /-- indexer.go:205: closing a closed channel -/
  | close {s : St} {i : Nat} : s.calls[i]? = some .closing → 0 < (x.params u).n → s.core.client.closed 0 →
      Step u cwd x s { s with calls := s.calls.set i .panicked }
  /-- indexer.go:204 with no shard -/
  | write {s : St} {i : Nat} : s.calls[i]? = some .closing → (x.params u).n = 0 → Step u cwd x s { s with calls := s.calls.set i .writing }
  /-- a step of the indexer's own goroutines -/
  | inner {s : St} {t : Sched.St Blotter ShardIndexer (UInt32 × Bytes) Post} : Sched.Step (x.params u) s.core t →
      Step u cwd x s { s with core := t }

/-- any number of steps -/
inductive Steps (u : Uni) (cwd : Bytes) (x : Indexer) : St → St → Prop where
  | refl {s : St} : Steps u cwd x s s
  | step {s t v : St} : Steps u cwd x s t → Step u cwd x t v → Steps u cwd x s v

/-- a call: `some doc` of `Add`, `none` of `Close` -/
def begin (x : Indexer) : Option Doc → Pos
  | some doc => .numbering doc
  | none => .shutting x.blotters.length

/-- The goroutines being where they are when Close is done with them, the calls are made. -/
def start (x : Indexer) (t : Sched.St Blotter ShardIndexer (UInt32 × Bytes) Post) (front : Front) (calls : List (Option Doc)) : St :=
  ⟨t, front.closed, calls.map (begin x), []⟩

end Late
end Dupi
