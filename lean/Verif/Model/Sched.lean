import Verif.Model.Go
/-! # The goroutines of an indexing session (shatter.go, internal/shard/indexer.go:160-177, indexer.go)

A transition system: one transition of one goroutine, or a rendezvous of two on an unbuffered
channel, per step; any enabled step may be taken next (every schedule).  The computations that
touch only a goroutine's own data (tokenizing and blotting a document; adding a batch of posts to a
shard) are single steps, given by the parameters `compute` and `serve`.

Goroutines: the caller (adds the documents one after the other, then closes), `nw` shatterers, `n`
shard servers, and for each shatterer that is sending, `n` senders.
-/

namespace Dupi.Sched

/-- `f` changed at `i` -/
def upd {α : Type} (f : Nat → α) (i : Nat) (v : α) : Nat → α := fun j => if j = i then v else f j

/-- one of the goroutines started at shatter.go:124-130 -/
inductive Sender (α : Type) where
  /-- before `s.shardChns[i] <- ps` -/
  | toSend (ps : List α)
  /-- before `<-s.shardChns[i]` -/
  | await
  /-- after `wg.Done()` -/
  | done

/-- where a shatterer is -/
inductive WSt (D α : Type) where
  /-- before `req, ok := <-rch` (shatter.go:46) -/
  | idle
  /-- received a document, shatter.go:95-111 still to do -/
  | computing (did : UInt32) (d : D)
  /-- before `Lock()` (shatter.go:116); `out i` are the posts for shard `i` -/
  | locking (did : UInt32) (out : Nat → List α)
  /-- about to test the condition of the loop (shatter.go:117), holding the lock -/
  | checking (did : UInt32) (out : Nat → List α)
  /-- asleep in `Wait()` (shatter.go:118) -/
  | waiting (did : UInt32) (out : Nat → List α)
  /-- woken by `Broadcast`, `Wait()` has to take the lock again -/
  | woken (did : UInt32) (out : Nat → List α)
  /-- in `wg.Wait()` (shatter.go:132), the senders being where `ss` says -/
  | sending (did : UInt32) (ss : Nat → Sender α)
  /-- before `s.mono.docid = did` (shatter.go:133) -/
  | publish (did : UInt32)
  /-- before `Broadcast()` (shatter.go:134) -/
  | broadcasting
  /-- before `Unlock()` (shatter.go:135) -/
  | unlocking
  /-- returned (shatter.go:51) -/
  | exited

/-- where a shard server is, internal/shard/indexer.go:160-177 -/
inductive SSt (α : Type) where
  /-- before `ps, ok := <-x.postChn` -/
  | idle
  /-- has received `ps` -/
  | busy (ps : List α)
  /-- before `x.postChn <- nil` -/
  | acking
  /-- returned -/
  | exited

/-- where the caller is -/
inductive Client (D : Type) where
  /-- has these documents to add, with the ids `doc2Id` gives them (indexer.go:236-253) -/
  | add (docs : List (UInt32 × D))
  /-- in Close, this many shutdown requests to go (indexer.go:198-203) -/
  | shut (k : Nat)
  /-- in Close, before closing the channel of shard `j` (indexer.go:204-206) -/
  | close (j : Nat)
  /-- in Close, past that -/
  | done

structure Server (S α : Type) where
  st : SSt α
  shard : S
  /-- history variable: the batches received so far -/
  log : List (List α)

/-- the parameters of the system -/
structure Params (W S D α : Type) where
  /-- number of shatterers, Config.NumShatters -/
  nw : Nat
  /-- number of shards, Config.NumShards -/
  n : Nat
  /-- what a shatterer computes for a document (`Shatter.compute`), changing its blotter -/
  compute : W → UInt32 → D → M (W × (Nat → List α))
  /-- adding one post to a shard (`ShardIndexer.add`) -/
  serve : S → α → M S

structure St (W S D α : Type) where
  /-- the blotter and program counter of each shatterer -/
  workers : Nat → W × WSt D α
  servers : Nat → Server S α
  /-- the shatterer holding the mutex -/
  holder : Option Nat
  /-- `mono.docid` -/
  mono : UInt32
  client : Client D

/-- channel `j` has been closed -/
def Client.closed {D : Type} : Client D → Nat → Prop
  | .close k, j => j < k
  | .done, _ => True
  | _, _ => False

/-- adding a batch -/
def serveAll {S α : Type} (serve : S → α → M S) : S → List α → M S
  | s, [] => .ok s
  | s, p :: ps => do
    let s ← serve s p
    serveAll serve s ps

/-- what `Broadcast` does to a shatterer -/
def wake {D α : Type} : WSt D α → WSt D α
  | .waiting did out => .woken did out
  | x => x

variable {W S D α : Type}

/-- shatterer `w` moves to `v` -/
def St.setW (s : St W S D α) (w : Nat) (v : WSt D α) : St W S D α :=
  { s with workers := upd s.workers w ((s.workers w).1, v) }

/-- server `j` moves to `v` -/
def St.setS (s : St W S D α) (j : Nat) (v : SSt α) : St W S D α :=
  { s with servers := upd s.servers j { s.servers j with st := v } }

/-- One step of the system. -/
inductive Step (P : Params W S D α) : St W S D α → St W S D α → Prop where
  /-- indexer.go:242 meets shatter.go:46 -/
  | give {s : St W S D α} {did : UInt32} {d : D} {ds : List (UInt32 × D)} {w : Nat} : s.client = .add ((did, d) :: ds) →
      w < P.nw → (s.workers w).2 = .idle →
      Step P s { s.setW w (.computing did d) with client := .add ds }
  /-- Close is called -/
  | startShut {s : St W S D α} : s.client = .add [] → Step P s { s with client := .shut P.nw }
  /-- indexer.go:199 meets shatter.go:46 -/
  | shut {s : St W S D α} {k w : Nat} : s.client = .shut (k + 1) → w < P.nw → (s.workers w).2 = .idle →
      Step P s { s.setW w .exited with client := .shut k }
  | startClose {s : St W S D α} : s.client = .shut 0 → Step P s { s with client := .close 0 }
  /-- indexer.go:205 -/
  | close {s : St W S D α} {j : Nat} : s.client = .close j → j < P.n → Step P s { s with client := .close (j + 1) }
  | closeDone {s : St W S D α} : s.client = .close P.n → Step P s { s with client := .done }
  /-- shatter.go:95-111 -/
  | compute {s : St W S D α} {w : Nat} {did : UInt32} {d : D} {b : W} {out : Nat → List α} : w < P.nw →
      (s.workers w).2 = .computing did d → P.compute (s.workers w).1 did d = .ok (b, out) →
      Step P s { s with workers := upd s.workers w (b, .locking did out) }
  /-- shatter.go:116 -/
  | lock {s : St W S D α} {w : Nat} {did : UInt32} {out : Nat → List α} : w < P.nw →
      (s.workers w).2 = .locking did out → s.holder = none →
      Step P s { s.setW w (.checking did out) with holder := some w }
  /-- shatter.go:117, condition false; :121-130 -/
  | pass {s : St W S D α} {w : Nat} {did : UInt32} {out : Nat → List α} : w < P.nw →
      (s.workers w).2 = .checking did out → s.mono = did - 1 →
      Step P s (s.setW w (.sending did fun i => .toSend (out i)))
  /-- shatter.go:117, condition true; :118 releases the lock -/
  | wait {s : St W S D α} {w : Nat} {did : UInt32} {out : Nat → List α} : w < P.nw →
      (s.workers w).2 = .checking did out → s.mono ≠ did - 1 →
      Step P s { s.setW w (.waiting did out) with holder := none }
  /-- shatter.go:118, taking the lock again -/
  | relock {s : St W S D α} {w : Nat} {did : UInt32} {out : Nat → List α} : w < P.nw →
      (s.workers w).2 = .woken did out → s.holder = none →
      Step P s { s.setW w (.checking did out) with holder := some w }
  /-- shatter.go:126 meets internal/shard/indexer.go:162 -/
  | post {s : St W S D α} {w j : Nat} {did : UInt32} {ss : Nat → Sender α} {ps : List α} : w < P.nw → j < P.n →
      (s.workers w).2 = .sending did ss → ss j = .toSend ps → (s.servers j).st = .idle →
      Step P s { s.setW w (.sending did (upd ss j .await)) with
        servers := upd s.servers j { s.servers j with st := .busy ps, log := (s.servers j).log ++ [ps] } }
  /-- shatter.go:126 meets shatter.go:127 of another shatterer: posts taken for an acknowledgement -/
  | cross {s : St W S D α} {w w' j : Nat} {did did' : UInt32} {ss ss' : Nat → Sender α} {ps : List α} : w < P.nw → w' < P.nw →
      w ≠ w' → j < P.n → (s.workers w).2 = .sending did ss → ss j = .toSend ps →
      (s.workers w').2 = .sending did' ss' → ss' j = .await →
      Step P s ((s.setW w (.sending did (upd ss j .await))).setW w' (.sending did' (upd ss' j .done)))
  /-- internal/shard/indexer.go:167-174 -/
  | serve {s : St W S D α} {j : Nat} {ps : List α} {x : S} : j < P.n → (s.servers j).st = .busy ps →
      serveAll P.serve (s.servers j).shard ps = .ok x →
      Step P s { s with servers := upd s.servers j { s.servers j with st := .acking, shard := x } }
  /-- internal/shard/indexer.go:175 meets shatter.go:127; :128 -/
  | ack {s : St W S D α} {w j : Nat} {did : UInt32} {ss : Nat → Sender α} : w < P.nw → j < P.n →
      (s.workers w).2 = .sending did ss → ss j = .await → (s.servers j).st = .acking →
      Step P s ((s.setW w (.sending did (upd ss j .done))).setS j .idle)
  /-- shatter.go:127 on a closed channel -/
  | ackClosed {s : St W S D α} {w j : Nat} {did : UInt32} {ss : Nat → Sender α} : w < P.nw → j < P.n →
      (s.workers w).2 = .sending did ss → ss j = .await → s.client.closed j →
      Step P s (s.setW w (.sending did (upd ss j .done)))
  /-- shatter.go:132 -/
  | sent {s : St W S D α} {w : Nat} {did : UInt32} {ss : Nat → Sender α} : w < P.nw →
      (s.workers w).2 = .sending did ss → (∀ j, j < P.n → ss j = .done) → Step P s (s.setW w (.publish did))
  /-- shatter.go:133 -/
  | publish {s : St W S D α} {w : Nat} {did : UInt32} : w < P.nw → (s.workers w).2 = .publish did →
      Step P s { s.setW w .broadcasting with mono := did }
  /-- shatter.go:134 -/
  | broadcast {s : St W S D α} {w : Nat} : w < P.nw → (s.workers w).2 = .broadcasting →
      Step P s { s with workers := upd (fun i => ((s.workers i).1, wake (s.workers i).2)) w ((s.workers w).1, .unlocking) }
  /-- shatter.go:135 -/
  | unlock {s : St W S D α} {w : Nat} : w < P.nw → (s.workers w).2 = .unlocking →
      Step P s { s.setW w .idle with holder := none }
  /-- internal/shard/indexer.go:163-166 -/
  | exit {s : St W S D α} {j : Nat} : j < P.n → (s.servers j).st = .idle → s.client.closed j → Step P s (s.setS j .exited)

/-- The program would crash: a panic or error in a computation, or a send on a closed channel. -/
inductive Crashes (P : Params W S D α) (s : St W S D α) : Prop where
  | compute {w : Nat} {did : UInt32} {d : D} {e : Fault} : w < P.nw → (s.workers w).2 = .computing did d →
      P.compute (s.workers w).1 did d = .error e → Crashes P s
  | serve {j : Nat} {ps : List α} {e : Fault} : j < P.n → (s.servers j).st = .busy ps →
      serveAll P.serve (s.servers j).shard ps = .error e → Crashes P s
  | send {w j : Nat} {did : UInt32} {ss : Nat → Sender α} {ps : List α} : w < P.nw → j < P.n →
      (s.workers w).2 = .sending did ss → ss j = .toSend ps → s.client.closed j → Crashes P s
  | ack {j : Nat} : j < P.n → (s.servers j).st = .acking → s.client.closed j → Crashes P s

/-- Everything is over. -/
def Final (P : Params W S D α) (s : St W S D α) : Prop :=
  s.client = .done ∧ (∀ w, w < P.nw → (s.workers w).2 = .exited) ∧ ∀ j, j < P.n → (s.servers j).st = .exited

/-- The start of a session (shatter.go:32-57, indexer.go:66-79): everyone is at the top of their
loop; `b0`, `s0` give the initial blotters and shards, `last` the id of the last document so far. -/
def init (b0 : Nat → W) (s0 : Nat → S) (last : UInt32) (docs : List (UInt32 × D)) : St W S D α where
  workers := fun w => (b0 w, .idle)
  servers := fun j => ⟨.idle, s0 j, []⟩
  holder := none
  mono := last
  client := .add docs

/-- a number of steps -/
inductive Steps (P : Params W S D α) : Nat → St W S D α → St W S D α → Prop where
  | refl {s : St W S D α} : Steps P 0 s s
  | step {k : Nat} {s t u : St W S D α} : Steps P k s t → Step P t u → Steps P (k + 1) s u

end Dupi.Sched
