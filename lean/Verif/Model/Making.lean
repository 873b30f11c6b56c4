import Verif.Model.Faults
import Verif.Model.Disk
/-! # Making an index when something fails

`IndexerFromConfig` once more, on a disk and with every system call allowed to fail, up to the error it returns: what it has made by then stays. -/

namespace Dupi

namespace Disk

/-- indexer.go:68-77 with internal/shard/indexer.go:42-59 for the `n` shards from number `i` on: the operations one after the other, up to
the first that fails; `false`: an error is returned -/
def makeShardsF (n i : Nat) (φ : Fates) : Bool × Dir × Fates := Dir.empty.runF (Indexer.createOps n i) φ

/-- indexer.go:55-83: what comes after `os.Mkdir`; no `return nil, err` of it removes the directory.  `dmd.NewAdder` calls `os.Stat`
(dmd/adder.go:35), an error of which other than that the file does not exist is returned. -/
def makeRest (c : Config) (n : Nat) (φ : Fates) : M Indexer × Dir :=
  match c.tokenConfig.fromConfig with
  | .error e => (.error e, Dir.empty)
  | .ok _ =>
    match Fates.now φ with
    | some _ => (fail (.msg "stat"), Dir.empty)
    | none =>
      match Dmd.newAdder none c.docFlushRate with
      | .error e => (.error e, Dir.empty)
      | .ok a =>
        match makeShardsF n 0 φ.tail with
        | (false, d, _) => (fail (.msg "shard"), d)
        | (true, d, _) =>
          match Indexer.makeBlotters c with
          | .error e => (.error e, d)
          | .ok bs => (.ok ⟨c, ⟨Fnames.newFnames, a, none⟩, bs, List.replicate n (ShardIndexer.initCreate ShardIndexer.nBlots)⟩, d)

/-- indexer.go:42-84: `lock.New` and `Lock` (waiting for the lock is not modelled here; the lock file is beside the directory), then
`make`, which panics when the number is negative, then `os.Mkdir`, which fails when there is a directory.  `φ` are the fates of the
system calls in their order. -/
def make (k : Disk) (cwd : Bytes) (c : Config) (φ : Fates) : M Indexer × Disk :=
  match Fates.now φ with
  | some _ => (fail (.msg "lock file"), k)
  | none =>
    match Fates.now φ.tail with
    | some _ => (fail (.msg "lock"), k)
    | none =>
      match Indexer.makeShards c with
      | .error e => (.error e, k)
      | .ok n =>
        match Fates.now φ.tail.tail, k (resolve cwd c.indexRoot) with
        | some _, _ => (fail (.msg "mkdir"), k)
        | none, some _ => (fail .exist, k)
        | none, none => ((makeRest c n φ.tail.tail.tail).1, k.set (resolve cwd c.indexRoot) (makeRest c n φ.tail.tail.tail).2)

/-- what programs do when system calls may fail while an index is made -/
inductive Try where
  /-- all calls succeed -/
  | op (o : Op)
  /-- `IndexerFromConfig` returns an error, or panics -/
  | failed (cwd : Bytes) (c : Config) (φ : Fates)

/-- and the effects -/
inductive TryStep (u : Uni) (J : CfgCodec) (srt : Sorter) (k : Disk) : Try → Disk → Prop where
  | op {o : Op} {k' : Disk} : Step u J srt k o k' → TryStep u J srt k (.op o) k'
  | failed {cwd : Bytes} {c : Config} {φ : Fates} {e : Fault} {k' : Disk} : make k cwd c φ = (.error e, k') → TryStep u J srt k (.failed cwd c φ) k'

/-- one program after the other -/
inductive Tries (u : Uni) (J : CfgCodec) (srt : Sorter) : Disk → List Try → Disk → Prop where
  | nil {k : Disk} : Tries u J srt k [] k
  | snoc {k k' k'' : Disk} {ts : List Try} {t : Try} : Tries u J srt k ts k' → TryStep u J srt k' t k'' → Tries u J srt k (ts ++ [t]) k''

end Disk
end Dupi
