import Verif.Model.Indexer
/-! # indexer.go: two indexers open on one index at the same time

`OpenIndexer` takes the lock of the index shared (indexer.go:87-95), as `OpenIndex` does, so two processes can have the index open for
appending. -/

namespace Dupi
namespace Indexer

/-- The open indexer `x`, another process having changed the files to `d` since `x` was opened.  What `x` has in memory is as it was: the
path table (indexer.go:183-194), the number of the next document (dmd/adder.go:31-51), and head, link, last value and total of each poster
(internal/shard/indexer.go:61-103).  The posting files are open and stay the same files (no Close removes or replaces one,
internal/shard/indexer.go:113-145), a poster asks for their size at each flush (internal/shard/poster.go:147-189); the dmd file is opened by
name at each flush and written at its end (dmd/adder.go:77-97).  Shards whose file is missing in `d` keep theirs. -/
def refresh (x : Indexer) (d : Dir) : Indexer :=
  { x with
    front := { x.front with file := d .dmd }
    shards := x.shards.mapIdx fun j s => { s with file := (d (.pos j)).getD s.file } }

/-- Two processes open the index in `d` for appending (indexer.go:86-96); the first one adds `A` and closes, then the second one adds `B` and
closes, which leaves `d'`.  Opening changes no file, and computes the same indexer in both.  Only executions in which the two sessions
do not overlap otherwise are modelled. -/
inductive Twin (u : Uni) (J : CfgCodec) (cwdA : Bytes) (A : List Doc) (cwdB : Bytes) (B : List Doc) (d : Dir) : Dir → Prop where
  | run {x : Indexer} {dA d' : Dir} : Indexer.open J d = .ok x → Session u J cwdA x A d dA → Session u J cwdB (x.refresh dA) B dA d' →
      Twin u J cwdA A cwdB B d d'

end Indexer
end Dupi
