import Verif.Spec.Size
/-! # What a session changes -/

namespace Dupi.Spec

/-- the number of bytes of `f` that are not the same in `g` -/
def changed (f g : Bytes) : Nat := (List.range f.length).countP fun i => decide (f[i]? ≠ g[i]?)

/-- the number of buckets of shard `j` with documents of both lists -/
def grown (u : Uni) (c : Config) (j : Nat) (old new : List Document) : Nat :=
  (List.range 65536).countP fun q => old.any (fun s => hasBlot u c s.dat (bucket c j q)) && new.any fun s => hasBlot u c s.dat (bucket c j q)

end Dupi.Spec
