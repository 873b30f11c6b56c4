import Verif.Spec.AnyAppend
import Verif.Spec.AnyGet
import Verif.Spec.Index
/-! # What a session leaves of a directory with any contents -/

namespace Dupi.Spec

/-- the records a session finds: if there is not one of twelve bytes, it puts one of zeros at the end of what there is -/
def withFirst (dmd : Bytes) : Bytes := if dmd.length < 12 then dmd ++ List.replicate 12 0 else dmd

/-- the number the next document gets -/
def numberNext (dmd : Bytes) : Nat := (withFirst dmd).length / 12

/-- there are numbers of 32 bits for the documents and for their paths -/
structure RoomFor (dmd : Bytes) (ns : List (Bytes × Nat)) (cwd : Bytes) (new : List Doc) : Prop where
  ids : numberNext dmd + new.length < 2 ^ 32
  paths : ns.length + ((added cwd new).map fun s => s.path.length).sum < 2 ^ 32

/-- one of the documents belongs in list `k` of shard `j` -/
def GetsOne (u : Uni) (c : Config) (docs : List Document) (j k : Nat) : Prop :=
  ∃ s ∈ docs, ∃ b ∈ blotsOf u c s.dat, b.toNat % c.numShards.toNat = j ∧ b.toNat / c.numShards.toNat % 65536 = k

/-- the numbers of the documents to be found under `b`, the first of the documents being number `i` -/
def holders (u : Uni) (c : Config) (b : Nat) (i : Nat) (docs : List Document) : List Nat :=
  ((docs.zipIdx i).filter fun s => hasBlot u c s.1.dat b).map fun s => s.2

end Dupi.Spec
