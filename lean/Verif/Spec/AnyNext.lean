import Verif.Spec.AnyGet
/-! # The numbers of documents that a directory with any contents states -/

namespace Dupi.Spec

/-- The file of heads of shard `i` says that the list of bucket `k` has `c` documents. -/
def CountAt (d : Dir) (i k c : Nat) : Prop :=
  ∃ iix es h, d (.iix i) = some iix ∧ Entries iix es ∧ es.length = 65536 ∧ es[k]? = some (h, c)

/-- The list of bucket `k` of shard `i`, read without a limit, meets this fate. -/
def Meets (d : Dir) (dmd : Bytes) (ns : List (Bytes × Nat)) (i k : Nat) (F : Fate) : Prop := ∃ post h, ListAt d i k post h ∧ GetFate dmd ns post h none F

end Dupi.Spec
