import Verif.Spec.AnyDir

namespace Dupi.Spec

/-- the three parts of an entry of the file of heads: the place of the first chunk, the number of documents, and four bytes with the last document -/
inductive Part where
  | head
  | count
  | last
deriving DecidableEq, Repr

/-- both bytes have the top bit set, or none has -/
def SameTop (a b : UInt8) : Prop := 128 ≤ a.toNat ↔ 128 ≤ b.toNat

instance (a b : UInt8) : Decidable (SameTop a b) := inferInstanceAs (Decidable (_ ↔ _))

/-- In the directory, list `k` of shard `i` begins at `h`. -/
def HeadAt (d : Dir) (i k : Nat) (h : Int) : Prop :=
  ∃ iix es c, d (.iix i) = some iix ∧ Entries iix es ∧ es.length = 65536 ∧ es[k]? = some (h, c)

end Dupi.Spec
