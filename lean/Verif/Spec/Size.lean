import Verif.Spec.Index
/-! # How large the lists of an index are -/

namespace Dupi.Spec

/-- the number of base 128 digits of a number below 2^35 -/
def digits (n : Nat) : Nat :=
  if n < 2 ^ 7 then 1 else if n < 2 ^ 14 then 2 else if n < 2 ^ 21 then 3 else if n < 2 ^ 28 then 4 else 5

/-- the numbers, counted from 1, of the documents in bucket `b` -/
def numbersOf (u : Uni) (c : Config) (docs : List Document) (b : Nat) : List Nat :=
  ((docs.zipIdx 1).filter fun x => hasBlot u c x.1.dat b).map (·.2)

/-- what is to be added to `a`, then to the first number, and so on, to get the numbers -/
def gaps : Nat → List Nat → List Nat
  | _, [] => []
  | a, b :: l => (b - a) :: gaps b l

/-- the digits of all gaps of a bucket -/
def gapDigits (u : Uni) (c : Config) (docs : List Document) (b : Nat) : Nat :=
  ((gaps 0 (numbersOf u c docs b)).map digits).sum

/-- the number of sessions that added a document to bucket `b` -/
def growths (u : Uni) (c : Config) (h : Sessions) (b : Nat) : Nat :=
  h.countP fun s => (added s.1 s.2).any fun d => hasBlot u c d.dat b

/-- bucket number `q` of shard `j` -/
def bucket (c : Config) (j q : Nat) : Nat := q * c.numShards.toNat + j

/-- the sum over the buckets of a shard -/
def overShard (c : Config) (j : Nat) (f : Nat → Nat) : Nat := ((List.range 65536).map fun q => f (bucket c j q)).sum

end Dupi.Spec
