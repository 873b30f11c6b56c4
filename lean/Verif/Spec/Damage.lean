import Verif.Model.Indexer
/-! # What may happen to the files of an index on the disk -/

namespace Dupi.Spec

/-- `d'` is the directory `d` after any of its files were lost or cut short. -/
def CutFrom (d d' : Dir) : Prop := ∀ f, d' f = none ∨ ∃ b k, d f = some b ∧ d' f = some (b.take k)

/-! ## Posting files with any contents -/

/-- seven bits of each byte, the lowest first -/
def sevens : Bytes → Nat
  | [] => 0
  | b :: bs => b.toNat % 128 + 128 * sevens bs

/-- the signed numbers 0, -1, 1, -2, ... counted from 0 -/
def signed (m : Nat) : Int := if m % 2 = 0 then (m / 2 : Nat) else -((m / 2 : Nat) : Int) - 1

/-- At `p` the number `v` is written with `n` bytes: all but the last have the top bit set, it fits in 64 bits. -/
def NumberAt (f : Bytes) (p v : Int) (n : Nat) : Prop :=
  0 ≤ p ∧ ∃ bs b rest, f.drop p.toNat = bs ++ b :: rest ∧ bs.length + 1 = n ∧ n ≤ 10 ∧ (∀ c ∈ bs, 128 ≤ c.toNat) ∧ b.toNat < 128 ∧
    sevens (bs ++ [b]) < 2 ^ 64 ∧ v = signed (sevens (bs ++ [b]))

/-- At `p` there is a chunk: a length `v` (more than 8, less than 2^62) in `n` bytes, then `v` bytes, the last eight of which are the link `q`. -/
def ChunkAt (f : Bytes) (p : Int) (n : Nat) (v q : Int) : Prop :=
  NumberAt f p v n ∧ 8 < v ∧ v < 2 ^ 62 ∧ p + n + v ≤ f.length ∧ ∃ w, getBE64 (f.drop (p + n + v - 8).toNat) = .ok w ∧ q = u64ToI64 w

/-- following `k` links, from `p` to `q` -/
def Follow (f : Bytes) : Nat → Int → Int → Prop
  | 0, p, q => q = p
  | k + 1, p, q => ∃ n v r, ChunkAt f p n v r ∧ r ≠ -1 ∧ Follow f k r q

/-- the links never end -/
def Endless (f : Bytes) (p : Int) : Prop := ∀ k, ∃ q, Follow f k p q

/-- a length so large that no buffer can be made -/
def HugeAt (f : Bytes) (p : Int) : Prop := ∃ v n, NumberAt f p v n ∧ 2 ^ 62 ≤ v

/-- a length that is not the length of a chunk written by dupi: negative, or more than 530 -/
def WildAt (f : Bytes) (p : Int) : Prop := ∃ v n, NumberAt f p v n ∧ (v < 0 ∨ 530 < v)

/-- from `p` the links end, and not at a huge length -/
def Ends (f : Bytes) (p : Int) : Prop := ¬ Endless f p ∧ ¬ ∃ k q, Follow f k p q ∧ HugeAt f q

/-- ten bytes: a chunk whose only id is 0, and whose link is the place `h` where it begins -/
def loopBytes (h : Nat) : Bytes := [18, 0] ++ be64 (i64ToU64 h)

/-- ten bytes: the length 2^62 -/
def hugeBytes : Bytes := [128, 128, 128, 128, 128, 128, 128, 128, 128, 1]

end Dupi.Spec
