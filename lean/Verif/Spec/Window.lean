/-! Specification of blots: xor over a window. -/

namespace Dupi.Spec

/-- the 32 bit Fowler-Noll-Vo hash, version 1: for each byte, multiply by the prime, then xor the byte -/
def fnv1 (b : List Nat) : Nat := b.foldl (fun h c => (h * 16777619 % 2 ^ 32) ^^^ c) 2166136261

/-- xor of a list of hashes -/
def xorAll (l : List UInt32) : UInt32 := l.foldr (· ^^^ ·) 0

/-- The blot of a window: starting from the most recent word and going back `k` words at a time,
the xor of `n` hashes.  `recent` lists the hashes of the words, most recent first; there may be
fewer than asked for. -/
def windowXor (n k : Nat) (recent : List UInt32) : UInt32 :=
  xorAll ((List.range n).filterMap fun t => recent[t * k]?)

end Dupi.Spec
