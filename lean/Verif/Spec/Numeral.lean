import Verif.Model.Go
/-! # Numerals -/

namespace Dupi.Spec

/-- the value of a digit: 0-9, a-f -/
def digitVal (b : UInt8) : Option Nat :=
  if 48 ≤ b.toNat ∧ b.toNat ≤ 57 then some (b.toNat - 48)
  else if 97 ≤ b.toNat ∧ b.toNat ≤ 102 then some (b.toNat - 87)
  else none

/-- `t` is how the number `n` is written in a base: with digits of that base, the highest first, and none too many -/
def Numeral (base n : Nat) (t : Bytes) : Prop :=
  t ≠ [] ∧ (∀ b ∈ t, ∃ v, v < base ∧ digitVal b = some v) ∧ t.foldl (fun a b => base * a + (digitVal b).getD 0) 0 = n ∧ (t.head? = some 48 → t = [48])

end Dupi.Spec
