import Verif.Model.Go
/-! # Integer literals, as the Go specification has them -/

namespace Dupi.Spec

/-- the value of a digit -/
def digitOf (c : UInt8) : Option Nat :=
  if 48 ≤ c.toNat ∧ c.toNat ≤ 57 then some (c.toNat - 48)
  else if 97 ≤ c.toNat ∧ c.toNat ≤ 122 then some (c.toNat - 97 + 10)
  else if 65 ≤ c.toNat ∧ c.toNat ≤ 90 then some (c.toNat - 65 + 10)
  else none

/-- a digit of a base -/
def IsDigit (base : Nat) (c : UInt8) : Prop := ∃ d, digitOf c = some d ∧ d < base

/-- digits, with single underscores between them -/
inductive Digits (base : Nat) : Bytes → Prop where
  | one {c : UInt8} : IsDigit base c → Digits base [c]
  | more {c : UInt8} {l : Bytes} : IsDigit base c → Digits base l → Digits base (c :: l)
  | sep {c : UInt8} {l : Bytes} : IsDigit base c → Digits base l → Digits base (c :: 95 :: l)

/-- the number digits stand for -/
def number (base : Nat) (l : Bytes) : Nat := (l.filterMap digitOf).foldl (fun n d => n * base + d) 0

/-- the letters of the bases: b or B, o or O, x or X -/
inductive Letter : Nat → UInt8 → Prop where
  | b : Letter 2 98
  | B : Letter 2 66
  | o : Letter 8 111
  | O : Letter 8 79
  | x : Letter 16 120
  | X : Letter 16 88

/-- an integer literal and its value -/
inductive IntLit : Bytes → Nat → Prop where
  | zero : IntLit [48] 0
  | decimal {l : Bytes} : Digits 10 l → l.head? ≠ some 48 → IntLit l (number 10 l)
  | octal {l : Bytes} : Digits 8 l → IntLit (48 :: l) (number 8 l)
  | octal_ {l : Bytes} : Digits 8 l → IntLit (48 :: 95 :: l) (number 8 l)
  | based {base : Nat} {c : UInt8} {l : Bytes} : Letter base c → Digits base l → IntLit (48 :: c :: l) (number base l)
  | based_ {base : Nat} {c : UInt8} {l : Bytes} : Letter base c → Digits base l → IntLit (48 :: c :: 95 :: l) (number base l)

/-- a literal with or without a sign -/
inductive SignedLit : Bytes → Int → Prop where
  | plain {l : Bytes} {n : Nat} : IntLit l n → SignedLit l n
  | plus {l : Bytes} {n : Nat} : IntLit l n → SignedLit (43 :: l) n
  | minus {l : Bytes} {n : Nat} : IntLit l n → SignedLit (45 :: l) (-n)

end Dupi.Spec
