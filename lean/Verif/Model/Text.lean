import Verif.Model.Cmd
import Verif.Model.JsonOut
/-! # cmd/dupi: what is printed, and the argument of unblot -/

namespace Dupi.Cmd

/-- a digit: 0-9, a-f -/
def digit (d : Nat) : UInt8 := UInt8.ofNat (if d < 10 then 48 + d else 87 + d)

/-- `n` in base `k + 2` (package fmt, trusted base) -/
def digits (k : Nat) (n : Nat) : Bytes :=
  if _h : n < k + 2 then [digit n] else digits k (n / (k + 2)) ++ [digit (n % (k + 2))]
termination_by n
decreasing_by exact Nat.div_lt_self (by omega) (by omega)

/-- `%x` -/
def hex (n : UInt32) : Bytes := digits 14 n.toNat

/-- `%d` -/
def dec (n : UInt32) : Bytes := digits 8 n.toNat

/-- cmd/dupi/extract.go:114-117: " %s@%d:%d" -/
def docText (d : Doc) : Bytes := 32 :: (d.path ++ 64 :: (dec d.start ++ 58 :: dec d.stop))

/-- cmd/dupi/extract.go:113-118 without -b and -json, one blot -/
def blotLine (b : Blot) : Bytes := hex b.blot ++ b.vis.flatMap docText ++ [10]

/-- what the extract command prints, without -b and -json -/
def extractText (out : List Blot) : Bytes := out.flatMap blotLine

/-- what it prints with -b (cmd/dupi/extract.go:109-112) -/
def extractBlots (out : List Blot) : Bytes := out.flatMap fun b => hex b.blot ++ [10]

/-- what it prints with -json (cmd/dupi/extract.go:88-106): each blot is in an array of its own, there is nothing between the arrays -/
def extractJson (out : List Blot) : Bytes := out.flatMap fun b => Json.blots [b]

/-- the value of a hexadecimal digit -/
def hexVal (b : UInt8) : Option Nat :=
  if 48 ≤ b ∧ b ≤ 57 then some (b.toNat - 48)
  else if 97 ≤ b ∧ b ≤ 102 then some (b.toNat - 87)
  else if 65 ≤ b ∧ b ≤ 70 then some (b.toNat - 55)
  else none

/-- the number hexadecimal digits stand for -/
def hexValue (l : Bytes) : Nat := l.foldl (fun n b => 16 * n + (hexVal b).getD 0) 0

/-- `fmt.Sscanf(arg, "%x", &hex)` (library, trusted base; cmd/dupi/unblot.go:51-54) for a `uint32`: `none` is an error; `skip` skips space.  What follows the
digits is not looked at. -/
def scanHex (skip : Bytes → Option Bytes) (arg : Bytes) : Option UInt32 := do
  let s ← skip arg
  let tok := s.takeWhile fun b => (hexVal b).isSome
  if tok = [] then none
  else if hexValue tok < 2 ^ 32 then some (UInt32.ofNat (hexValue tok))
  else none

end Dupi.Cmd
