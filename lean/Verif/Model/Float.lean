import Mathlib.Analysis.Real.Sqrt
import Mathlib.Data.Int.Log
/-! # float64 (library, trusted base): IEEE 754 binary64 with rounding to nearest, ties to even

A finite value is the real number it stands for (the two zeros are not distinguished); `none` is any value that is not finite.  That operations on
such a value give such a value is a simplification: 1/Inf is 0.  The theorems show that the code modelled here never gets there. -/

namespace Dupi.Fl

open Classical in
/-- to the nearest integer, to the even one of two -/
noncomputable def rint (x : ℝ) : ℤ :=
  if Int.fract x < 1 / 2 then ⌊x⌋
  else if 1 / 2 < Int.fract x then ⌊x⌋ + 1
  else if Even ⌊x⌋ then ⌊x⌋ else ⌊x⌋ + 1

/-- the exponent of the last place of the float64s around `x`: 53 significant bits, but nothing below 2^-1074 -/
noncomputable def ulpExp (x : ℝ) : ℤ := max (Int.log 2 |x| - 52) (-1074)

open Classical in
/-- the float64 nearest to a real number -/
noncomputable def round (x : ℝ) : Option ℝ :=
  if |(rint (x / 2 ^ ulpExp x) : ℝ) * 2 ^ ulpExp x| < 2 ^ 1024 then some (rint (x / 2 ^ ulpExp x) * 2 ^ ulpExp x) else none

/-- `float64(n)` -/
noncomputable def ofNat (n : Nat) : Option ℝ := round n

noncomputable def add (x y : ℝ) : Option ℝ := round (x + y)
noncomputable def sub (x y : ℝ) : Option ℝ := round (x - y)
noncomputable def mul (x y : ℝ) : Option ℝ := round (x * y)

/-- a fused multiply-add: `x*y + z` rounded once -/
noncomputable def fma (x y z : ℝ) : Option ℝ := round (x * y + z)

open Classical in
noncomputable def div (x y : ℝ) : Option ℝ := if y = 0 then none else round (x / y)

open Classical in
/-- `math.Sqrt` -/
noncomputable def sqrt (x : ℝ) : Option ℝ := if x < 0 then none else round (Real.sqrt x)

end Dupi.Fl
