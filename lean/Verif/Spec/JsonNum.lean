import Verif.Spec.Json
import Mathlib.Data.Real.Basic
/-! # The value of a JSON number -/

namespace Dupi.Spec

/-- the number that decimal digits stand for -/
def digitsNat (t : Bytes) : Nat := t.foldl (fun a b => 10 * a + (b.toNat - 48)) 0

/-- the text `t` is a JSON number with the value `x`: `[-]i[.f][e[+-]g]` is ±(i f)·10^(±g - |f|) -/
def NumberIs (t : Bytes) (x : ℝ) : Prop :=
  ∃ (s i f e : Bytes) (g : ℤ) (df : Bytes), t = s ++ (i ++ (f ++ e)) ∧ (s = [] ∨ s = [45]) ∧ IsDigits i ∧ (i.head? = some 48 → i = [48]) ∧
    (f = [] ∧ df = [] ∨ f = 46 :: df ∧ IsDigits df) ∧
    (e = [] ∧ g = 0 ∨ ∃ c h d, e = c :: (h ++ d) ∧ (c = 101 ∨ c = 69) ∧ (h = [] ∨ h = [43] ∨ h = [45]) ∧ IsDigits d ∧ g = if h = [45] then -(digitsNat d : ℤ) else digitsNat d) ∧
    x = (if s = [45] then -1 else 1) * (digitsNat (i ++ df) : ℝ) * 10 ^ (g - df.length)

end Dupi.Spec
