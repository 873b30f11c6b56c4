import Mathlib.Analysis.Real.Sqrt
import Verif.Spec.Index
/-! # The mean and the standard deviation of a list of numbers; float64s -/

namespace Dupi.Spec

/-- the mean -/
noncomputable def mean (l : List ℕ) : ℝ := (l.sum : ℝ) / l.length

/-- the standard deviation -/
noncomputable def sd (l : List ℕ) : ℝ := √((l.map fun n : ℕ => ((n : ℝ) - mean l) ^ 2).sum / l.length)

/-- the number of documents in every bucket -/
def bucketSizes (u : Uni) (c : Config) (docs : List Document) : List ℕ := (List.range (numBuckets c)).map fun b => (found u c docs b).length

/-- the float64s, without the bound above: integers of at most 53 bits times a power of two -/
def Is64 (z : ℝ) : Prop := ∃ k e : ℤ, |k| ≤ 2 ^ 53 ∧ -1074 ≤ e ∧ z = k * 2 ^ e

end Dupi.Spec
