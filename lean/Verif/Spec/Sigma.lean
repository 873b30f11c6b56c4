import Verif.Model.Sigma
import Verif.Spec.Index
/-! # -sigma: what is asked of the conversion to int, the order of float64s, what is printed -/

namespace Dupi.Spec

/-- the language: the conversion of an integral value in the range of `int` is that integer -/
def Converts (conv : F64 → Int) : Prop := ∀ k : ℤ, -2 ^ 63 ≤ k → k < 2 ^ 63 → conv (.fin k) = k

/-- the order of the float64s that are numbers -/
inductive Le64 : F64 → F64 → Prop where
  | fin {x y : ℝ} (h : x ≤ y) : Le64 (.fin x) (.fin y)
  | low (x : ℝ) : Le64 (.inf true) (.fin x)
  | high (x : ℝ) : Le64 (.fin x) (.inf false)
  | infs : Le64 (.inf true) (.inf false)
  | same (n : Bool) : Le64 (.inf n) (.inf n)

/-- precisely the buckets of at least two and at least `N` documents, each once and with all its documents, those with most documents first -/
structure Exactly (u : Uni) (c : Config) (docs : List Document) (N : Int) (out : List Blot) : Prop where
  nodup : (out.map Blot.blot).Nodup
  which : ∀ b : UInt32, b ∈ out.map Blot.blot ↔ b.toNat < numBuckets c ∧ 2 ≤ (found u c docs b.toNat).length ∧ N ≤ (found u c docs b.toNat).length
  whole : ∀ b ∈ out, b.vis = (found u c docs b.blot.toNat).map Document.shown
  sorted : out.Pairwise (fun a b => b.vis.length ≤ a.vis.length)

end Dupi.Spec
