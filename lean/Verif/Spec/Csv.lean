import Verif.Model.Go
/-! # Comma-separated files with two columns (after RFC 4180) -/

namespace Dupi.Spec

/-- a line end -/
def IsNL (t : Bytes) : Prop := t = [10] ∨ t = [13, 10]

/-- the ways to write a field: as it is, or between quotes with its own quotes doubled -/
inductive FieldText : Bytes → Bytes → Prop where
  | plain {f : Bytes} : (∀ b ∈ f, b ≠ 34 ∧ b ≠ 44 ∧ b ≠ 10 ∧ b ≠ 13) → FieldText f f
  | quoted {f : Bytes} : ¬ [13, 10] <:+: f → FieldText f (34 :: f.flatMap (fun b => if b = 34 then [34, 34] else [b]) ++ [34])

/-- the ways to write records: one on a line, the last line end may be missing, and there may be empty lines -/
inductive CsvText : List (Bytes × Bytes) → Bytes → Prop where
  | nil : CsvText [] []
  | blank {rs : List (Bytes × Bytes)} {nl t : Bytes} : IsNL nl → CsvText rs t → CsvText rs (nl ++ t)
  | cons {a b ta tb nl t : Bytes} {rs : List (Bytes × Bytes)} : FieldText a ta → FieldText b tb → IsNL nl → CsvText rs t →
      CsvText ((a, b) :: rs) (ta ++ 44 :: (tb ++ (nl ++ t)))
  | last {a b ta tb : Bytes} : FieldText a ta → FieldText b tb → CsvText [(a, b)] (ta ++ 44 :: tb)

end Dupi.Spec
