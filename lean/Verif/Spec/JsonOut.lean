import Verif.Spec.Json
import Verif.Spec.Numeral
import Mathlib.Data.List.Forall2
/-! # Blots and documents as JSON values -/

namespace Dupi.Spec

/-- a document: `{"Path": …, "Start": …, "End": …}` -/
def DocJson (d : Bytes × Nat × Nat) (v : JVal) : Prop :=
  ∃ cs s e, Repair d.1 cs ∧ Numeral 10 d.2.1 s ∧ Numeral 10 d.2.2 e ∧
    v = .obj [(['P', 'a', 't', 'h'], .str cs), (['S', 't', 'a', 'r', 't'], .num s), (['E', 'n', 'd'], .num e)]

/-- a blot with its documents: `{"Blot": …, "Docs": […]}` -/
def BlotJson (b : Nat) (docs : List (Bytes × Nat × Nat)) (v : JVal) : Prop :=
  ∃ n ds, Numeral 10 b n ∧ List.Forall₂ DocJson docs ds ∧ v = .obj [(['B', 'l', 'o', 't'], .num n), (['D', 'o', 'c', 's'], .arr ds)]

end Dupi.Spec
