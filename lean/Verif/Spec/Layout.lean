import Verif.Spec.DocBlots
/-! # Texts laid out differently -/

namespace Dupi.Spec

/-- some characters between words, then words with what comes after each of them -/
def laidOut (s0 : List Char) (ps : List (List Char × List Char)) : List Char := s0 ++ ps.flatMap fun p => p.1 ++ p.2

/-- the words are words, what is between them is not, and something comes after every word -/
structure Laid (u : Uni) (s0 : List Char) (ps : List (List Char × List Char)) : Prop where
  start : ∀ ch ∈ s0, isWordChar u ch = false
  word : ∀ p ∈ ps, p.1 ≠ [] ∧ ∀ ch ∈ p.1, isWordChar u ch = true
  after : ∀ p ∈ ps, p.2 ≠ [] ∧ ∀ ch ∈ p.2, isWordChar u ch = false

/-- two texts with the same words but for upper and lower case -/
structure SameWords (u : Uni) (dat dat' : Bytes) : Prop where
  ex : ∃ s0 ps s0' ps', Laid u s0 ps ∧ Laid u s0' ps' ∧ dat = utf8 (laidOut s0 ps) ∧ dat' = utf8 (laidOut s0' ps') ∧
    ps.map (fun p => p.1.map (lowerChar u)) = ps'.map fun p => p.1.map (lowerChar u)

/-- two lists that agree element by element, in the sense of `R` -/
inductive Alike {α : Type} (R : α → α → Prop) : List α → List α → Prop where
  | nil : Alike R [] []
  | cons {a b : α} {l m : List α} : R a b → Alike R l m → Alike R (a :: l) (b :: m)

end Dupi.Spec
