import Verif.Model.Token
/-! # What trigrams are: three consecutive characters of the folded text -/

namespace Dupi.Spec

/-- the characters a trigram is made of: digits, small letters, underscore -/
def alphabet : List Char := "0123456789abcdefghijklmnopqrstuvwxyz_".toList

/-- the character that stands for `r`: itself for digits and small letters, the small letter for a capital, underscore for all others -/
def folded (r : Nat) : Char :=
  if '0'.toNat ≤ r ∧ r ≤ '9'.toNat ∨ 'a'.toNat ≤ r ∧ r ≤ 'z'.toNat then Char.ofNat r
  else if 'A'.toNat ≤ r ∧ r ≤ 'Z'.toNat then (Char.ofNat r).toLower
  else '_'

/-- the last three of a list -/
def lastThree (l : List α) : List α := l.drop (l.length - 3)

/-- the folded text of the words and separators -/
def foldedText (toks : List Tok) : List Char :=
  toks.flatMap fun tok => match tok.tag with
    | .word => tok.lit.map fun b => folded b.toNat
    | .other => ['_']
    | .eod => []

/-- all runs of three consecutive elements -/
def triples : List α → List (List α)
  | a :: b :: c :: l => [a, b, c] :: triples (b :: c :: l)
  | _ => []

end Dupi.Spec
