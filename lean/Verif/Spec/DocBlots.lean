import Verif.Spec.Runs
import Verif.Spec.Text
/-! # What the words and blots of a document are -/

namespace Dupi.Spec

/-- The words of a text: the maximal runs of letters and digits of the text without its last
character (see C08 for that restriction); none if it is not UTF-8. -/
def wordChars (u : Uni) (dat : Bytes) : List (List Char) :=
  match text dat with
  | some cs => ((runs (isWordChar u) cs.dropLast).filter (·.1)).map Prod.snd
  | none => []

/-- the words of a text, encoded -/
def words (u : Uni) (dat : Bytes) : List Bytes := (wordChars u dat).map utf8

/-- The blots of a sequence of word hashes: one for each word preceded by at least `n*k` others, the
xor over the window of `n` words ending there, taken at steps of `k`. -/
def blots (n k : Nat) (hs : List UInt32) : List UInt32 :=
  (List.range (hs.length - n * k)).map fun i => windowXor n k (hs.take (n * k + i + 1)).reverse

/-- where the word runs begin, and their text, when the first run begins at byte `p` -/
def placed : Nat → List (Bool × List Char) → List (Nat × Bytes)
  | _, [] => []
  | p, (w, cs) :: gs =>
    if w then (p, utf8 cs) :: placed (p + (utf8 cs).length) gs else placed (p + (utf8 cs).length) gs

/-- The words of a text with the byte positions at which they begin. -/
def wordsAt (u : Uni) (dat : Bytes) : List (Nat × Bytes) :=
  match text dat with
  | some cs => placed 0 (runs (isWordChar u) cs.dropLast)
  | none => []

end Dupi.Spec
