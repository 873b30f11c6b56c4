import Verif.Model.Utf8
import Verif.Spec.Window
/-! # Texts and characters, independently of the model

Characters are Lean's `Char` (Unicode scalar values); encoding and decoding are those of Lean's own
library.  Only the Unicode tables are those the model is parameterized by. -/

namespace Dupi.Spec

/-- the UTF-8 encoding of some characters -/
def utf8 (cs : List Char) : Bytes := cs.flatMap String.utf8EncodeChar

/-- the characters some bytes encode in UTF-8, if they do -/
def text (dat : Bytes) : Option (List Char) := dat.toByteArray.utf8Decode?.map Array.toList

/-- the bytes are UTF-8 -/
def IsText (dat : Bytes) : Prop := ∃ cs, dat = utf8 cs

/-- letter or digit -/
def isWordChar (u : Uni) (c : Char) : Bool := u.isLetter c.toNat || u.isDigit c.toNat

/-- lower case of a character -/
def lowerChar (u : Uni) (c : Char) : Char := Char.ofNat (u.toLower c.toNat)

/-- the hash of a word: FNV-1 of the UTF-8 encoding of its lower case -/
def hashOf (u : Uni) (w : List Char) : UInt32 := UInt32.ofNat (fnv1 ((utf8 (w.map (lowerChar u))).map UInt8.toNat))

/-- ASCII lower case of a byte -/
def asciiLower (b : UInt8) : UInt8 := if 65 ≤ b.toNat ∧ b.toNat ≤ 90 then UInt8.ofNat (b.toNat + 32) else b

end Dupi.Spec
