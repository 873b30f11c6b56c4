import Verif.Spec.Json
import Verif.Spec.Numeral
import Verif.Model.Config
/-! # A configuration, as a JSON value -/

namespace Dupi.Spec

/-- a character without its case: of the ASCII letters, and for U+017F (long s) and U+212A (Kelvin sign) -/
def foldChar (c : Char) : Char :=
  if 'A' ≤ c ∧ c ≤ 'Z' then Char.ofNat (c.toNat + 32) else if c.toNat = 0x17F then 's' else if c.toNat = 0x212A then 'k' else c

/-- two keys that differ only in case -/
def SameKey (k k' : List Char) : Prop := k.map foldChar = k'.map foldChar

/-- a member of an object: its name, what its value is to be, and whether it may be left out -/
structure JField where
  name : String
  holds : JVal → Prop
  absent : Prop

/-- The members are: the fields, in any order and any number of times, with the value they are to have or null; and whatever else, under other names.
Each field that may not be left out is there, and not only with null. -/
def Describes (fs : List JField) (ms : List (List Char × JVal)) : Prop :=
  (∀ m ∈ ms, m.2 = .null ∨ (∀ f ∈ fs, ¬ SameKey f.name.toList m.1) ∨ ∃ f ∈ fs, SameKey f.name.toList m.1 ∧ f.holds m.2) ∧
    ∀ f ∈ fs, f.absent ∨ ∃ m ∈ ms, SameKey f.name.toList m.1 ∧ f.holds m.2

/-- the integer, written without fraction and exponent -/
def IntIs (i : Int) (v : JVal) : Prop := ∃ n t, Numeral 10 n t ∧ ((v = .num t ∧ i = n) ∨ (v = .num (45 :: t) ∧ i = -n))

/-- the text -/
def StrIs (s : Bytes) (v : JVal) : Prop := ∃ cs, v = .str cs ∧ s = utf8 cs

def intField (name : String) (i : Int) : JField := ⟨name, IntIs i, i = 0⟩
def strField (name : String) (s : Bytes) : JField := ⟨name, StrIs s, s = []⟩
def objField (name : String) (fs : List JField) : JField := ⟨name, fun v => ∃ ms, v = .obj ms ∧ Describes fs ms, ∀ f ∈ fs, f.absent⟩

def tokenFields (c : TokenConfig) : List JField := [strField "Name" c.name]

def blotFields (c : BlotConfig) : List JField := [intField "SeqLen" c.seqLen, intField "Interleave" c.interleave]

/-- the fields of a configuration; those that are 0, empty or made of such may be left out -/
def configFields (c : Config) : List JField :=
  [strField "IndexRoot" c.indexRoot, intField "SeqLen" c.seqLen, intField "NumShards" c.numShards, intField "NumShatters" c.numShatters,
    intField "DocFlushRate" c.docFlushRate, objField "TokenConfig" (tokenFields c.tokenConfig), objField "BlotConfig" (blotFields c.blotConfig)]

/-- the text is JSON for the configuration, and not nested too deeply -/
def ConfigText (c : Config) (t : Bytes) : Prop := ∃ ms, IsJson (.obj ms) t ∧ depth (.obj ms) ≤ 10000 ∧ Describes (configFields c) ms

end Dupi.Spec
