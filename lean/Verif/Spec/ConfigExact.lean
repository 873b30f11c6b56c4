import Verif.Spec.ConfigJson
/-! # What a JSON value says about a configuration -/

namespace Dupi.Spec

def isNull : JVal → Bool
  | .null => true
  | _ => false

/-- the values given for a name, in the order of the text; the name may be written in any case, and null gives no value -/
def given (name : String) (ms : List (List Char × JVal)) : List JVal :=
  (ms.filter fun m => decide (name.toList.map foldChar = m.1.map foldChar) && !isNull m.2).map Prod.snd

/-- a whole number that fits 64 bits, written with digits only, and perhaps a minus -/
def WholeIs (i : Int) (v : JVal) : Prop :=
  -2 ^ 63 ≤ i ∧ i < 2 ^ 63 ∧ ∃ (n : Nat) (t : Bytes), IsDigits t ∧ t.foldl (fun a b => 10 * a + (b.toNat - 48)) 0 = n ∧
    ((v = .num t ∧ i = n) ∨ (v = .num (45 :: t) ∧ i = -n))

/-- every value given is of the kind, and `x` is the last of them, or what there was before -/
def Last {α : Type} (P : α → JVal → Prop) (old : α) (vs : List JVal) (x : α) : Prop :=
  (∀ v ∈ vs, ∃ y, P y v) ∧ match vs.getLast? with
    | none => x = old
    | some v => P x v

/-- the values given are objects; all their members, one after the other -/
def Parts (vs : List JVal) (ms : List (List Char × JVal)) : Prop := ∃ l : List (List (List Char × JVal)), vs = l.map JVal.obj ∧ ms = l.flatten

def TokenFrom (old : TokenConfig) (ms : List (List Char × JVal)) (c : TokenConfig) : Prop := Last StrIs old.name (given "Name" ms) c.name

def BlotFrom (old : BlotConfig) (ms : List (List Char × JVal)) (c : BlotConfig) : Prop :=
  Last WholeIs old.seqLen (given "SeqLen" ms) c.seqLen ∧ Last WholeIs old.interleave (given "Interleave" ms) c.interleave

/-- what `old` becomes with the members -/
def ConfigFrom (old : Config) (ms : List (List Char × JVal)) (c : Config) : Prop :=
  Last StrIs old.indexRoot (given "IndexRoot" ms) c.indexRoot ∧
  Last WholeIs old.seqLen (given "SeqLen" ms) c.seqLen ∧
  Last WholeIs old.numShards (given "NumShards" ms) c.numShards ∧
  Last WholeIs old.numShatters (given "NumShatters" ms) c.numShatters ∧
  Last WholeIs old.docFlushRate (given "DocFlushRate" ms) c.docFlushRate ∧
  (∃ ms', Parts (given "TokenConfig" ms) ms' ∧ TokenFrom old.tokenConfig ms' c.tokenConfig) ∧
  (∃ ms', Parts (given "BlotConfig" ms) ms' ∧ BlotFrom old.blotConfig ms' c.blotConfig)

/-- what is nothing: 0 and the empty text -/
def noConfig : Config := ⟨[], 0, 0, 0, 0, ⟨[]⟩, ⟨0, 0⟩⟩

/-- The text is JSON, with what is no text in its strings put right, and says this configuration: it is an object or null. -/
def Says (t : Bytes) (c : Config) : Prop :=
  ∃ v, IsJsonOf LaxChars v t ∧ depth v ≤ 10000 ∧ ∃ ms, (v = .obj ms ∨ v = .null ∧ ms = []) ∧ ConfigFrom noConfig ms c

end Dupi.Spec
