import Verif.Model.Indexer
import Verif.Spec.DocBlots
import Verif.Spec.Path
/-! # What an index is about: documents and their blots -/

namespace Dupi.Spec

/-- a document with its absolute path -/
structure Document where
  path : Bytes
  start : UInt32
  stop : UInt32
  dat : Bytes
deriving DecidableEq, Repr

/-- the documents of a session, added with working directory `cwd` -/
def added (cwd : Bytes) (docs : List Doc) : List Document :=
  docs.map fun d => ⟨placeName (place cwd d.path), d.start, d.stop, d.dat.getD []⟩

/-- the documents of some sessions, in the order in which they were added -/
def documents (h : Sessions) : List Document := h.flatMap fun s => added s.1 s.2

/-- the blots of a text under a configuration -/
def blotsOf (u : Uni) (c : Config) (dat : Bytes) : List UInt32 :=
  blots c.blotConfig.seqLen.toNat c.blotConfig.interleave.toNat ((wordChars u dat).map (hashOf u))

/-- a text has a blot that agrees with `b` modulo the number of buckets of the index -/
def hasBlot (u : Uni) (c : Config) (dat : Bytes) (b : Nat) : Bool :=
  (blotsOf u c dat).any fun x => x.toNat % (c.numShards.toNat * 65536) = b % (c.numShards.toNat * 65536)

/-- the documents to be found under the blot `b` -/
def found (u : Uni) (c : Config) (docs : List Document) (b : Nat) : List Document :=
  docs.filter fun s => hasBlot u c s.dat b

/-- how a query shows a document: without its data -/
def Document.shown (s : Document) : Doc := ⟨s.path, s.start, s.stop, none⟩

/-- the number of buckets of an index -/
def numBuckets (c : Config) : Nat := c.numShards.toNat * 65536

/-- the buckets a text is in -/
def bucketsOf (u : Uni) (c : Config) (dat : Bytes) : List Nat := (List.range (numBuckets c)).filter fun b => hasBlot u c dat b

/-- The passage blot number `i` of a text comes from: where its first word begins and its last word
ends.  (`seqLen` words before the last one belong to it.) -/
def passage (u : Uni) (c : Config) (dat : Bytes) (i : Nat) : Option (Nat × Nat) :=
  match (wordsAt u dat)[i]?, (wordsAt u dat)[i + c.seqLen.toNat]? with
  | some a, some b => some (a.1, b.1 + b.2.length)
  | _, _ => none

/-- the text between two positions -/
def textAt (dat : Bytes) (r : Nat × Nat) : Bytes := (dat.drop r.1).take (r.2 - r.1)

end Dupi.Spec
