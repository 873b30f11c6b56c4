import Verif.Spec.Index
/-! # The records of the documents of any number of sessions

The metadata has one record for each document, in order, after a first one that belongs to none.  When the
number of all records is a multiple of `2 ^ 32`, one more that belongs to no document comes before those of
the next session. -/

namespace Dupi.Spec

/-- what stands for a record that belongs to no document -/
def noDocument : Document := ⟨[], 0, 0, []⟩

/-- what comes after the records of `docs` before those of a further session -/
def filler (docs : List Document) : List Document := if (docs.length + 1) % 2 ^ 32 = 0 then [noDocument] else []

/-- the records after the sessions `h`, when there were those of `docs` before -/
def laidFrom (docs : List Document) : Sessions → List Document
  | [] => docs
  | s :: h => laidFrom (docs ++ filler docs ++ added s.1 s.2) h

end Dupi.Spec
