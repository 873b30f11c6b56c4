import Verif.Spec.Index
/-! # What two indexers open on one index leave -/

namespace Dupi.Spec

/-- What is shown for the blot `b` once two indexers, both opened when the index held `docs`, have closed: the first one added `A`, then the
second one `B`.  If a document of `B` has the blot: the documents of the list of the second one, where its `k`th new document is shown
with the record that is `k`th behind those of `docs`, and these are the ones of `A` and then those of `B`.  Otherwise, if a document of
`docs` has it: those of `docs` and `A` that have it.  Otherwise: nothing. -/
def twinFound (u : Uni) (c : Config) (docs A B : List Document) (b : Nat) : List Document :=
  if B.any (fun s => hasBlot u c s.dat b) then
    found u c docs b ++ ((B.zip (A ++ B)).filter fun p => hasBlot u c p.1.dat b).map Prod.snd
  else if docs.any (fun s => hasBlot u c s.dat b) then found u c docs b ++ found u c A b
  else []

/-- `p` is the path of one of the documents, or of a directory it is in -/
def PathListed (docs : List Document) (p : Bytes) : Prop := ∃ s ∈ docs, p = s.path ∨ p ++ [47] <+: s.path

end Dupi.Spec
