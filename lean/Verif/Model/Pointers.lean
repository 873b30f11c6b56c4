import Verif.Model.Shared
/-! # blot.go:35-37: pointers to the documents of a blot -/

namespace Dupi

/-- blot.go:35-37 `return &b.Docs[i]`: the address of the document; an index that is not below the length panics -/
def HBlot.doc (b : HBlot) (i : Int) : M Nat :=
  match b.docs with
  | none => panic'
  | some s => if 0 ≤ i ∧ i < s.len then .ok (s.off + i.toNat) else panic'

end Dupi
