import Verif.Model.Indexer
/-! # The caller's documents (indexer.go:236-253)

`Add` is given a pointer to a `Doc` and changes what it points to: `doc.Path = ""` at indexer.go:251 and
again at :241.  Here the caller has variables holding documents. -/

namespace Dupi.Again

/-- what the caller does -/
inductive Act where
  /-- put a document into variable `v` -/
  | set (v : Nat) (doc : Doc)
  /-- `x.Add(&v)` -/
  | add (v : Nat)

/-- the caller's variables -/
abbrev Vars := Nat → Doc

def Vars.put (vs : Vars) (v : Nat) (d : Doc) : Vars := fun i => if i = v then d else vs i

/-- indexer.go:236-253: as `Front.adds`, with the effect on the caller's variables.  (`addPath` failing, which leaves the
variable as it is, ends the run.) -/
def run (cwd : Bytes) : Front → Vars → List Act → M (List Front.Req × Front × Vars)
  | x, vs, [] => .ok ([], x, vs)
  | x, vs, .set v d :: as => run cwd x (vs.put v d) as
  | x, vs, .add v :: as => do
    let (id, x) ← x.add cwd (vs v)
    let (rs, x, ws) ← run cwd x (vs.put v { vs v with path := [] }) as
    return ((id, (vs v).start, (vs v).dat.getD []) :: rs, x, ws)

end Dupi.Again
