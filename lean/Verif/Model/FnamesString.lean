import Verif.Model.Fnames
/-! # Printing the path table (fnames.go) -/

namespace Dupi.Fnames

/-- fnames.go:45-52: `fmt.Fprintf(w, "%s\n", abs)` for the number of every node, in order; a call of `abs` that panics or never returns is one of
`String` (writes to a `bytes.Buffer` do not fail; one larger than memory is not modelled) -/
def string (d : Table) : M Bytes :=
  (List.range d.length).foldlM (fun w i => do
    let a ← abs d (UInt32.ofNat i)
    return w ++ (a ++ [10])) []

end Dupi.Fnames
