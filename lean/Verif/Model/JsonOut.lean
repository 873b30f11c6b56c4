import Verif.Model.Json
import Verif.Model.Query
/-! # encoding/json on blots and documents (cmd/dupi/extract.go:98)

`json.MarshalIndent(shp2, "", "\t")` on a slice of blots, written down from the sources of Go 1.17 like Model/Json. -/

namespace Dupi.Json

/-- an array at depth `n` -/
def array (n : Nat) (vs : List Bytes) : Bytes :=
  if vs = [] then [91, 93] else [91] ++ nl (n + 1) ++ (vs.intersperse (44 :: nl (n + 1))).flatten ++ nl n ++ [93]

/-- doc.go:26-31, at depth `n`: `Dat` is left out -/
def doc (n : Nat) (d : Doc) : Bytes :=
  object n [member "Path" (encStr d.path), member "Start" (encNat d.start.toNat), member "End" (encNat d.stop.toNat)]

/-- blot.go:30-33, at depth `n`; a nil slice is `null` -/
def blot (n : Nat) (b : Blot) : Bytes :=
  object n [member "Blot" (encNat b.blot.toNat),
    member "Docs" (match b.docs with
      | none => [110, 117, 108, 108]
      | some _ => array (n + 1) (b.vis.map (doc (n + 2))))]

/-- `json.MarshalIndent(shp2, "", "\t")` -/
def blots (bs : List Blot) : Bytes := array 0 (bs.map (blot 1))

end Dupi.Json
