import Verif.Model.Go
/-!
# Paths

Go strings are byte strings.  `filepath.Abs` (Unix) is library code: it is written down here
on path components, for an absolute working directory `cwd` (what `os.Getwd` returns).
-/

namespace Dupi

/-- `'/'`, `os.PathSeparator` -/
abbrev sep : UInt8 := 47

/-- `strings.Split(p, "/")`: always at least one part -/
def splitSlash : Bytes → List Bytes
  | [] => [[]]
  | b :: bs =>
    if b = sep then [] :: splitSlash bs
    else match splitSlash bs with
      | [] => [[b]]
      | p :: ps => (b :: p) :: ps

/-- `strings.Join(parts, "/")` -/
def joinSlash : List Bytes → Bytes
  | [] => []
  | [p] => p
  | p :: q :: ps => p ++ sep :: joinSlash (q :: ps)

/-- the elements `filepath.Clean` keeps of a rooted path: empty and "." elements are dropped,
".." removes the element before it (and is dropped at the root) -/
def cleanComps : List Bytes → List Bytes → List Bytes
  | acc, [] => acc.reverse
  | acc, p :: ps =>
    if p = [] ∨ p = [46] then cleanComps acc ps
    else if p = [46, 46] then cleanComps acc.tail ps
    else cleanComps (p :: acc) ps

/-- `filepath.Clean` of a rooted path -/
def cleanRooted (p : Bytes) : Bytes := sep :: joinSlash (cleanComps [] (splitSlash p))

/-- `filepath.Abs(p)` on Unix with working directory `cwd` -/
def absPath (cwd p : Bytes) : Bytes :=
  match p with
  | b :: _ => if b = sep then cleanRooted p else cleanRooted (cwd ++ sep :: p)
  | [] => cleanRooted (cwd ++ sep :: p)

end Dupi
