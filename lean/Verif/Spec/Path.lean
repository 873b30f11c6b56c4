import Verif.Spec.Runs
/-! Specification of what a path names: a walk through the tree of directories. -/

namespace Dupi.Spec

def notSlash (b : UInt8) : Bool := decide (b ≠ 47)

/-- the elements of a path: the maximal runs of bytes other than '/' -/
def elems (p : List UInt8) : List (List UInt8) := ((runs notSlash p).filter (·.1)).map Prod.snd

/-- one step of the walk: stay for ".", go up for ".." (staying at the root), go down otherwise -/
def step (at_ : List (List UInt8)) (e : List UInt8) : List (List UInt8) :=
  if e = [46] then at_ else if e = [46, 46] then at_.dropLast else at_ ++ [e]

/-- where the path `p` leads, starting from the root if it begins with '/' and from the working directory otherwise -/
def place (cwd p : List UInt8) : List (List UInt8) :=
  (elems p).foldl step (if p.head? = some 47 then [] else (elems cwd).foldl step [])

/-- the name of a place: "/" followed by the names of the directories on the way, separated by "/" -/
def placeName (l : List (List UInt8)) : List UInt8 := 47 :: (l.intersperse [47]).flatten

/-- the path `p` and the directories on the way to it, other than the root: of `/a/b` these are `/a` and `/a/b` -/
def ways (p : List UInt8) : List (List UInt8) :=
  ((List.range p.length).filter fun i => p[i + 1]? == none || p[i + 1]? == some 47).map fun i => p.take (i + 1)

/-- These paths can be numbered with 32 bit numbers: with the directories on the way to them and the root there are fewer than `2 ^ 32`, and so is the length of each. -/
def FewPaths (ps : List (List UInt8)) : Prop := 1 + (ps.flatMap ways).eraseDups.length < 2 ^ 32 ∧ ∀ p ∈ ps, p.length < 2 ^ 32

instance (ps : List (List UInt8)) : Decidable (FewPaths ps) := inferInstanceAs (Decidable (_ ∧ _))

end Dupi.Spec
