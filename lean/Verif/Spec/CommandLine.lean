import Verif.Model.Go
/-! # Options on a command line -/

namespace Dupi.Spec

/-- the ways to write an option: `-name value`, `-name=value`, `-name` -/
inductive Style where
  | apart
  | equals
  | bare
deriving DecidableEq

/-- an option: its name, its value, and how it is written, with one dash or two -/
structure Opt where
  name : Bytes
  value : Bytes
  style : Style
  two : Bool

/-- the arguments an option is written as -/
def Opt.args (o : Opt) : List Bytes :=
  let flag := (if o.two then [45, 45] else [45]) ++ o.name
  match o.style with
  | .apart => [flag, o.value]
  | .equals => [flag ++ 61 :: o.value]
  | .bare => [flag]

/-- what follows the options: arguments the first of which does not look like an option, or anything after "--" -/
inductive Rest : List Bytes → List Bytes → Prop where
  | plain {l : List Bytes} : (∀ a ∈ l.head?, a.head? ≠ some 45 ∨ a = [45]) → Rest l l
  | dashes {l : List Bytes} : Rest ([45, 45] :: l) l

/-- the value of an option given several times: the last -/
def valueOf (opts : List Opt) (name : Bytes) : Option Bytes := ((opts.filter fun o => o.name = name).map Opt.value).getLast?

end Dupi.Spec
