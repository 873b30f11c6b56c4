import Verif.Spec.Index
/-! Specification of the order of a path table, and of the files of names and of records. -/

namespace Dupi.Spec

/-- the paths and the directories on the way to them, the directories of a path before it, each where it is first needed -/
def wayOrder (ps : List (List UInt8)) : List (List UInt8) := (ps.flatMap ways).eraseDups

/-- a text with one line for each of `ls` -/
def asLines (ls : List (List UInt8)) : List UInt8 := ls.flatMap (· ++ [10])

/-- the number of a path among `ps`; that of the root, for which `q` is empty, is 0 -/
def wayNumber (ps : List (List UInt8)) (q : List UInt8) : Nat := if q = [] then 0 else 1 + (wayOrder ps).idxOf q

/-- what is after the last '/' of a path -/
def nameOf (q : List UInt8) : List UInt8 := (q.reverse.takeWhile notSlash).reverse

/-- what is before it -/
def parentOf (q : List UInt8) : List UInt8 := ((q.reverse.dropWhile notSlash).drop 1).reverse

/-- a number in base 128, the least digit first, with 128 added to all digits but the last -/
def leb (n : Nat) : List UInt8 := if n < 128 then [UInt8.ofNat n] else UInt8.ofNat (128 + n % 128) :: leb (n / 128)
termination_by n
decreasing_by omega

/-- a number in four bytes, the greatest first -/
def big4 (n : Nat) : List UInt8 := [UInt8.ofNat (n / 256 ^ 3), UInt8.ofNat (n / 256 ^ 2), UInt8.ofNat (n / 256), UInt8.ofNat n]

/-- the file of names: how many there are with the root, then for each the length of its name, its name, and the number of its directory; the root has no name -/
def namesFile (ps : List (List UInt8)) : List UInt8 :=
  leb (1 + (wayOrder ps).length) ++ [0, 0] ++ (wayOrder ps).flatMap fun q => leb (nameOf q).length ++ nameOf q ++ leb (wayNumber ps (parentOf q))

/-- the file of records: one for the document 0, which is none, then for each document the number of its path and where it begins and ends -/
def recordsFile (docs : List Document) : List UInt8 :=
  big4 0 ++ big4 0 ++ big4 0 ++ docs.flatMap fun s => big4 (wayNumber (docs.map fun s => s.path) s.path) ++ big4 s.start.toNat ++ big4 s.stop.toNat

end Dupi.Spec
