import Verif.Model.Main
/-! # strconv.ParseInt(s, 0, 64) (library, trusted base)

`flag.Int` reads its values with it (flag.go, `intValue.Set`); the flags -n, -s and -t of the index command are of that type (cmd/dupi/index.go:45-49).  Elsewhere
the function is a parameter (`Strconv.parseInt`); here it is followed as it is in the library.  Simplification: errors carry no text. -/

namespace Dupi
namespace ParseInt

/-- strconv/atoi.go, `lower`: `c | ('x' - 'X')` -/
def lower (c : UInt8) : UInt8 := c ||| 32

/-- the digit of a byte in the loop of `ParseUint` -/
def digit (c : UInt8) : Option Nat :=
  if 48 ≤ c ∧ c ≤ 57 then some (c.toNat - 48)
  else if 97 ≤ lower c ∧ lower c ≤ 122 then some ((lower c).toNat - 97 + 10)
  else none

/-- the loop of `ParseUint`: the number and whether there were underscores; `cutoff` is `maxUint64/base + 1` -/
def loop (base : Nat) : Nat → Bool → Bytes → Option (Nat × Bool)
  | n, u, [] => some (n, u)
  | n, u, c :: s =>
    if c = 95 then loop base n true s
    else match digit c with
      | none => none
      | some d =>
        if base ≤ d then none
        else if (2 ^ 64 - 1) / base + 1 ≤ n then none
        else if 2 ^ 64 - 1 < n * base + d then none
        else loop base (n * base + d) u s

/-- `ParseUint`, the base if it is given as 0, and what follows the prefix -/
def base : Bytes → Nat × Bytes
  | 48 :: c :: d :: t =>
    if lower c = 98 then (2, d :: t) else if lower c = 111 then (8, d :: t) else if lower c = 120 then (16, d :: t) else (8, c :: d :: t)
  | 48 :: t => (8, t)
  | s => (10, s)

/-- what the loop of `underscoreOK` saw last: '^', '0', '_', '!' -/
inductive Saw where
  | start | digit | under | other
deriving DecidableEq

/-- the loop of `underscoreOK` -/
def okLoop (hex : Bool) : Saw → Bytes → Bool
  | saw, [] => saw ≠ .under
  | saw, c :: s =>
    if (48 ≤ c ∧ c ≤ 57) ∨ (hex ∧ 97 ≤ lower c ∧ lower c ≤ 102) then okLoop hex .digit s
    else if c = 95 then (if saw = .digit then okLoop hex .under s else false)
    else if saw = .under then false
    else okLoop hex .other s

/-- `underscoreOK`, after the sign -/
def okNumber : Bytes → Bool
  | 48 :: c :: t =>
    if lower c = 98 ∨ lower c = 111 ∨ lower c = 120 then okLoop (lower c = 120) .digit t else okLoop false .start (48 :: c :: t)
  | s => okLoop false .start s

/-- `underscoreOK` -/
def underscoreOK : Bytes → Bool
  | c :: s => if c = 45 ∨ c = 43 then okNumber s else okNumber (c :: s)
  | [] => okNumber []

/-- `ParseUint(s, 0, 64)` -/
def parseUint (s : Bytes) : Option Nat :=
  if s = [] then none
  else match loop (base s).1 0 false (base s).2 with
    | none => none
    | some (n, u) => if u ∧ !underscoreOK s then none else some n

/-- `ParseInt(s, 0, 64)`; `none` if there is an error -/
def parse : Bytes → Option Int
  | [] => none
  | c :: s =>
    let neg := c = 45
    match parseUint (if c = 43 ∨ c = 45 then s else c :: s) with
    | none => none
    | some n =>
      if !neg ∧ 2 ^ 63 ≤ n then none
      else if neg ∧ 2 ^ 63 < n then none
      else some (if neg then -(n : Int) else n)

end ParseInt

/-- strconv with `ParseInt` as it is -/
def Strconv.go {F : Type} (parseFloat : Bytes → Option F) : Cmd.Strconv F := ⟨ParseInt.parse, parseFloat⟩

end Dupi
