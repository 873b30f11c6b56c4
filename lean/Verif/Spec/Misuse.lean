import Verif.Spec.CommandLine
/-! # Options that are not as they should be -/

namespace Dupi.Spec

/-- an argument that looks like an option but has no name: "-=...", "--=...", "---..." -/
def Malformed (a : Bytes) : Prop := ∃ x, a = 45 :: 61 :: x ∨ a = 45 :: 45 :: 61 :: x ∨ a = 45 :: 45 :: 45 :: x

/-- what can be the name of an option -/
structure Named (n : Bytes) : Prop where
  ne : n ≠ []
  dash : n.head? ≠ some 45
  noEq : 61 ∉ n

/-- "h", "help" -/
def helpNames : List Bytes := [[104], [104, 101, 108, 112]]

/-- What is there to be known of the options of a command: the names of those without a value, the names of those with one, the values they accept, and the
values that may be given to the former nevertheless. -/
structure Usage where
  toggles : List Bytes
  valued : List Bytes
  accepts : Bytes → Bytes → Prop
  truth : Bytes → Prop

/-- an option as the usage wants it -/
def Usage.Proper (U : Usage) (o : Opt) : Prop :=
  (o.name ∈ U.valued ∧ o.style ≠ .bare ∧ U.accepts o.name o.value) ∨
    (o.name ∈ U.toggles ∧ ((o.style = .bare ∧ o.value = [116, 114, 117, 101]) ∨ (o.style = .equals ∧ U.truth o.value)))

/-- Arguments that begin with an improper option; whether it asks for help. -/
inductive Usage.Misused (U : Usage) : List Bytes → Bool → Prop where
  | malformed {a : Bytes} {rest : List Bytes} : Malformed a → U.Misused (a :: rest) false
  | unknown {o : Opt} {rest : List Bytes} : Named o.name → o.name ∉ U.toggles → o.name ∉ U.valued → U.Misused (o.args ++ rest) (o.name ∈ helpNames)
  | toggle {o : Opt} {rest : List Bytes} : o.name ∈ U.toggles → o.style = .equals → ¬ U.truth o.value → U.Misused (o.args ++ rest) false
  | value {o : Opt} {rest : List Bytes} : o.name ∈ U.valued → o.style ≠ .bare → ¬ U.accepts o.name o.value → U.Misused (o.args ++ rest) false
  | missing {o : Opt} : o.name ∈ U.valued → o.style = .bare → U.Misused o.args false

end Dupi.Spec
