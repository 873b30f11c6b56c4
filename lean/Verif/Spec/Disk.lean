import Verif.Spec.Path
import Verif.Model.Disk
/-! Specification of several indexes on a disk: a catalogue, in which every index is found by its place only. -/

namespace Dupi.Spec
open Disk

/-- the indexes there are: with which configuration, and made by which sessions -/
abbrev Catalogue := List Bytes → Option (Config × Sessions)

/-- what each operation is about -/
def at_ : Op → List Bytes
  | .create cwd c _ => place cwd c.indexRoot
  | .append cwd root _ => place cwd root
  | .remove cwd root => place cwd root
  | .discard cwd root _ => place cwd root

def Catalogue.after (g : Catalogue) (op : Op) : Catalogue := fun p =>
  match op with
  | .create cwd c docs => if p = at_ op then some (c, [(cwd, docs)]) else g p
  | .append cwd _ docs => if p = at_ op then (g p).map fun e => (e.1, e.2 ++ [(cwd, docs)]) else g p
  | .remove _ _ => if at_ op <+: p then none else g p
  | .discard _ _ _ => if at_ op <+: p then none else g p

/-- the catalogue after some operations, beginning with nothing -/
def catalogue (ops : List Op) : Catalogue := ops.foldl Catalogue.after fun _ => none

/-- creating needs a free place, all else an index -/
def Catalogue.Allows (g : Catalogue) (op : Op) : Prop :=
  match op with
  | .create _ _ _ => g (at_ op) = none
  | _ => (g (at_ op)).isSome

end Dupi.Spec
