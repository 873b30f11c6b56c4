import Verif.Spec.AnyDrawn
import Verif.Spec.Index
import Verif.Model.Find
/-! # What the commands may print of any directory -/

namespace Dupi.Spec

/-- What the files hold of a document with this path, beginning at `a` and ending at `b`, in 32 bits: the whole file if both are 0; nothing if there is no such file, or it is
too short. -/
def partOf (fs : Files) (path : Bytes) (a b : Nat) : Option Bytes :=
  (fs path).bind fun f =>
    if a = 0 ∧ b = 0 then some f
    else if (b + 2 ^ 32 - a) % 2 ^ 32 = 0 ∨ a + (b + 2 ^ 32 - a) % 2 ^ 32 ≤ f.length then some ((f.drop a).take ((b + 2 ^ 32 - a) % 2 ^ 32))
    else none

/-- the text of the first passage of `dat` with this blot -/
def textUnder (u : Uni) (c : Config) (b : Nat) (dat : Bytes) : Option Bytes :=
  (((blotsOf u c dat).findIdx? fun x => x.toNat % numBuckets c = b).bind (passage u c dat)).map (textAt dat)

/-- Under which text a document is shown that is said to have this blot, and how: the end of a whole file is its length. -/
def shownUnder (u : Uni) (c : Config) (fs : Files) (b : Nat) (doc : Doc) : Option (Bytes × Doc) :=
  (partOf fs doc.path doc.start.toNat doc.stop.toNat).bind fun dat =>
    (textUnder u c b dat).map fun t => (t, ⟨doc.path, doc.start, if doc.start = 0 ∧ doc.stop = 0 then UInt32.ofNat dat.length else doc.stop, none⟩)

end Dupi.Spec
