import Verif.Spec.Size

namespace Dupi.Spec

/-- what follows the last slash -/
def lastPart (q : Bytes) : Bytes := (q.reverse.takeWhile (· ≠ 47)).reverse

/-- the twelve bytes of record `n` are the same in both files -/
def SameRecord (f f' : Bytes) (n : Nat) : Prop := ∀ i, 12 * n ≤ i → i < 12 * n + 12 → f'[i]? = f[i]?

end Dupi.Spec
