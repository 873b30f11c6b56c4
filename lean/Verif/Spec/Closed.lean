import Verif.Model.Closed
import Verif.Spec.Index
/-! # What calls on a closed index give -/

namespace Dupi.Spec

/-- calls use only queries that have been started, `n` of them before -/
def UsesStarted : Nat → List HCall → Prop
  | _, [] => True
  | n, .start :: cs => UsesStarted (n + 1) cs
  | n, .get k _ :: cs => k < n ∧ UsesStarted n cs
  | n, .next k _ :: cs => k < n ∧ UsesStarted n cs
  | n, .close _ :: cs => UsesStarted n cs
  | n, .stats :: cs => UsesStarted n cs

/-- `Next` is given slices that are nil or have length 0 -/
def GivesRoom : HCall → Prop
  | .next _ dst => ∀ b ∈ dst, b.docs = none ∨ ∃ s, b.docs = some ⟨[], s⟩
  | _ => True

/-- a slice that has no room left -/
def NoRoom (b : Blot) : Prop := ∃ v, b.docs = some ⟨v, []⟩

/-- What a call on a closed index gives.  `Close` and `Stats`: an error.  `Get`: the blot unchanged, and an error unless there is nothing to read.  `Next`: it counts
only blots that had two documents or more before, with those they had; if it counts none, an error or `io.EOF`. -/
def Turned (u : Uni) (c : Config) (docs : List Document) : HCall → HOut → Prop
  | .close _, .closed e => e ≠ none
  | .stats, .stats s => ∃ e, s = .error (.err e)
  | .start, .started => True
  | .get _ b, .got b' e => b' = b ∧ (e = none ↔ NoRoom b ∨ found u c docs b.blot.toNat = [])
  | .next _ dst, .next o => o.n ≤ dst.length ∧ (o.n = 0 → dst ≠ [] → o.err ≠ none) ∧
      ∀ i, i < o.n → ∃ b b', dst[i]? = some b ∧ o.dst[i]? = some b' ∧ 2 ≤ b.vis.length ∧ b'.vis = b.vis
  | _, _ => False

end Dupi.Spec
