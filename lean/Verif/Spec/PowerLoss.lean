import Verif.Spec.AnyDir
/-! # Files after a loss of power -/

namespace Dupi.Spec

/-- What a loss of power may leave of the bytes `b` of a file that were written and not forced to the disk: no more bytes, and of every page (`P` bytes) either
what was written or zeros. -/
def PageLost (P : Nat) (b b' : Bytes) : Prop :=
  b'.length ≤ b.length ∧ ∀ k : Nat, (∀ i, i / P = k → i < b'.length → b'[i]? = b[i]?) ∨ (∀ i, i / P = k → i < b'.length → b'[i]? = some 0)

/-- What a loss of power may leave of a directory whose files were written and not forced to the disk: files may be missing, and pages of the others lost.
(Posting files opened for appending are written with O_SYNC, internal/shard/indexer.go:75, so that of those less can be lost than this allows.) -/
def PowerLoss (P : Nat) (d d' : Dir) : Prop := ∀ f, d' f = none ∨ ∃ b b', d f = some b ∧ d' f = some b' ∧ PageLost P b b'

/-- all bytes of the file were lost, not its length -/
def blank (b : Bytes) : Bytes := List.replicate b.length 0

end Dupi.Spec
