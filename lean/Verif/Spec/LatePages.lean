import Verif.Spec.AnyGet
import Verif.Spec.PowerLoss
import Verif.Spec.Index
/-! # Posting files that differ in later pages of a list -/

namespace Dupi.Spec

/-- At `p` of `f` there is a page with these differences and this link, and it ends before `e`. -/
def PageTo (f : Bytes) (p : Int) (ds : List Nat) (r e : Int) : Prop :=
  ∃ n v, ChunkAt f p n v r ∧ v ≤ 530 ∧ NumsAs ((f.drop (p + n).toNat).take (v.toNat - 8)) ds ∧ e = p + n + v

/-- the bytes from `p` up to `e` are the same in both files -/
def SameBytes (f f' : Bytes) (p e : Int) : Prop := ∀ i : Nat, p ≤ i → i < e → f'[i]? = f[i]?

/-- from `p` to `q` there are pages with these differences in `f`, and in `f'` these pages have the same bytes -/
def KeptPages (f f' : Bytes) : Int → List (List Nat) → Int → Prop
  | p, [], q => q = p
  | p, ds :: dss, q => p ≠ -1 ∧ ∃ r e, PageTo f p ds r e ∧ SameBytes f f' p e ∧ KeptPages f f' r dss q

/-- Nothing can be read at `q` of `f'`, where `f` has a page up to `e`: there is a zero, or `f'` ends before it or inside it. -/
def Gone (f f' : Bytes) (q e : Int) : Prop := f'[q.toNat]? = some 0 ∨ (f'.length < e ∧ SameBytes f f' q f'.length)

/-- the document is shown as it was when it was added -/
def ShownAs (docs : List Document) (id : Nat) (doc : Doc) : Prop := ∃ s, 1 ≤ id ∧ docs[id - 1]? = some s ∧ doc.path = s.path ∧ doc.start = s.start ∧ doc.stop = s.stop

end Dupi.Spec
