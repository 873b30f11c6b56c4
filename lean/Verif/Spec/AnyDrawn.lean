import Verif.Spec.AnyNext
/-! # What a blot handed out of any directory may be -/

namespace Dupi.Spec

/-- Documents `ids`, at least two, that follow each other in the list of bucket `k` of shard `j`, behind those of `before`.  `ends` says that with them the list ends. -/
structure Stretch (d : Dir) (j k : Nat) (before ids : List Nat) (ends : Prop) : Prop where
  two : 2 ≤ ids.length
  list : ∃ post h, ListAt d j k post h ∧ BeginsWith post h (before ++ ids) ∧ (ends → Reaches post h (before ++ ids) (-1))

end Dupi.Spec
