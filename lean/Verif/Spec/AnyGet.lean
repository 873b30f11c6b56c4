import Verif.Spec.AnyDir
/-! # What `Get` makes of a directory with any contents -/

namespace Dupi.Spec

/-- `bs` is these numbers of 32 bits, one after the other -/
def NumsAs : Bytes → List Nat → Prop
  | bs, [] => bs = []
  | bs, d :: ds => ∃ a r, bs = a ++ r ∧ Num a d ∧ d < 2 ^ 32 ∧ NumsAs r ds

/-- At `p` there is a page: a chunk of at most 530 bytes, which are the differences `ds` and the link `q`. -/
def PageAt (f : Bytes) (p : Int) (ds : List Nat) (q : Int) : Prop :=
  ∃ n v, ChunkAt f p n v q ∧ v ≤ 530 ∧ NumsAs ((f.drop (p + n).toNat).take (v.toNat - 8)) ds

/-- from `p` to `q` there are pages with these differences; no page is at -1 -/
def Pages (f : Bytes) : Int → List (List Nat) → Int → Prop
  | p, [], q => q = p
  | p, ds :: dss, q => p ≠ -1 ∧ ∃ r, PageAt f p ds r ∧ Pages f r dss q

/-- the sums, of 32 bits, from `a` on -/
def sums : Nat → List Nat → List Nat
  | _, [] => []
  | a, d :: ds => (a + d) % 2 ^ 32 :: sums ((a + d) % 2 ^ 32) ds

/-- The list that begins at `h` has these documents, and then the link `q`. -/
def Reaches (f : Bytes) (h : Int) (ids : List Nat) (q : Int) : Prop := ∃ dss, Pages f h dss q ∧ ids = sums 0 dss.flatten

/-- The list that begins at `h` begins with these documents. -/
def BeginsWith (f : Bytes) (h : Int) (ids : List Nat) : Prop := ∃ all q, Reaches f h all q ∧ ids <+: all

/-- What the record and the path of a document say: the path, and where the document begins and ends in the file. -/
def DocAs (dmd : Bytes) (ns : List (Bytes × Nat)) (id : Nat) (path : Bytes) (start stop : Nat) : Prop :=
  ∃ p cs, RecordAt dmd id p ∧ p < ns.length ∧ Leads ns p cs ∧ path = sep :: joinSlash cs ∧
    start = four ((dmd.drop (12 * id + 4)).take 4) ∧ stop = four ((dmd.drop (12 * id + 8)).take 4)

/-- all of these documents have records and paths -/
def Known (dmd : Bytes) (ns : List (Bytes × Nat)) (ids : List Nat) : Prop := ∀ id ∈ ids, ∃ path a b, DocAs dmd ns id path a b

/-- the lists are as long as each other, and their elements so related -/
def Each {α β : Type} (R : α → β → Prop) : List α → List β → Prop
  | [], [] => True
  | a :: as, b :: bs => R a b ∧ Each R as bs
  | _, _ => False

/-- with room for `room` documents (`none`: for all), `k` do not fill it -/
def NotFull (room : Option Nat) (k : Nat) : Prop := ∀ n, room = some n → k < n

/-- what may become of a call -/
inductive Fate
  | result (ids : List Nat)
  | error
  | panic
  | endless

/-- What becomes of `Get`, for the list that begins at `h` in the file `post`, with the records `dmd` and the nodes `ns`. -/
def GetFate (dmd : Bytes) (ns : List (Bytes × Nat)) (post : Bytes) (h : Int) (room : Option Nat) : Fate → Prop
  | .result ids => Known dmd ns ids ∧ ((room = some ids.length ∧ BeginsWith post h ids) ∨ (NotFull room ids.length ∧ Reaches post h ids (-1)))
  | .error => ∃ ids, Known dmd ns ids ∧ NotFull room ids.length ∧
      ((∃ q, q ≠ -1 ∧ Reaches post h ids q ∧ ¬ WildAt post q ∧ ¬ ∃ ds r, PageAt post q ds r) ∨
       ∃ id, BeginsWith post h (ids ++ [id]) ∧ dmd.length < 12 * (id + 1))
  | .panic => ∃ ids, Known dmd ns ids ∧ NotFull room ids.length ∧
      ((∃ q, q ≠ -1 ∧ Reaches post h ids q ∧ WildAt post q) ∨
       ∃ id p, BeginsWith post h (ids ++ [id]) ∧ RecordAt dmd id p ∧ ns.length ≤ p)
  | .endless => (room = none ∧ ∀ n, ∃ ids, ids.length = n ∧ BeginsWith post h ids ∧ Known dmd ns ids) ∨
      ∃ ids id p, Known dmd ns ids ∧ NotFull room ids.length ∧ BeginsWith post h (ids ++ [id]) ∧ RecordAt dmd id p ∧ p < ns.length ∧ ¬ ∃ cs, Leads ns p cs

end Dupi.Spec
