import Verif.Spec.Damage
/-! # Directories with any contents: what the bytes of the files say -/

namespace Dupi.Spec

/-- `bs` is the number `v`: up to ten bytes, all but the last with the top bit set, seven bits in each, and less than 2^64 -/
def Num (bs : Bytes) (v : Nat) : Prop :=
  ∃ cs b, bs = cs ++ [b] ∧ cs.length < 10 ∧ (∀ c ∈ cs, 128 ≤ c.toNat) ∧ b.toNat < 128 ∧ sevens bs = v ∧ v < 2 ^ 64

/-! ## The path table -/

/-- `bs` is a node: the length of the name, the name, the number of the parent -/
def NodeAs (bs name : Bytes) (parent : Nat) : Prop :=
  ∃ l p, bs = l ++ name ++ p ∧ Num l name.length ∧ Num p parent ∧ name.length < 2 ^ 32 ∧ parent < 2 ^ 32

/-- `bs` is these nodes, one after the other -/
def NodesAs : Bytes → List (Bytes × Nat) → Prop
  | bs, [] => bs = []
  | bs, n :: ns => ∃ a r, bs = a ++ r ∧ NodeAs a n.1 n.2 ∧ NodesAs r ns

/-- The file begins with a table of these nodes: their number, then the nodes; and every parent is one of them. -/
def TableFile (f : Bytes) (ns : List (Bytes × Nat)) : Prop :=
  ∃ l bs rest, f = l ++ bs ++ rest ∧ Num l ns.length ∧ ns.length < 2 ^ 32 ∧ NodesAs bs ns ∧ ∀ n ∈ ns, n.2 < ns.length

/-- The file begins with a number of nodes and some of them, among which one has a parent that would be none of the nodes. -/
def StrayFile (f : Bytes) : Prop :=
  ∃ l bs rest n ns, f = l ++ bs ++ rest ∧ Num l n ∧ n < 2 ^ 32 ∧ NodesAs bs ns ∧ ns.length ≤ n ∧ ∃ x ∈ ns, n ≤ x.2

/-- from node `i` the parents lead to the root, node 0; the names on the way, that of `i` last -/
inductive Leads (ns : List (Bytes × Nat)) : Nat → List Bytes → Prop
  | root : Leads ns 0 []
  | step {i : Nat} {name : Bytes} {p : Nat} {cs : List Bytes} : i ≠ 0 → ns[i]? = some (name, p) → Leads ns p cs → Leads ns i (cs ++ [name])

/-! ## Records -/

/-- the four bytes as a number, the highest first -/
def four : Bytes → Nat
  | [a, b, c, d] => ((a.toNat * 256 + b.toNat) * 256 + c.toNat) * 256 + d.toNat
  | _ => 0

/-- The record of document `id` is in the file, and names path `p`. -/
def RecordAt (f : Bytes) (id p : Nat) : Prop := 12 * (id + 1) ≤ f.length ∧ p = four ((f.drop (12 * id)).take 4)

/-! ## The heads of the lists -/

/-- `bs` is an entry of the file of heads, as a reader wants it: the place `h` of the first chunk, the number `c` of documents, and four more bytes -/
def EntryAs (bs : Bytes) (h : Int) (c : Nat) : Prop :=
  ∃ l m t k k', bs = l ++ m ++ t ∧ Num l k ∧ h = signed k ∧ Num m k' ∧ signed k' = c ∧ c < 2 ^ 32 ∧ t.length = 4

/-- up to ten bytes, ending at the first one without the top bit, or after ten -/
def LaxNum (bs : Bytes) : Prop := ∃ cs b, bs = cs ++ [b] ∧ cs.length < 10 ∧ (∀ c ∈ cs, 128 ≤ c.toNat) ∧ (b.toNat < 128 ∨ cs.length = 9)

/-- an entry as it is read in order to append: the number of documents may be more than 64 bits -/
def LaxEntryAs (bs : Bytes) (h : Int) : Prop := ∃ l m t k, bs = l ++ m ++ t ∧ Num l k ∧ h = signed k ∧ LaxNum m ∧ t.length = 4

/-- these are the heads in the file -/
def LaxHeads : Bytes → List Int → Prop
  | _, [] => True
  | f, h :: hs => ∃ a r, f = a ++ r ∧ LaxEntryAs a h ∧ LaxHeads r hs

/-- these are the heads and numbers of documents in the file -/
def Entries : Bytes → List (Int × Nat) → Prop
  | _, [] => True
  | f, e :: es => ∃ a r, f = a ++ r ∧ EntryAs a e.1 e.2 ∧ Entries r es

/-- In the directory, list `k` of shard `i` begins at `h` in the posting file `post`. -/
def ListAt (d : Dir) (i k : Nat) (post : Bytes) (h : Int) : Prop :=
  ∃ iix es c, d (.iix i) = some iix ∧ d (.pos i) = some post ∧ Entries iix es ∧ es.length = 65536 ∧ es[k]? = some (h, c)

/-- The files of shard `i` are there, and that of the heads has what a reader wants. -/
def ShardThere (d : Dir) (i : Nat) : Prop := ∃ iix post es, d (.iix i) = some iix ∧ d (.pos i) = some post ∧ Entries iix es ∧ es.length = 65536

/-- from the heads of the lists of a shard, as they are read in order to append, the links end -/
def Walkable (d : Dir) (i : Nat) : Prop :=
  ∀ iix post hs, d (.iix i) = some iix → d (.pos i) = some post → LaxHeads iix hs → hs.length = 65536 → ∀ h ∈ hs, h = -1 ∨ Ends post h

/-- Every record of the file, of a document whose number has 32 bits, names a path that is in the table and leads to the root. -/
def PathsThere (dmd : Bytes) (ns : List (Bytes × Nat)) : Prop := ∀ id p, id < 2 ^ 32 → RecordAt dmd id p → p < ns.length ∧ ∃ cs, Leads ns p cs

end Dupi.Spec
