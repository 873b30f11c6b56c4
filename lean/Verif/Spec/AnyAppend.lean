import Verif.Spec.AnyDir
/-! # Directories with any contents: what is read of them in order to append -/

namespace Dupi.Spec

/-- the number made of `bs` when errors are not looked at: up to ten bytes, ending at the first one without the top bit, or after ten; a tenth byte between 2 and 127 is
left out of the number, and only 64 bits are kept -/
def LaxValue (bs : Bytes) (v : Nat) : Prop :=
  ∃ cs b, bs = cs ++ [b] ∧ cs.length < 10 ∧ (∀ c ∈ cs, 128 ≤ c.toNat) ∧ (b.toNat < 128 ∨ cs.length = 9) ∧
    (cs.length = 9 ∧ 1 < b.toNat ∧ b.toNat < 128 ∧ v = sevens cs ∨ ¬ (cs.length = 9 ∧ 1 < b.toNat ∧ b.toNat < 128) ∧ v = sevens bs % 2 ^ 64)

/-- a list as the file of heads has it: where its first chunk is, how many documents it has, and the last of them -/
structure ListEntry where
  head : Int
  count : Nat
  last : Nat

/-- `bs` is an entry of the file of heads, as a session reads it -/
def AppendEntry (bs : Bytes) (e : ListEntry) : Prop :=
  ∃ l m t k v, bs = l ++ m ++ t ∧ Num l k ∧ e.head = signed k ∧ LaxValue m v ∧ signed v = e.count ∧ e.count < 2 ^ 32 ∧ t.length = 4 ∧ e.last = four t

/-- the file begins with these entries -/
def AppendEntries : Bytes → List ListEntry → Prop
  | _, [] => True
  | f, e :: es => ∃ a r, f = a ++ r ∧ AppendEntry a e ∧ AppendEntries r es

/-- the last link of the list that begins at `h` is at `l`; both are -1 if there is no list -/
def LastLink (f : Bytes) (h l : Int) : Prop :=
  h = -1 ∧ l = -1 ∨ h ≠ -1 ∧ ∃ k q n v, Follow f k h q ∧ ChunkAt f q n v (-1) ∧ l = q + n + v - 8

/-- The two files of shard `i` are there, and these are the first entries of the file of heads. -/
def AppendShard (d : Dir) (i : Nat) (post : Bytes) (es : List ListEntry) : Prop :=
  ∃ iix, d (.iix i) = some iix ∧ d (.pos i) = some post ∧ AppendEntries iix es ∧ es.length = 65536

/-- every list of shard `i` has a last link -/
def ShardOpens (d : Dir) (i : Nat) : Prop := ∃ post es, AppendShard d i post es ∧ ∀ e ∈ es, ∃ l, LastLink post e.head l

/-- the first list of shard `i` that has no last link has the property -/
def ShardStops (P : Bytes → Int → Prop) (d : Dir) (i : Nat) : Prop :=
  ∃ post es k e, AppendShard d i post es ∧ es[k]? = some e ∧ e.head ≠ -1 ∧ P post e.head ∧ ∀ (j : Nat) (e' : ListEntry), j < k → es[j]? = some e' → ∃ l, LastLink post e'.head l

/-- a length so large that no buffer can be made, where links lead to -/
def LeadsHuge (f : Bytes) (h : Int) : Prop := ∃ k q, Follow f k h q ∧ HugeAt f q

/-- What is looked at before the shards is in order: the configuration can be read and has no negative number of shards; the flush rate is at least 1, or it is 0 and there is a
record already; the path table is one; the tokenizer is known. -/
def Begun (J : CfgCodec) (d : Dir) (c : Config) (ns : List (Bytes × Nat)) : Prop :=
  Config.readFrom J d = .ok c ∧ 0 ≤ c.numShards ∧
  (1 ≤ c.docFlushRate ∨ c.docFlushRate = 0 ∧ ∃ b, d .dmd = some b ∧ (b.length / 12) % 2 ^ 32 ≠ 0) ∧
  (∃ f, d .fnm = some f ∧ TableFile f ns) ∧ c.tokenConfig.name = wordsSimple

end Dupi.Spec
