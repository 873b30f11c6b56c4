import Verif.Model.Token
/-! # attic: integer Bloom filter, posting sets, trigrams

Code kept in the repository but not used by the rest of it. -/

namespace Dupi.Attic

/-! ## ibloom -/

/-- attic/ibloom/fnv32.go:17-20.  Sizes are `int`s; the methods convert them to uint32. -/
structure Filter where
  k : Int
  mbytes : Int
deriving DecidableEq, Repr

/-- attic/ibloom/fnv32.go:37 -/
def prime : UInt32 := 0x01000193

/-- attic/ibloom/fnv32.go:39-50 -/
def hash (hop : UInt32) : UInt32 :=
  let hh : UInt32 := 1
  let hh := (hh ^^^ (hop &&& 0xff)) * prime
  let hh := (hh ^^^ ((hop >>> 8) &&& 0xff)) * prime
  let hh := (hh ^^^ ((hop >>> 16) &&& 0xff)) * prime
  (hh ^^^ ((hop >>> 24) &&& 0xff)) * prime

/-- `uint32(x)` of an `int` -/
def toU32 (x : Int) : UInt32 := UInt32.ofNat (x % 2 ^ 32).toNat

/-- attic/ibloom/fnv32.go:89-92; the remainder by 0 panics -/
def clamp (h n : UInt32) : M UInt32 := if n * 8 = 0 then panic' else .ok (h % (n * 8))

/-- attic/ibloom/fnv32.go:68-70: position number `i` of a value with hash `hh` -/
def Filter.one (f : Filter) (hh i : UInt32) : M UInt32 := clamp ((hh ^^^ (i + 97)) * prime) (toU32 f.mbytes)

/-- attic/ibloom/fnv32.go:60-62; a negative size panics -/
def Filter.set (f : Filter) : M Bytes := if f.mbytes < 0 then panic' else .ok (List.replicate f.mbytes.toNat 0)

/-- `d[p/8] & (1 << (p%8)) != 0` -/
def getBit (d : Bytes) (p : Nat) : M Bool :=
  match d[p / 8]? with
  | none => panic'
  | some b => .ok (b &&& (1 <<< UInt8.ofNat (p % 8)) ≠ 0)

/-- `d[p/8] |= 1 << (p%8)` -/
def setBit (d : Bytes) (p : Nat) : M Bytes :=
  match d[p / 8]? with
  | none => panic'
  | some b => .ok (d.set (p / 8) (b ||| (1 <<< UInt8.ofNat (p % 8))))

/-- attic/ibloom/fnv32.go:64-76 with the function of Has (94-99): `n` positions left, the next is number `i` -/
def Filter.hasLoop (f : Filter) (d : Bytes) (hh : UInt32) : Nat → UInt32 → M Bool
  | 0, _ => .ok true
  | n + 1, i => do
    let hb ← f.one hh i
    let b ← getBit d hb.toNat
    if b then f.hasLoop d hh n (i + 1) else return false

/-- attic/ibloom/fnv32.go:94-99 -/
def Filter.has (f : Filter) (d : Bytes) (v : UInt32) : M Bool := f.hasLoop d (hash v) (toU32 f.k).toNat 0

/-- attic/ibloom/fnv32.go:64-76 with the function of Add (101-107) -/
def Filter.addLoop (f : Filter) (hh : UInt32) : Nat → UInt32 → Bytes → M Bytes
  | 0, _, d => .ok d
  | n + 1, i, d => do
    let hb ← f.one hh i
    let d ← setBit d hb.toNat
    f.addLoop hh n (i + 1) d

/-- attic/ibloom/fnv32.go:101-107 -/
def Filter.add (f : Filter) (d : Bytes) (v : UInt32) : M Bytes := f.addLoop (hash v) (toU32 f.k).toNat 0 d

/-! ## bposts -/

/-- attic/bposts.go:21-27 (without the root) -/
structure BPosts where
  total : UInt32
  post : UInt32
  bloomer : Filter
  set : Bytes
deriving DecidableEq, Repr

/-- attic/bposts.go:38-42 on a zero value -/
def BPosts.init (f : Filter) : M BPosts := do
  let s ← f.set
  return ⟨0, 0, f, s⟩

/-- attic/bposts.go:29-36 -/
def BPosts.ones (f : Filter) : M BPosts := do
  let s ← f.set
  return ⟨0, 0, f, s.map fun _ => 0xff⟩

/-- the loops of attic/bposts.go:44-56 -/
def zipLoop (op : UInt8 → UInt8 → UInt8) : Bytes → Bytes → M Bytes
  | [], _ => .ok []
  | _ :: _, [] => panic'
  | a :: as, b :: bs => do
    let r ← zipLoop op as bs
    return op a b :: r

/-- attic/bposts.go:44-49 -/
def BPosts.intersect (t o : BPosts) : M BPosts := do
  let s ← zipLoop (· &&& ·) t.set o.set
  return { t with set := s }

/-- attic/bposts.go:51-56 -/
def BPosts.union (t o : BPosts) : M BPosts := do
  let s ← zipLoop (· ||| ·) t.set o.set
  return { t with set := s }

/-- attic/bposts.go:58-65 -/
def BPosts.isZero (t : BPosts) : Bool := t.set.all (· == 0)

/-- attic/bposts.go:67-69 -/
def BPosts.hasPost (t : BPosts) (v : UInt32) : M Bool := t.bloomer.has t.set v

/-- attic/bposts.go:85-93 -/
def BPosts.addPost (t : BPosts) (v : UInt32) : M BPosts :=
  if t.post = v ∧ t.total ≠ 0 then .ok t
  else do
    let s ← t.bloomer.add t.set v
    return { t with post := v, total := t.total + 1, set := s }

/-- attic/bposts.go:71-83: the positions of the ones, appended to `dst`; byte number `i` onwards -/
def onesLoop : Nat → Bytes → List Nat
  | _, [] => []
  | i, b :: bs => (if b = 0 then [] else (List.range 8).filterMap fun j => if b &&& (1 <<< UInt8.ofNat j) ≠ 0 then some (i * 8 + j) else none) ++
      onesLoop (i + 1) bs

def BPosts.bits (t : BPosts) (dst : List Nat) : List Nat := dst ++ onesLoop 0 t.set

/-! ## trigram -/

/-- attic/trigram/t.go:29-31 -/
def numLetters : UInt16 := 37
def numTrigrams : Nat := 37 * 37 * 37
def cOther : UInt8 := 36

/-- attic/trigram/t.go:34-42 (all results are ASCII characters) -/
def unletter (c : UInt8) : Nat := if c ≤ 9 then 48 + c.toNat else if c ≤ 35 then 97 + c.toNat - 10 else 95

/-- attic/trigram/t.go:44-55, for a non-negative rune -/
def letter (r : Nat) : UInt8 :=
  if 48 ≤ r ∧ r ≤ 57 then UInt8.ofNat (r - 48)
  else if 97 ≤ r ∧ r ≤ 122 then UInt8.ofNat (r - 97 + 10)
  else if 65 ≤ r ∧ r ≤ 90 then UInt8.ofNat (r - 65 + 10)
  else cOther

/-- attic/trigram/t.go:57-66: the three characters -/
def str (t : UInt16) : List Nat :=
  let an := numLetters
  let c2 := unletter (t % an).toUInt8
  let t := t / an
  let c1 := unletter (t % an).toUInt8
  let t := t / an
  let c0 := unletter (t % an).toUInt8
  [c0, c1, c2]

/-- attic/trigram/t.go:68-74 -/
def shift (t : UInt16) (c : UInt8) : UInt16 :=
  let an := numLetters
  t % (an * an) * an + c.toUInt16

/-- attic/trigram/t.go:76-79 -/
def zero : UInt16 := shift (shift (shift 0 cOther) cOther) cOther

/-- attic/trigram/t.go:121-126, the loop over the bytes of a word; returns the state and what was appended -/
def wordLoop : UInt16 → Bytes → UInt16 × List UInt16
  | tri, [] => (tri, [])
  | tri, r :: rs =>
    let tri := shift tri (letter r.toNat)
    let (t, out) := wordLoop tri rs
    (t, tri :: out)

/-- attic/trigram/t.go:115-131 -/
def fromToken (dst : List UInt16) (start : UInt16) (tok : Tok) : M (UInt16 × List UInt16) :=
  match tok.tag with
  | .other =>
    let tri := shift start cOther
    .ok (tri, dst ++ [tri])
  | .word =>
    let (tri, out) := wordLoop start tok.lit
    .ok (tri, dst ++ out)
  | _ => panic'

/-- attic/trigram/t.go:109-111 -/
def fromTokensLoop : UInt16 → List UInt16 → List Tok → M (List UInt16)
  | _, dst, [] => .ok dst
  | tri, dst, tok :: toks => do
    let (tri, dst) ← fromToken dst tri tok
    fromTokensLoop tri dst toks

/-- attic/trigram/t.go:107-113; `dst[2:]` panics on fewer than two (with the capacity taken to be the length) -/
def fromTokens (dst : List UInt16) (toks : List Tok) : M (List UInt16) := do
  let dst ← fromTokensLoop zero dst toks
  if dst.length < 2 then panic' else return dst.drop 2

/-- attic/trigram/t.go:81-98: what `fn` is called with; an `Eod` token sets the state to 0 -/
def visitToken (start : UInt16) (tok : Tok) : M (UInt16 × List UInt16) :=
  match tok.tag with
  | .other =>
    let tri := shift start cOther
    .ok (tri, [tri])
  | .word => .ok (wordLoop start tok.lit)
  | .eod => .ok (0, [])

/-- attic/trigram/t.go:100-105 -/
def visitTokens : UInt16 → List Tok → M (List UInt16)
  | _, [] => .ok []
  | tri, tok :: toks => do
    let (tri, out) ← visitToken tri tok
    let rest ← visitTokens tri toks
    return out ++ rest

end Dupi.Attic
