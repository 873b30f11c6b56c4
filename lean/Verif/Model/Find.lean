import Verif.Model.Query
/-! # doc.go and index.go:192-267: reading documents and looking for blots in them -/

namespace Dupi

/-- The files of the file system by absolute path.  (Relative paths, links and permissions are not
modelled; `none`: `os.Open` fails.) -/
abbrev Files := Bytes → Option Bytes

namespace Doc

/-- doc.go:39-69.  `doc.End-doc.Start` wraps at 32 bits. -/
def load (fs : Files) (doc : Doc) : M Doc :=
  match fs doc.path with
  | none => fail .notExist
  | some f =>
    if doc.start = 0 ∧ doc.stop = 0 then
      .ok { doc with dat := some f, stop := UInt32.ofNat f.length }
    else
      match readAt f doc.start.toNat (doc.stop - doc.start).toNat with
      | .ok b => .ok { doc with dat := some b }
      | .error (.err e) => fail (.wrap "readat" e)
      | .error f => .error f

/-- index.go:193-198, 234-239: load unless there is data -/
def ensure (fs : Files) (doc : Doc) : M Doc :=
  match doc.dat with
  | some _ => .ok doc
  | none => doc.load fs

end Doc

/-- index.go:200-207, 241-248: the words are moved to the front of the slice; behind them stays what was there -/
def compact (toks : List Tok) : List Tok := wordToks toks ++ toks.drop (wordToks toks).length

namespace Index

/-- uint32(x.NumShards()) * (1 << 16), index.go:210, 217, 251, 257: wraps at 32 bits -/
def blotMod (c : Config) : UInt32 := UInt32.ofNat (c.numShards % 2 ^ 32).toNat * 65536

/-- the start and end of the passage ending with word `i`, index.go:221-222, 261-262 -/
def span (seqLen : Int) (all : List Tok) (i : Nat) (tok : Tok) : M (UInt32 × UInt32) :=
  if (i : Int) - seqLen < 0 then panic'
  else match all[((i : Int) - seqLen).toNat]? with
    | none => panic'
    | some t => .ok (t.pos, tok.pos + UInt32.ofNat tok.lit.length)

/-- index.go:252-266; `all` is the slice, `i` the index of the word at the front of the rest -/
def findBlotLoop (u : Uni) (seqLen : Int) (N the : UInt32) (all : List Tok) : Blotter → Nat → List Tok → M (UInt32 × UInt32)
  | _, _, [] => fail (.msg "blot not found")
  | b, i, tok :: toks => do
    let (h, b) ← b.blot u tok.lit
    if (i : Int) < seqLen then findBlotLoop u seqLen N the all b (i + 1) toks
    else if N = 0 then panic'
    else if h % N ≠ the then findBlotLoop u seqLen N the all b (i + 1) toks
    else span seqLen all i tok

/-- index.go:233-267.  Also returns the document, into which data may have been loaded. -/
def findBlot (u : Uni) (fs : Files) (c : Config) (the : UInt32) (doc : Doc) : M ((UInt32 × UInt32) × Doc) := do
  let doc ← doc.ensure fs
  c.tokenFunc
  let toks ← Token.tokenize u [] (doc.dat.getD []) doc.start
  let b ← c.blotter
  let r ← findBlotLoop u c.seqLen (blotMod c) the (compact toks) b 0 (wordToks toks)
  return (r, doc)

/-- a `map[uint32][]byte` without nil values: no key occurs twice -/
abbrev Texts := List (UInt32 × Bytes)

/-- `m[k] = v` -/
def Texts.set (m : Texts) (k : UInt32) (v : Bytes) : Texts := (k, v) :: m.filter (·.1 ≠ k)

/-- `m[k]` -/
def Texts.get (m : Texts) (k : UInt32) : Option Bytes := m.lookup k

/-- index.go:212-230 (the capacity of `doc.Dat` is taken to be its length) -/
def findBlotsLoop (u : Uni) (seqLen : Int) (N : UInt32) (m : UInt32 → Option Bytes) (dat : Bytes) (all : List Tok) :
    Blotter → Nat → Texts → List Tok → M Texts
  | _, _, res, [] => .ok res
  | b, i, res, tok :: toks => do
    let (h, b) ← b.blot u tok.lit
    if (i : Int) < seqLen then findBlotsLoop u seqLen N m dat all b (i + 1) res toks
    else if N = 0 then panic'
    else match m (h % N) with
      | none => findBlotsLoop u seqLen N m dat all b (i + 1) res toks
      | some t => do
        let (start, stop) ← span seqLen all i tok
        let txt ← slice dat start.toNat stop.toNat
        if t = txt then findBlotsLoop u seqLen N m dat all b (i + 1) (Texts.set res (h % N) txt) toks
        else findBlotsLoop u seqLen N m dat all b (i + 1) res toks

/-- index.go:192-231.  Also returns the document. -/
def findBlots (u : Uni) (fs : Files) (c : Config) (m : UInt32 → Option Bytes) (doc : Doc) : M (Texts × Doc) := do
  let doc ← doc.ensure fs
  c.tokenFunc
  let toks ← Token.tokenize u [] (doc.dat.getD []) doc.start
  let b ← c.blotter
  let r ← findBlotsLoop u c.seqLen (blotMod c) m (doc.dat.getD []) (compact toks) b 0 [] (wordToks toks)
  return (r, doc)

end Index
end Dupi
