import Verif.Model.Config
import Verif.Model.Post
import Verif.Model.Token
/-! # shatter.go: turning a document into posts (the sequential part) -/

namespace Dupi

/-- the part of a shatterer that survives between documents: its blotter, shatter.go:70-78.
(`tokb` is emptied before use, `d` is reset after sending, the rest is constant.) -/
abbrev Shatterer := Blotter

namespace Shatter

/-- shatter.go:138-142: append the post to the buffer of its shard -/
def blot (d : List (List Post)) (did b : UInt32) : M (List (List Post)) := do
  let (i, p) ← shatterRoute (UInt32.ofNat d.length) did b
  match d[i.toNat]? with
  | none => panic'
  | some ps => return d.set i.toNat (ps ++ [p])

/-- shatter.go:96-111: the loop over the tokens; `words` counts the words so far -/
def loop (u : Uni) (seqlen : Int) (did : UInt32) : Blotter → Int → List (List Post) → List Tok →
    M (Blotter × List (List Post))
  | b, _, d, [] => .ok (b, d)
  | b, words, d, tok :: toks =>
    match tok.tag with
    | .word => do
      let (h, b) ← b.blot u tok.lit
      let words := words + 1
      let d ← if words > seqlen then blot d did h else pure d
      loop u seqlen did b words d toks
    | _ => loop u seqlen did b words d toks

/-- shatter.go:94-111: everything `do` computes before `send`: the posts for each of `n` shards -/
def compute (u : Uni) (seqlen : Int) (n : Nat) (b : Shatterer) (did offset : UInt32) (msg : Bytes) :
    M (Shatterer × List (List Post)) := do
  let toks ← Token.tokenize u [] msg offset
  loop u seqlen did b 0 (List.replicate n []) toks

end Shatter

/-- index.go:158-165 (also 200-207, 241-248): keep the Word tokens -/
def wordToks (toks : List Tok) : List Tok := toks.filter (·.tag = .word)

/-- index.go:166-174: the loop over the words, `i` their index -/
def blotDocLoop (u : Uni) (seqLen : Int) : Blotter → Nat → List UInt32 → List Tok → M (List UInt32)
  | _, _, dst, [] => .ok dst
  | b, i, dst, tok :: toks => do
    let (h, b) ← b.blot u tok.lit
    if (i : Int) < seqLen then blotDocLoop u seqLen b (i + 1) dst toks
    else blotDocLoop u seqLen b (i + 1) (dst ++ [h]) toks

/-- index.go:134-140: `Blotter()`: a fresh blotter; a bad configuration panics -/
def Config.blotter (c : Config) : M Blotter :=
  match Blotter.fromConfig c.blotConfig with
  | .ok b => .ok b
  | .error _ => panic'

/-- index.go:126-132: `TokenFunc()`: there is one tokenizer; any other name in the configuration panics -/
def Config.tokenFunc (c : Config) : M Unit :=
  match c.tokenConfig.fromConfig with
  | .ok _ => .ok ()
  | .error _ => panic'

/-- index.go:154-175 -/
def blotDoc (u : Uni) (c : Config) (dst : List UInt32) (dat : Bytes) (start : UInt32) : M (List UInt32) := do
  c.tokenFunc
  let b ← c.blotter
  let toks ← Token.tokenize u [] dat start
  blotDocLoop u c.seqLen b 0 dst (wordToks toks)

end Dupi
