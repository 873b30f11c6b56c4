import Verif.Model.Utf8
/-! # package token (token/t.go) -/

namespace Dupi

/-- token/t.go:26-32 (`Eod` is never produced) -/
inductive Tag where
  | word
  | other
  | eod
deriving Repr, DecidableEq

/-- token/t.go:48-52 -/
structure Tok where
  tag : Tag
  lit : Bytes
  pos : UInt32
deriving Repr, DecidableEq

namespace Token

/-- token/t.go:67: `unicode.IsLetter(r) || unicode.IsDigit(r)` -/
def isWordRune (u : Uni) (r : Rune) : Bool :=
  let c := r.cp.getD 0xFFFD
  u.isLetter c || u.isDigit c

/-- the variables of the loop, token/t.go:63-65 -/
structure St where
  dst : List Tok
  inWord : Bool
  i : Nat
  j : Nat
deriving Repr, DecidableEq

/-- token/t.go:69-73, 80-84, 91-101: `append(dst, T{Lit: d[j:i], Pos: offset + uint32(j), Tag: tag})` -/
def emit (d : Bytes) (offset : UInt32) (s : St) (tag : Tag) : M St := do
  let lit ← slice d s.j s.i
  return { s with dst := s.dst ++ [⟨tag, lit, offset + UInt32.ofNat s.j⟩] }

/-- token/t.go:66-88, body of the loop; `i` is the byte position of rune `r` -/
def step (u : Uni) (d : Bytes) (offset : UInt32) (s : St) (i : Nat) (r : Rune) : M St := do
  let s := { s with i := i }
  if isWordRune u r then
    let s ← if !s.inWord && s.j < s.i then do
        let s ← emit d offset s .other
        pure { s with j := s.i }
      else pure s
    return { s with inWord := true }
  else
    let s ← if s.inWord && s.j < s.i then do
        let s ← emit d offset s .word
        pure { s with j := s.i }
      else pure s
    return { s with inWord := false }

/-- token/t.go:66: the loop; `i` is the byte position of the next rune -/
def loop (u : Uni) (d : Bytes) (offset : UInt32) : St → Nat → List Rune → M St
  | s, _, [] => .ok s
  | s, i, r :: rs => do
    let s ← step u d offset s i r
    loop u d offset s (i + r.enc.length) rs

/-- token/t.go:59-105.  Note that after the loop `i` is the position of the *last rune*, not the
length of `d`. -/
def tokenize (u : Uni) (dst : List Tok) (d : Bytes) (offset : UInt32) : M (List Tok) := do
  if !utf8Valid d then return dst
  let s ← loop u d offset ⟨dst, false, 0, 0⟩ 0 (decode d)
  if s.j < s.i then
    let s ← if s.inWord then emit d offset s .word else emit d offset s .other
    return s.dst
  else return s.dst

end Token
end Dupi
