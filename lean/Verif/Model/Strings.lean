import Verif.Model.Text
import Verif.Model.Token
import Verif.Model.Post
/-! # token/t.go, post/t.go: how tokens and posts are printed

Other values of `Tag` than the three constants, for which `Tag.String` panics, are not modelled. -/

namespace Dupi

/-- token/t.go:34-45: "w", "_", "$" -/
def Tag.string : Tag → Bytes
  | .word => [119]
  | .other => [95]
  | .eod => [36]

/-- token/t.go:54-56: "<token %s: '%s' @%d>" -/
def Tok.string (t : Tok) : Bytes :=
  [60, 116, 111, 107, 101, 110, 32] ++ t.tag.string ++ [58, 32, 39] ++ t.lit ++ [39, 32, 64] ++ Cmd.dec t.pos ++ [62]

/-- post/t.go:28-30: "<%d,%x>" of the document id and the low 16 bits of the blot -/
def Post.string (p : Post) : Bytes := 60 :: Cmd.dec p.docid ++ 44 :: Cmd.hex (p.blot &&& 0xffff) ++ [62]

end Dupi
