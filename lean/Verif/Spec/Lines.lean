import Verif.Model.Go
/-! # Lines of a text -/

namespace Dupi
namespace Spec

/-- the lines of a text, without the bytes that end them; what follows the last end of line is the last line -/
def textLines : Bytes → List Bytes
  | [] => [[]]
  | b :: bs =>
    if b = 10 then [] :: textLines bs
    else match textLines bs with
      | [] => [[b]]
      | l :: ls => (b :: l) :: ls

/-- a line that begins with a tab, a word and a blank -/
def Lists (w l : Bytes) : Prop := (9 :: w ++ [32]) <+: l

instance (w l : Bytes) : Decidable (Lists w l) := inferInstanceAs (Decidable (_ <+: _))

/-- a line that ends with a blank and a text -/
def EndsWith (t l : Bytes) : Prop := (32 :: t) <:+ l

instance (t l : Bytes) : Decidable (EndsWith t l) := inferInstanceAs (Decidable (_ <:+ _))

end Spec
end Dupi
