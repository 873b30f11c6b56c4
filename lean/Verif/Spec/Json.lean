import Verif.Spec.Text
/-! # JSON texts (RFC 8259) -/

namespace Dupi.Spec

/-- a value; numbers are kept as they are written -/
inductive JVal where
  | null
  | bool (b : Bool)
  | num (t : Bytes)
  | str (cs : List Char)
  | arr (vs : List JVal)
  | obj (ms : List (List Char × JVal))

mutual
/-- levels of nesting -/
def depth : JVal → Nat
  | .arr vs => depths vs + 1
  | .obj ms => depthm ms + 1
  | _ => 0
def depths : List JVal → Nat
  | [] => 0
  | v :: vs => max (depth v) (depths vs)
def depthm : List (List Char × JVal) → Nat
  | [] => 0
  | (_, v) :: ms => max (depth v) (depthm ms)
end

/-- white space -/
def Blank (w : Bytes) : Prop := ∀ b ∈ w, b = 32 ∨ b = 9 ∨ b = 10 ∨ b = 13

/-- the value of a hexadecimal digit -/
def hexOf (b : UInt8) : Option Nat :=
  if 48 ≤ b.toNat ∧ b.toNat ≤ 57 then some (b.toNat - 48)
  else if 97 ≤ b.toNat ∧ b.toNat ≤ 102 then some (b.toNat - 87)
  else if 65 ≤ b.toNat ∧ b.toNat ≤ 70 then some (b.toNat - 55)
  else none

/-- four hexadecimal digits -/
def Hex4 (n : Nat) (t : Bytes) : Prop :=
  ∃ a b c d, t = [a, b, c, d] ∧ ∃ p q r s, hexOf a = some p ∧ hexOf b = some q ∧ hexOf c = some r ∧ hexOf d = some s ∧ n = ((p * 16 + q) * 16 + r) * 16 + s

/-- the characters with an escape of two characters -/
def shortEscapes : List (Char × UInt8) :=
  [('"', 34), ('\\', 92), ('/', 47), (Char.ofNat 8, 98), (Char.ofNat 12, 102), ('\n', 110), ('\r', 114), ('\t', 116)]

/-- the ways to write a character in a string -/
inductive JChar : Char → Bytes → Prop where
  | plain {c : Char} : 32 ≤ c.toNat → c ≠ '"' → c ≠ '\\' → JChar c (utf8 [c])
  | short {c : Char} {b : UInt8} : (c, b) ∈ shortEscapes → JChar c [92, b]
  | code {c : Char} {t : Bytes} : Hex4 c.toNat t → JChar c (92 :: 117 :: t)
  | pair {c : Char} {hi lo : Nat} {t t' : Bytes} : Hex4 hi t → Hex4 lo t' → 0xD800 ≤ hi → hi < 0xDC00 → 0xDC00 ≤ lo → lo < 0xE000 →
      c.toNat = 0x10000 + (hi - 0xD800) * 0x400 + (lo - 0xDC00) → JChar c (92 :: 117 :: (t ++ 92 :: 117 :: t'))

/-- the ways to write the characters of a string -/
inductive JChars : List Char → Bytes → Prop where
  | nil : JChars [] []
  | cons {c : Char} {cs : List Char} {t t' : Bytes} : JChar c t → JChars cs t' → JChars (c :: cs) (t ++ t')

/-- decimal digits, at least one -/
def IsDigits (t : Bytes) : Prop := t ≠ [] ∧ ∀ b ∈ t, 48 ≤ b.toNat ∧ b.toNat ≤ 57

/-- a number: sign, integer without superfluous zeros, fraction, exponent -/
def JNumber (t : Bytes) : Prop :=
  ∃ s i f e, t = s ++ (i ++ (f ++ e)) ∧ (s = [] ∨ s = [45]) ∧ IsDigits i ∧ (i.head? = some 48 → i = [48]) ∧ (f = [] ∨ ∃ d, f = 46 :: d ∧ IsDigits d) ∧
    (e = [] ∨ ∃ x g d, e = x :: (g ++ d) ∧ (x = 101 ∨ x = 69) ∧ (g = [] ∨ g = [43] ∨ g = [45]) ∧ IsDigits d)

mutual
/-- the ways to write a value, with `S` for what stands between the quotes of a string -/
inductive JTextOf (S : List Char → Bytes → Prop) : JVal → Bytes → Prop where
  | null : JTextOf S .null [110, 117, 108, 108]
  | true : JTextOf S (.bool true) [116, 114, 117, 101]
  | false : JTextOf S (.bool false) [102, 97, 108, 115, 101]
  | num {t : Bytes} : JNumber t → JTextOf S (.num t) t
  | str {cs : List Char} {t : Bytes} : S cs t → JTextOf S (.str cs) (34 :: (t ++ [34]))
  | arr0 {w : Bytes} : Blank w → JTextOf S (.arr []) (91 :: (w ++ [93]))
  | arr {vs : List JVal} {t : Bytes} : JElemsOf S vs t → JTextOf S (.arr vs) (91 :: (t ++ [93]))
  | obj0 {w : Bytes} : Blank w → JTextOf S (.obj []) (123 :: (w ++ [125]))
  | obj {ms : List (List Char × JVal)} {t : Bytes} : JMembersOf S ms t → JTextOf S (.obj ms) (123 :: (t ++ [125]))

/-- one or more elements -/
inductive JElemsOf (S : List Char → Bytes → Prop) : List JVal → Bytes → Prop where
  | one {v : JVal} {w t w' : Bytes} : Blank w → JTextOf S v t → Blank w' → JElemsOf S [v] (w ++ (t ++ w'))
  | cons {v : JVal} {vs : List JVal} {w t w' s : Bytes} : Blank w → JTextOf S v t → Blank w' → JElemsOf S vs s → JElemsOf S (v :: vs) (w ++ (t ++ (w' ++ 44 :: s)))

/-- one or more members -/
inductive JMembersOf (S : List Char → Bytes → Prop) : List (List Char × JVal) → Bytes → Prop where
  | one {k : List Char} {v : JVal} {w tk w1 w2 t w3 : Bytes} : Blank w → JTextOf S (.str k) tk → Blank w1 → Blank w2 → JTextOf S v t → Blank w3 →
      JMembersOf S [(k, v)] (w ++ (tk ++ (w1 ++ 58 :: (w2 ++ (t ++ w3)))))
  | cons {k : List Char} {v : JVal} {ms : List (List Char × JVal)} {w tk w1 w2 t w3 s : Bytes} : Blank w → JTextOf S (.str k) tk → Blank w1 → Blank w2 → JTextOf S v t → Blank w3 →
      JMembersOf S ms s → JMembersOf S ((k, v) :: ms) (w ++ (tk ++ (w1 ++ 58 :: (w2 ++ (t ++ (w3 ++ 44 :: s))))))
end

abbrev JText := JTextOf JChars
abbrev JElems := JElemsOf JChars
abbrev JMembers := JMembersOf JChars

/-- a text of such a grammar: a value with white space around it -/
def IsJsonOf (S : List Char → Bytes → Prop) (v : JVal) (t : Bytes) : Prop := ∃ w s w', t = w ++ (s ++ w') ∧ Blank w ∧ JTextOf S v s ∧ Blank w'

/-- a JSON text: a value with white space around it -/
abbrev IsJson : JVal → Bytes → Prop := IsJsonOf JChars

/-- the characters of bytes that need not be UTF-8: a byte that begins no character stands for U+FFFD -/
inductive Repair : Bytes → List Char → Prop where
  | nil : Repair [] []
  | char {c : Char} {p : Bytes} {cs : List Char} : Repair p cs → Repair (utf8 [c] ++ p) (c :: cs)
  | bad {b : UInt8} {p : Bytes} {cs : List Char} : (∀ c : Char, ¬ utf8 [c] <+: b :: p) → Repair p cs → Repair (b :: p) (Char.ofNat 0xFFFD :: cs)

/-- the escape of a low surrogate stands at the beginning -/
def LowNext (t : Bytes) : Prop := ∃ lo u r, t = 92 :: 117 :: (u ++ r) ∧ Hex4 lo u ∧ 0xDC00 ≤ lo ∧ lo < 0xE000

/-- The ways to write the characters of a string, with what is no text put right: the escape of a surrogate that is not one of a pair, and a byte
that begins no character, stand for U+FFFD. -/
inductive LaxChars : List Char → Bytes → Prop where
  | nil : LaxChars [] []
  | char {c : Char} {cs : List Char} {t t' : Bytes} : JChar c t → LaxChars cs t' → LaxChars (c :: cs) (t ++ t')
  | lone {n : Nat} {cs : List Char} {t t' : Bytes} : Hex4 n t → 0xD800 ≤ n → n < 0xE000 → ¬ (n < 0xDC00 ∧ LowNext t') → LaxChars cs t' →
      LaxChars (Char.ofNat 0xFFFD :: cs) (92 :: 117 :: (t ++ t'))
  | bad {b : UInt8} {cs : List Char} {p : Bytes} : (∀ c : Char, ¬ utf8 [c] <+: b :: p) → LaxChars cs p → LaxChars (Char.ofNat 0xFFFD :: cs) (b :: p)

end Dupi.Spec
