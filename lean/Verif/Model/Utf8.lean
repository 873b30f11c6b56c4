import Verif.Model.Go
/-!
# unicode/utf8, unicode, bytes.ToLower (library code, trusted base)
-/

namespace Dupi

/-- One step of decoding: the code point (`none`: an invalid byte, which Go reports as
`utf8.RuneError` with width 1) and the bytes consumed. -/
structure Rune where
  cp : Option Nat
  enc : Bytes
deriving Repr, DecidableEq

/-- continuation byte -/
def isCont (b : UInt8) : Bool := 0x80 ≤ b && b ≤ 0xBF

/-- leading byte and first continuation byte of a two-byte sequence -/
def is2 (b0 b1 : UInt8) : Bool := 0xC2 ≤ b0 && b0 ≤ 0xDF && isCont b1

/-- leading byte and first continuation byte of a three-byte sequence (acceptRanges) -/
def is3 (b0 b1 : UInt8) : Bool :=
  if b0 = 0xE0 then 0xA0 ≤ b1 && b1 ≤ 0xBF
  else if b0 = 0xED then 0x80 ≤ b1 && b1 ≤ 0x9F
  else 0xE1 ≤ b0 && b0 ≤ 0xEF && isCont b1

/-- leading byte and first continuation byte of a four-byte sequence (acceptRanges) -/
def is4 (b0 b1 : UInt8) : Bool :=
  if b0 = 0xF0 then 0x90 ≤ b1 && b1 ≤ 0xBF
  else if b0 = 0xF4 then 0x80 ≤ b1 && b1 ≤ 0x8F
  else 0xF1 ≤ b0 && b0 ≤ 0xF3 && isCont b1

def cp2 (b0 b1 : UInt8) : Nat := (b0.toNat % 32) * 64 + b1.toNat % 64
def cp3 (b0 b1 b2 : UInt8) : Nat := (b0.toNat % 16) * 4096 + (b1.toNat % 64) * 64 + b2.toNat % 64
def cp4 (b0 b1 b2 b3 : UInt8) : Nat :=
  (b0.toNat % 8) * 262144 + (b1.toNat % 64) * 4096 + (b2.toNat % 64) * 64 + b3.toNat % 64

/-- `utf8.DecodeRune(b0 :: t)` -/
def decodeRune (b0 : UInt8) (t : Bytes) : Rune :=
  if b0 < 0x80 then ⟨some b0.toNat, [b0]⟩
  else match t with
    | [] => ⟨none, [b0]⟩
    | b1 :: t =>
      if is2 b0 b1 then ⟨some (cp2 b0 b1), [b0, b1]⟩
      else match t with
        | [] => ⟨none, [b0]⟩
        | b2 :: t =>
          if is3 b0 b1 && isCont b2 then ⟨some (cp3 b0 b1 b2), [b0, b1, b2]⟩
          else match t with
            | [] => ⟨none, [b0]⟩
            | b3 :: _ =>
              if is4 b0 b1 && isCont b2 && isCont b3 then ⟨some (cp4 b0 b1 b2 b3), [b0, b1, b2, b3]⟩
              else ⟨none, [b0]⟩

/-- decode at most `n` runes -/
def decodeN : Nat → Bytes → List Rune
  | 0, _ => []
  | _ + 1, [] => []
  | n + 1, b :: t => decodeRune b t :: decodeN n (t.drop ((decodeRune b t).enc.length - 1))

/-- what `for i, r := range string(d)` iterates over (a rune takes at least one byte) -/
def decode (d : Bytes) : List Rune := decodeN d.length d

/-- `utf8.Valid(d)` -/
def utf8Valid (d : Bytes) : Bool := (decode d).all fun r => r.cp.isSome

/-- `utf8.AppendRune(nil, r)`: surrogates and values above 0x10FFFF encode as U+FFFD -/
def encodeRune (c : Nat) : Bytes :=
  if c < 0x80 then [UInt8.ofNat c]
  else if c < 0x800 then [UInt8.ofNat (0xC0 + c / 64), UInt8.ofNat (0x80 + c % 64)]
  else if 0xD800 ≤ c ∧ c ≤ 0xDFFF ∨ 0x10FFFF < c then [0xEF, 0xBF, 0xBD]
  else if c < 0x10000 then
    [UInt8.ofNat (0xE0 + c / 4096), UInt8.ofNat (0x80 + c / 64 % 64), UInt8.ofNat (0x80 + c % 64)]
  else [UInt8.ofNat (0xF0 + c / 262144), UInt8.ofNat (0x80 + c / 4096 % 64),
    UInt8.ofNat (0x80 + c / 64 % 64), UInt8.ofNat (0x80 + c % 64)]

/-- The Unicode tables: parameters of the model.  Assumed of them is what they say about ASCII and
that lower-casing a scalar value gives one. -/
structure Uni where
  isLetter : Nat → Bool
  isDigit : Nat → Bool
  toLower : Nat → Nat
  letter : ∀ c, c < 0x80 → isLetter c = ((65 ≤ c && c ≤ 90) || (97 ≤ c && c ≤ 122))
  digit : ∀ c, c < 0x80 → isDigit c = (48 ≤ c && c ≤ 57)
  lower : ∀ c, c < 0x80 → toLower c = if 65 ≤ c ∧ c ≤ 90 then c + 32 else c
  scalar : ∀ c, c.isValidChar → (toLower c).isValidChar

/-- tables for which only ASCII has letters, digits and case -/
def asciiUni : Uni where
  isLetter c := (65 ≤ c && c ≤ 90) || (97 ≤ c && c ≤ 122)
  isDigit c := 48 ≤ c && c ≤ 57
  toLower c := if 65 ≤ c ∧ c ≤ 90 then c + 32 else c
  letter _ _ := rfl
  digit _ _ := rfl
  lower _ _ := rfl
  scalar c h := by
    split
    · left; omega
    · exact h

/-- ASCII lower case of a byte -/
def lowerByte (b : UInt8) : UInt8 := if 65 ≤ b ∧ b ≤ 90 then b + 32 else b

/-- `bytes.ToLower(s)`: byte-wise for ASCII, otherwise `bytes.Map(unicode.ToLower, s)` -/
def bytesToLower (u : Uni) (s : Bytes) : Bytes :=
  if s.all (· < 0x80) then s.map lowerByte
  else (decode s).flatMap fun r => encodeRune (u.toLower (r.cp.getD 0xFFFD))

end Dupi
