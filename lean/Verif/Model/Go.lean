/-!
# The part of the Go runtime and standard library the model uses

Nothing in this file models code of /repo; it writes down library behaviour the code of
/repo relies on (Go 1.17, see /repo/go.mod).  It is part of the trusted base (DESIGN.md).
-/

namespace Dupi

/-- A byte slice, or the contents of a file. -/
abbrev Bytes := List UInt8

/-- The error values that occur in the modelled code. -/
inductive Err where
  /-- exactly `io.EOF`, the value the code compares against with `==` -/
  | eof
  /-- `io.ErrUnexpectedEOF`, as returned by `io.ReadFull` after a partial read -/
  | unexpectedEOF
  /-- `binary.overflow` -/
  | overflow
  /-- an `os` error: file does not exist -/
  | notExist
  /-- an `os` error: file or directory already exists -/
  | exist
  /-- an error made with `fmt.Errorf`/`errors.New` (never equal to `io.EOF`) -/
  | msg (s : String)
  /-- an error wrapped with `fmt.Errorf("...%w", e)` (never equal to `io.EOF`) -/
  | wrap (s : String) (e : Err)
deriving Repr, DecidableEq

/-- What a Go function call can end in besides a normal return. -/
inductive Fault where
  /-- a non-nil `error` result -/
  | err (e : Err)
  /-- a run-time panic: index out of range, division by zero, `make` with a bad size ... -/
  | panic
  /-- the loop did not finish within the fuel given to the model -/
  | diverge
deriving Repr, DecidableEq

deriving instance DecidableEq for Except

/-- Result of a Go function that may fail. -/
abbrev M := Except Fault

/-- `return err` -/
abbrev fail {α : Type} (e : Err) : M α := Except.error (.err e)
/-- a run-time panic -/
abbrev panic' {α : Type} : M α := Except.error .panic

/-! ## Slices and files -/

/-- `s[lo:hi]` of a slice whose capacity is not looked at: panics unless `lo ≤ hi ≤ len`. -/
def slice (s : Bytes) (lo hi : Nat) : M Bytes :=
  if lo ≤ hi ∧ hi ≤ s.length then .ok ((s.drop lo).take (hi - lo)) else panic'

/-- `(*os.File).ReadAt(buf, off)` with `len(buf) = n`: the `n` bytes at `off`, or an error
(a negative offset is an error; fewer than `n` bytes available is `io.EOF`). -/
def readAt (f : Bytes) (off : Int) (n : Nat) : M Bytes :=
  if off < 0 then fail (.msg "negative offset")
  else if n = 0 then .ok []
  else if off.toNat + n ≤ f.length then .ok ((f.drop off.toNat).take n)
  else fail .eof

/-- The effect on the file of writing `d` at offset `off` (`WriteAt`, or `Seek`+`Write`):
overwrite and extend; a gap is filled with zeros. -/
def writeAt (f : Bytes) (off : Nat) (d : Bytes) : Bytes :=
  (f ++ List.replicate (off - f.length) 0).take off ++ d ++ f.drop (off + d.length)

/-- `io.ReadFull(r, buf)` with `len(buf) = n` on a reader with remaining contents `r`. -/
def readFull (r : Bytes) (n : Nat) : M (Bytes × Bytes) :=
  if n ≤ r.length then .ok (r.take n, r.drop n)
  else if r = [] then fail .eof
  else fail .unexpectedEOF

/-- `io.ByteReader.ReadByte` -/
def readByte : Bytes → M (UInt8 × Bytes)
  | [] => fail .eof
  | b :: bs => .ok (b, bs)

/-! ## encoding/binary: big endian -/

/-- `binary.BigEndian.PutUint32` (also what `binary.Write(_, BigEndian, _)` emits for a uint32) -/
def be32 (x : UInt32) : Bytes :=
  [(x >>> 24).toUInt8, (x >>> 16).toUInt8, (x >>> 8).toUInt8, x.toUInt8]

/-- `binary.BigEndian.Uint32` -/
def getBE32 (b : Bytes) : M UInt32 :=
  match b with
  | b0 :: b1 :: b2 :: b3 :: _ =>
    .ok (b3.toUInt32 ||| b2.toUInt32 <<< 8 ||| b1.toUInt32 <<< 16 ||| b0.toUInt32 <<< 24)
  | _ => panic'

/-- `binary.BigEndian.PutUint64` -/
def be64 (x : UInt64) : Bytes :=
  [(x >>> 56).toUInt8, (x >>> 48).toUInt8, (x >>> 40).toUInt8, (x >>> 32).toUInt8,
   (x >>> 24).toUInt8, (x >>> 16).toUInt8, (x >>> 8).toUInt8, x.toUInt8]

/-- `binary.BigEndian.Uint64` -/
def getBE64 (b : Bytes) : M UInt64 :=
  match b with
  | b0 :: b1 :: b2 :: b3 :: b4 :: b5 :: b6 :: b7 :: _ =>
    .ok (b7.toUInt64 ||| b6.toUInt64 <<< 8 ||| b5.toUInt64 <<< 16 ||| b4.toUInt64 <<< 24 |||
      b3.toUInt64 <<< 32 ||| b2.toUInt64 <<< 40 ||| b1.toUInt64 <<< 48 ||| b0.toUInt64 <<< 56)
  | _ => panic'

/-- conversion `uint64(x)` of an `int64` value (two's complement) -/
def i64ToU64 (x : Int) : UInt64 := UInt64.ofNat (x % (2 ^ 64 : Int)).toNat

/-- conversion `int64(x)` of a `uint64` value (two's complement) -/
def u64ToI64 (x : UInt64) : Int :=
  if x.toNat < 2 ^ 63 then (x.toNat : Int) else (x.toNat : Int) - 2 ^ 64

/-! ## encoding/binary: varints

Values are `Nat`s standing for `uint64`s (`< 2^64`).  No truncation is lost by that: the
decoders reject a tenth byte above 1, so no accepted encoding shifts a set bit past bit 63. -/

/-- `binary.MaxVarintLen64` -/
abbrev maxVarintLen64 : Nat := 10

/-- `binary.PutUvarint` (the bytes written):
`for x >= 0x80 { buf[i] = byte(x) | 0x80; x >>= 7; i++ }; buf[i] = byte(x)` -/
def putUvarint (x : Nat) : Bytes :=
  if x < 0x80 then [UInt8.ofNat x]
  else (UInt8.ofNat x ||| 0x80) :: putUvarint (x >>> 7)
termination_by x
decreasing_by simp only [Nat.shiftRight_eq_div_pow]; omega

/-- loop of `binary.Uvarint`; `i` bytes consumed, shift `s = 7*i`, accumulator `x` -/
def uvarintLoop : Bytes → Nat → Nat → Nat × Int
  | [], _, _ => (0, 0)
  | b :: bs, i, x =>
    if i = maxVarintLen64 then (0, -((i : Int) + 1))
    else if b < 0x80 then
      if i = maxVarintLen64 - 1 ∧ b > 1 then (0, -((i : Int) + 1))
      else (x ||| (b.toNat <<< (7 * i)), (i : Int) + 1)
    else uvarintLoop bs (i + 1) (x ||| ((b &&& 0x7f).toNat <<< (7 * i)))

/-- `binary.Uvarint(buf)`: value and number of bytes read (`≤ 0` on error) -/
def uvarint (buf : Bytes) : Nat × Int := uvarintLoop buf 0 0

/-- loop of `binary.ReadUvarint`; `i` bytes consumed, accumulator `x` -/
def readUvarintLoop : Bytes → Nat → Nat → M (Nat × Bytes)
  | r, i, x =>
    if i = maxVarintLen64 then fail .overflow
    else match r with
      | [] => fail .eof
      | b :: bs =>
        if b < 0x80 then
          if i = maxVarintLen64 - 1 ∧ b > 1 then fail .overflow
          else .ok (x ||| (b.toNat <<< (7 * i)), bs)
        else readUvarintLoop bs (i + 1) (x ||| ((b &&& 0x7f).toNat <<< (7 * i)))

/-- `binary.ReadUvarint(r)` -/
def readUvarint (r : Bytes) : M (Nat × Bytes) := readUvarintLoop r 0 0

/-- zig-zag: `ux := uint64(x) << 1; if x < 0 { ux = ^ux }` for an int64 `x` -/
def zigzag (x : Int) : Nat := if x < 0 then (-2 * x - 1).toNat else (2 * x).toNat

/-- `x := int64(ux >> 1); if ux&1 != 0 { x = ^x }` -/
def unzigzag (ux : Nat) : Int :=
  if ux % 2 ≠ 0 then -((ux / 2 : Nat) : Int) - 1 else ((ux / 2 : Nat) : Int)

/-- `binary.PutVarint` -/
def putVarint (x : Int) : Bytes := putUvarint (zigzag x)

/-- `binary.Varint(buf)` -/
def varint (buf : Bytes) : Int × Int := let r := uvarint buf; (unzigzag r.1, r.2)

/-- `binary.ReadVarint(r)` -/
def readVarint (r : Bytes) : M (Int × Bytes) := do
  let (ux, r) ← readUvarint r
  return (unzigzag ux, r)

end Dupi
