import Verif.Model.Go
/-! # package dmd — document metadata (dmd/adder.go, dmd/t.go, dmd/fields.go) -/

namespace Dupi

/-- dmd/fields.go:17-20 -/
structure Fields where
  fid : UInt32
  start : UInt32
  stop : UInt32
deriving Repr, DecidableEq

namespace Dmd

/-- The bytes `binary.Write(f, binary.BigEndian, fields)` emits (dmd/adder.go:89): the three
uint32 fields in declaration order, big endian. -/
def encode (x : Fields) : Bytes := be32 x.fid ++ be32 x.start ++ be32 x.stop

/-- dmd/t.go:30 `const rcdSize = 12` -/
abbrev rcdSize : Nat := 12

/-- dmd/adder.go:24-29 (`path` is implicit: there is one dmd file) -/
structure Adder where
  flushed : UInt32
  flushRate : UInt32
  buf : List Fields
deriving Repr, DecidableEq

/-- the zero value of `fields`, left at index 0 by `make([]fields, 1, fr)` -/
def zeroFields : Fields := ⟨0, 0, 0⟩

/-- dmd/adder.go:31-51.  `file` is the dmd file (`none`: does not exist), `fr` the Go int flush
rate; `make([]fields, 1, fr)` panics when `fr < 1`, `make([]fields, 0, fr)` when `fr < 0`. -/
def newAdder (file : Option Bytes) (fr : Int) : M Adder :=
  let ufr := UInt32.ofNat (fr % 2 ^ 32).toNat
  match file with
  | none => if fr < 1 then panic' else .ok ⟨0, ufr, [zeroFields]⟩
  | some b =>
    let flushed := UInt32.ofNat (b.length / rcdSize)
    if flushed = 0 then
      if fr < 1 then panic' else .ok ⟨flushed, ufr, [zeroFields]⟩
    else
      if fr < 0 then panic' else .ok ⟨flushed, ufr, []⟩

/-- dmd/adder.go:77-97: append the encoded buffer to the file (created if missing; O_APPEND).
I/O errors are not modelled. -/
def flush (t : Adder) (file : Option Bytes) : Adder × Option Bytes :=
  ({ t with flushed := t.flushed + UInt32.ofNat t.buf.length, buf := [] },
   some (file.getD [] ++ t.buf.flatMap encode))

/-- dmd/adder.go:53-64 -/
def add (t : Adder) (file : Option Bytes) (x : Fields) : UInt32 × Adder × Option Bytes :=
  let (t, file) := if UInt32.ofNat t.buf.length = t.flushRate then flush t file else (t, file)
  let n := UInt32.ofNat t.buf.length
  (n + t.flushed, { t with buf := t.buf ++ [x] }, file)

/-- dmd/adder.go:66-68 -/
def last (t : Adder) : UInt32 := t.flushed + UInt32.ofNat t.buf.length - 1

/-- dmd/adder.go:70-75 -/
def close (t : Adder) (file : Option Bytes) : Option Bytes :=
  if t.buf.length = 0 then file else (flush t file).2

/-- dmd/t.go:42-48 -/
def numDocs (file : Bytes) : Nat := file.length / rcdSize

/-- dmd/t.go:50-65: seek to `did*12`, read 12 bytes, decode. -/
def lookup (file : Bytes) (did : UInt32) : M Fields := do
  let (buf, _) ← readFull (file.drop (did.toNat * rcdSize)) rcdSize
  let fid ← getBE32 buf
  let start ← getBE32 (buf.drop 4)
  let stop ← getBE32 (buf.drop 8)
  return ⟨fid, start, stop⟩

/-- Consecutive calls of `Add`. -/
def adds (t : Adder) (file : Option Bytes) : List Fields → List UInt32 × Adder × Option Bytes
  | [] => ([], t, file)
  | x :: xs =>
    let (id, t, file) := add t file x
    let (ids, t, file) := adds t file xs
    (id :: ids, t, file)

/-- One session: `NewAdder`, any number of `Add`s, `Close`. -/
def session (file : Option Bytes) (fr : Int) (xs : List Fields) : M (List UInt32 × Option Bytes) := do
  let t ← newAdder file fr
  let (ids, t, file) := adds t file xs
  return (ids, close t file)

/-- A history of sessions on one directory: flush rate and documents of each. -/
def sessions (file : Option Bytes) : List (Int × List Fields) → M (List UInt32 × Option Bytes)
  | [] => .ok ([], file)
  | (fr, xs) :: rest => do
    let (ids, file) ← session file fr xs
    let (ids', file) ← sessions file rest
    return (ids ++ ids', file)

end Dmd
end Dupi
