import Verif.Model.Dmd
/-! # dmd/t.go: lookups by several goroutines on one open file

The file handle, and with it the read position, is shared by all queries of an index. -/

namespace Dupi.Dmd

/-- the two system calls of `Lookup` (dmd/t.go:52, 57), with the goroutine that makes them; `io.ReadFull` reads all 12 bytes
in one call (regular file) -/
inductive Call where
  | seek (g : Nat) (did : UInt32)
  | read (g : Nat)
deriving DecidableEq, Repr

/-- dmd/t.go:61-63 -/
def decode (buf : Bytes) : M Fields := do
  let fid ← getBE32 buf
  let start ← getBE32 (buf.drop 4)
  let stop ← getBE32 (buf.drop 8)
  return ⟨fid, start, stop⟩

/-- the calls in the order in which the system makes them, from read position `pos`; what each read gives its goroutine.
A read moves the position behind the bytes read. -/
def calls (file : Bytes) : Nat → List Call → List (Nat × M Fields)
  | _, [] => []
  | _, .seek _ did :: cs => calls file (did.toNat * rcdSize) cs
  | pos, .read g :: cs =>
    let r := do
      let (buf, _) ← readFull (file.drop pos) rcdSize
      decode buf
    (g, r) :: calls file (max pos (min file.length (pos + rcdSize))) cs

end Dupi.Dmd
