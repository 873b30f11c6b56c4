import Verif.Model.Utf8
/-! # package blotter (blotter/circ.go, interleaved.go, config.go) and hash/fnv -/

namespace Dupi

/-- `hash/fnv` `New32` (FNV-1): for every byte multiply by the prime, then xor the byte -/
def fnv32 (b : Bytes) : UInt32 := b.foldl (fun h c => (h * 16777619) ^^^ c.toUInt32) 2166136261

/-- blotter/circ.go:43-46 -/
def wordHash (u : Uni) (word : Bytes) : UInt32 := fnv32 (bytesToLower u word)

/-- blotter/circ.go:23-28 (`fn` is reset before every use) -/
structure Circ where
  hashes : List UInt32
  hash : UInt32
  i : Nat
deriving Repr, DecidableEq

namespace Circ

/-- blotter/circ.go:30-32; `make` panics on a negative length -/
def new (n : Int) : M Circ := if n < 0 then panic' else .ok ⟨List.replicate n.toNat 0, 0, 0⟩

/-- blotter/circ.go:42-55 after hashing the word to `h` -/
def blotHash (c : Circ) (h : UInt32) : M (UInt32 × Circ) :=
  match c.hashes[c.i]? with
  | none => panic'
  | some old =>
    let hash := c.hash ^^^ old
    let hashes := c.hashes.set c.i h
    let hash := hash ^^^ h
    let i := c.i + 1
    let i := if i = hashes.length then 0 else i
    .ok (hash, ⟨hashes, hash, i⟩)

/-- blotter/circ.go:42-55 -/
def blot (u : Uni) (c : Circ) (word : Bytes) : M (UInt32 × Circ) := c.blotHash (wordHash u word)

end Circ

/-- blotter/config.go:19-22 -/
structure BlotConfig where
  seqLen : Int
  interleave : Int
deriving Repr, DecidableEq

/-- blotter/t.go: the two implementations of the interface -/
inductive Blotter where
  | circ (c : Circ)
  /-- blotter/interleaved.go:3-6 -/
  | inter (circs : List Circ) (i : Nat)
deriving Repr, DecidableEq

namespace Blotter

/-- blotter/config.go:28-36, with NewInterleaved (blotter/interleaved.go:8-14) -/
def fromConfig (c : BlotConfig) : M Blotter :=
  if c.interleave < 1 then fail (.msg "invalid config: interleave")
  else if c.interleave = 1 then do
    let circ ← Circ.new c.seqLen
    return .circ circ
  else do
    let circ ← Circ.new c.seqLen
    return .inter (List.replicate c.interleave.toNat circ) 0

/-- blotter/circ.go:38-40, interleaved.go:22-24 -/
def interleaving : Blotter → Nat
  | .circ _ => 1
  | .inter cs _ => cs.length

/-- blotter/circ.go:34-36, interleaved.go:16-20 (panics when there is no circ) -/
def config : Blotter → M BlotConfig
  | .circ c => .ok ⟨c.hashes.length, 1⟩
  | .inter cs _ =>
    match cs[0]? with
    | none => panic'
    | some c => .ok ⟨c.hashes.length, cs.length⟩

/-- blotter/circ.go:42-55, interleaved.go:26-33, on hashes -/
def blotHash (b : Blotter) (h : UInt32) : M (UInt32 × Blotter) :=
  match b with
  | .circ c => do
    let (r, c) ← c.blotHash h
    return (r, .circ c)
  | .inter cs i =>
    match cs[i]? with
    | none => panic'
    | some c => do
      let (r, c) ← c.blotHash h
      let i' := i + 1
      return (r, .inter (cs.set i c) (if i' = cs.length then 0 else i'))

/-- `T.Blot(word)` -/
def blot (u : Uni) (b : Blotter) (word : Bytes) : M (UInt32 × Blotter) := b.blotHash (wordHash u word)

/-- `Blot` for every word of a list: the blots returned and the blotter afterwards -/
def blots (u : Uni) (b : Blotter) : List Bytes → M (List UInt32 × Blotter)
  | [] => .ok ([], b)
  | w :: ws => do
    let (r, b) ← b.blot u w
    let (rs, b) ← blots u b ws
    return (r :: rs, b)

end Blotter
end Dupi
