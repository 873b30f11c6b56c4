import Verif.Model.Attic
/-! # attic/ibloom: configurations, lists of positions, sizes -/

namespace Dupi.Attic

/-- attic/ibloom/config.go:19-22 -/
structure FilterConfig where
  name : Bytes
  m : Int
  k : Int
deriving DecidableEq, Repr

/-- an `int` of 64 bits: the result of an operation wraps around -/
def wrap64 (x : Int) : Int := (x + 2 ^ 63) % 2 ^ 64 - 2 ^ 63

/-- "fnv32" -/
def fnv32Name : Bytes := [102, 110, 118, 51, 50]

/-- attic/ibloom/fnv32.go:33-35 (and M, 56-58) -/
def Filter.config (f : Filter) : FilterConfig := ⟨fnv32Name, wrap64 (f.mbytes * 8), f.k⟩

/-- attic/ibloom/config.go:24-31 (and NewFnv32, attic/ibloom/fnv32.go:28-31); `/` rounds towards 0 -/
def Filter.fromConfig (c : FilterConfig) : M Filter :=
  if c.name = fnv32Name then .ok ⟨c.k, c.m.tdiv 8⟩ else fail (.msg "unknown filter name")

/-- attic/ibloom/fnv32.go:78-87: `n` positions left, the next is number `i`; `dst[i]` panics behind the end -/
def Filter.putLoop (f : Filter) (hh : UInt32) : Nat → UInt32 → List UInt32 → M (List UInt32)
  | 0, _, dst => .ok dst
  | n + 1, i, dst => do
    let hb ← f.one hh i
    if i.toNat < dst.length then f.putLoop hh n (i + 1) (dst.set i.toNat hb) else panic'

/-- attic/ibloom/fnv32.go:78-87: what is in `dst` afterwards -/
def Filter.putOnes (f : Filter) (dst : List UInt32) (v : UInt32) : M (List UInt32) := f.putLoop (hash v) (toU32 f.k).toNat 0 dst

/-- attic/ibloom/estimate.go:30: the number of bits made of the rounded estimate `m`, which is a number of floats that is not
modelled; `%` has the sign of `m` -/
def estimateBits (m : Int) : Int := wrap64 (m + wrap64 (8 - m.tmod 8))

end Dupi.Attic
