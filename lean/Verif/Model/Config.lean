import Verif.Model.Blotter
import Verif.Model.Path
/-! # config.go, token/config.go, blotter/config.go -/

namespace Dupi

/-- token/config.go:19-23 -/
structure TokenConfig where
  name : Bytes
deriving Repr, DecidableEq

/-- "words.simple" -/
def wordsSimple : Bytes := [119, 111, 114, 100, 115, 46, 115, 105, 109, 112, 108, 101]

/-- token/config.go:37-44: the only tokenizer there is, or an error -/
def TokenConfig.fromConfig (c : TokenConfig) : M Unit :=
  if c.name = wordsSimple then .ok () else fail (.msg "unrecognized token config")

/-- config.go:28-42 -/
structure Config where
  indexRoot : Bytes
  seqLen : Int
  numShards : Int
  numShatters : Int
  docFlushRate : Int
  tokenConfig : TokenConfig
  blotConfig : BlotConfig
deriving Repr, DecidableEq

namespace Config

/-- config.go:78-83 (Go's `int` multiplication wraps at 64 bits) -/
def check (c : Config) : M Unit :=
  if c.seqLen ≠ u64ToI64 (i64ToU64 (c.blotConfig.interleave * c.blotConfig.seqLen)) then fail (.msg "inconsistent sequence config")
  else .ok ()

/-- config.go:44-62 with token.DefaultConfig (token/config.go) and blotter.DefaultConfig
(blotter/config.go:24-26); `filepath.Abs` is relative to the working directory -/
def default (cwd root : Bytes) : M Config := do
  let c : Config :=
    { indexRoot := absPath cwd root, docFlushRate := 16384, numShards := 2, numShatters := 2, seqLen := 10,
      tokenConfig := ⟨wordsSimple⟩, blotConfig := ⟨10, 1⟩ }
  c.check
  return c

/-- config.go:64-76 -/
def new (cwd root : Bytes) (nbuckets seqLen : Int) : M Config := do
  let c ← default cwd root
  let c := { c with numShards := nbuckets, seqLen := seqLen }
  c.check
  return c

end Config
end Dupi
