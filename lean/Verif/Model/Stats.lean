import Verif.Model.Float
import Verif.Model.Query
import Verif.Model.Cmd
/-! # The floating point part of Stats (index.go:115-122, internal/shard/index.go:106-113) and its use by the extract command -/

namespace Dupi

/-- internal/shard/index.go:108-111, one pass.  The Go compiler may fuse the multiplication and the addition (it does on
some processors): `fused`. -/
noncomputable def ShardIndex.sosStep (fused : Bool) (avg ttl : ℝ) (ct : UInt32) : Option ℝ := do
  let c ← Fl.ofNat ct.toNat
  let d ← Fl.sub avg c
  if fused then Fl.fma d d ttl
  else
    let q ← Fl.mul d d
    Fl.add ttl q

/-- internal/shard/index.go:106-113 -/
noncomputable def ShardIndex.sosDiffs (fused : Bool) (x : ShardIndex) (avg : ℝ) : Option ℝ :=
  x.counts.foldlM (ShardIndex.sosStep fused avg) 0

/-- index.go:115 -/
noncomputable def Index.blotMean (x : Index) : Option ℝ := do
  let p ← Fl.ofNat x.stats.numPosts
  let b ← Fl.ofNat x.stats.numBlots
  Fl.div p b

/-- index.go:116-122 -/
noncomputable def Index.blotSigma (fused : Bool) (x : Index) (mean : ℝ) : Option ℝ := do
  let sos ← x.shards.foldlM (fun sos sh => do
    let s ← sh.sosDiffs fused mean
    Fl.add sos s) 0
  let b ← Fl.ofNat x.stats.numBlots
  let sos ← Fl.div sos b
  Fl.sqrt sos

/-- index.go:100-124: `BlotMean` and `BlotSigma` -/
noncomputable def Index.blotStats (fused : Bool) (x : Index) : Option (ℝ × ℝ) := do
  let mean ← x.blotMean
  let sigma ← x.blotSigma fused mean
  return (mean, sigma)

namespace Cmd

open Classical in
/-- `math.Round` (library, trusted base): to the nearest integer, halves away from zero -/
noncomputable def mathRound (x : ℝ) : ℤ := if x < 0 then -⌊-x + 1 / 2⌋ else ⌊x + 1 / 2⌋

/-- cmd/dupi/extract.go:65-66, `st.BlotMean + σ*st.BlotSigma`.  Whether the compiler fuses the multiplication and the addition is `fused`. -/
noncomputable def cutoff (fused : Bool) (mean sigma σ : ℝ) : Option ℝ :=
  if fused then Fl.fma σ sigma mean
  else do
    let p ← Fl.mul σ sigma
    Fl.add mean p

open Classical in
/-- cmd/dupi/extract.go:65-66: the threshold for a flag -sigma of `σ`.  The conversion to `int` is undefined (`none`) outside its range. -/
noncomputable def threshold (fused : Bool) (mean sigma σ : ℝ) : Option ℤ := do
  let v ← cutoff fused mean sigma σ
  if |(mathRound v : ℝ)| < 2 ^ 63 then some (mathRound v) else none

/-- cmd/dupi/extract.go:60-123 after opening the index: `none` if the statistics or the threshold are not finite -/
noncomputable def extractSigma (json : Bool) (fused fused' : Bool) (grow : Nat → Nat) (x : Index) (ff fuel k : Nat) (σ : ℝ) : Option (M (List Blot)) := do
  let st ← x.blotStats fused
  let N ← threshold fused' st.1 st.2 σ
  return extract json grow x ff fuel k N

end Cmd
end Dupi
