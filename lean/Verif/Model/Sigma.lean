import Verif.Model.Run
/-! # cmd/dupi/extract.go: -sigma with any float64

Model/Stats and Model/Run follow the extract command as long as everything is finite.  The flag takes any value `strconv.ParseFloat` gives, infinities and
NaN included, and `σ*st.BlotSigma` may overflow; here is the computation of the threshold for all of them. -/

namespace Dupi

/-- a float64 (library, trusted base): a real number, an infinity (`neg`: the negative one) or a NaN.  The two zeros and the NaNs are not distinguished. -/
inductive F64 where
  | fin (x : ℝ)
  | inf (neg : Bool)
  | nan

namespace F64

open Classical in
/-- the float64 for a real number: the nearest, or an infinity if that has no place -/
noncomputable def ofReal (x : ℝ) : F64 :=
  match Fl.round x with
  | some y => .fin y
  | none => .inf (decide (x < 0))

open Classical in
/-- `z * s` for a finite `s`: infinity times 0 is NaN -/
noncomputable def mulFin (z : F64) (s : ℝ) : F64 :=
  match z with
  | .fin x => ofReal (x * s)
  | .inf n => if s = 0 then .nan else .inf (if s < 0 then !n else n)
  | .nan => .nan

/-- `m + z` for a finite `m` -/
noncomputable def finAdd (m : ℝ) (z : F64) : F64 :=
  match z with
  | .fin x => ofReal (m + x)
  | .inf n => .inf n
  | .nan => .nan

open Classical in
/-- `z*s + m`, rounded once, for finite `s` and `m` -/
noncomputable def fmaFin (z : F64) (s m : ℝ) : F64 :=
  match z with
  | .fin x => ofReal (x * s + m)
  | .inf n => if s = 0 then .nan else .inf (if s < 0 then !n else n)
  | .nan => .nan

/-- `math.Round` (library, trusted base) -/
noncomputable def rounded : F64 → F64
  | .fin x => .fin (Cmd.mathRound x)
  | .inf n => .inf n
  | .nan => .nan

end F64

namespace Cmd

/-- cmd/dupi/extract.go:66, `st.BlotMean + σ*st.BlotSigma` -/
noncomputable def cutoffF (fused : Bool) (mean sigma : ℝ) (σ : F64) : F64 :=
  if fused then σ.fmaFin sigma mean else F64.finAdd mean (σ.mulFin sigma)

/-- cmd/dupi/extract.go:66: `conv` is the conversion to `int` (the language leaves its result open if the value is not in the range of `int`, which
has 64 bits here) -/
noncomputable def thresholdF (conv : F64 → Int) (fused : Bool) (mean sigma : ℝ) (σ : F64) : Int := conv (cutoffF fused mean sigma σ).rounded

open Classical in
/-- towards 0 -/
noncomputable def trunc (x : ℝ) : ℤ := if x < 0 then -⌊-x⌋ else ⌊x⌋

/-- The conversion on amd64 (CVTTSD2SQ): what is not in the range is the least `int`. -/
noncomputable def convAmd64 : F64 → Int
  | .fin x => if -2 ^ 63 ≤ trunc x ∧ trunc x < 2 ^ 63 then trunc x else -2 ^ 63
  | _ => -2 ^ 63

/-- The conversion on arm64 (FCVTZS): what is not in the range is the nearest `int`, NaN is 0. -/
noncomputable def convArm64 : F64 → Int
  | .fin x => max (-2 ^ 63) (min (trunc x) (2 ^ 63 - 1))
  | .inf true => -2 ^ 63
  | .inf false => 2 ^ 63 - 1
  | .nan => 0

/-- cmd/dupi/extract.go:60-123 after opening the index, for any value of -sigma (`none` if the statistics are not finite) -/
noncomputable def extractF (conv : F64 → Int) (json : Bool) (fused fused' : Bool) (grow : Nat → Nat) (x : Index) (ff fuel k : Nat) (σ : F64) :
    Option (M (List Blot)) := do
  let st ← x.blotStats fused
  return extract json grow x ff fuel k (thresholdF conv fused' st.1 st.2 σ)

/-- the value of the flag -sigma: 2 if not given (cmd/dupi/extract.go:44) -/
noncomputable def lastSigmaF (S : Strconv F64) (st : List (Bytes × Bytes)) : F64 := ((Flag.last st [115, 105, 103, 109, 97]).bind S.parseFloat).getD (.fin 2)

/-- cmd/dupi/extract.go:53-125, on a command line for which cmd/dupi/dupi.go:93-111 runs the extract command: what is written to standard
output, for any value of -sigma.  `none`: another command, or the program ends with a usage message, and if the statistics are not finite. -/
noncomputable def extractRunF (conv : F64 → Int) (S : Strconv F64) (join : Bytes → Bytes → Bytes) (J : CfgCodec) (srt : Sorter) (fused fused' : Bool)
    (grow : Nat → Nat) (ff fuel k : Nat) (d : Disk) (p : Proc) (args : List Bytes) : Option (M Bytes) :=
  match main join p.env args with
  | some (.extract, root, rest) =>
    match Flag.parse (verbFlags S .extract) rest with
    | none => none
    | some (st, _) =>
      match d.openIndex J srt p.cwd root with
      | .error e => some (.error e)
      | .ok x => (extractF conv (Flag.lastBool st [106, 115, 111, 110]) fused fused' grow x ff fuel k (lastSigmaF S st)).map fun r => do
        let out ← r
        return if Flag.lastBool st [106, 115, 111, 110] then extractJson out else if Flag.lastBool st [98] then extractBlots out else extractText out
  | _ => none

end Cmd
end Dupi
