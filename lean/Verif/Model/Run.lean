import Verif.Model.Disk
import Verif.Model.Main
import Verif.Model.Text
import Verif.Model.Stats
/-! # cmd/dupi: whole runs of `dupi index` and `dupi extract`

The parts are in Model/Main (the command line), Model/Cmd (the walk, the loop of extract), Model/Disk (indexes on a disk), Model/Stats (the threshold) and
Model/Text (what is printed); here they are put together as cmd/dupi/dupi.go:93-111, cmd/dupi/index.go:81-103 and cmd/dupi/extract.go:53-125 do.

Not modelled: what is logged (exit codes are in Model/Program); that files of the index being made may be among the files indexed (the trees are given and do not
change during a run). -/

namespace Dupi.Cmd

/-- what a process is started with and sees: its working directory, the environment and, for an argument of the index command, the base name of the
path and what `os.Lstat` finds there -/
structure Proc where
  cwd : Bytes
  env : Env
  look : Bytes → Bytes × Option Node

/-- config.go:117-138: `ReadConfig`, where `file` gives the contents of the files that can be read -/
def readConfig (J : CfgCodec) (file : Bytes → Option Bytes) (path : Bytes) : M Config := do
  let d ← match file path with
    | none => fail .notExist
    | some d => .ok d
  let c ← J.dec d
  c.check
  return c

/-- cmd/dupi/index.go:94-101: the arguments one after the other.  Returns whether there was an error (then the last one is returned by `Run`), and
the documents added.  Adding a document is taken to succeed. -/
def doPaths (join : Bytes → Bytes → Bytes) (look : Bytes → Bytes × Option Node) : List Bytes → List Doc → Bool × List Doc
  | [], added => (false, added)
  | p :: ps, added =>
    let (e, added) := doPath join (fun _ => true) p (look p).1 (look p).2 added
    let (e', added) := doPaths join look ps added
    (e || e', added)

/-- cmd/dupi/index.go:81-103, on a command line for which cmd/dupi/dupi.go:93-111 runs the index command: what it does to the disk (`Close` is deferred,
so it is called also after an error), and whether it reports an error.  `none`: another command, or the program ends with a usage message;
`readCfg` is `ReadConfig` (flag -c). -/
def indexRun {F : Type} (S : Strconv F) (join : Bytes → Bytes → Bytes) (readCfg : Bytes → M Config) (p : Proc) (args : List Bytes) :
    Option (M (Disk.Op × Bool)) :=
  match main join p.env args with
  | some (.index, root, rest) =>
    match Flag.parse (verbFlags S .index) rest with
    | none => none
    | some (st, paths) => some do
      let t ← getIndexer S p.cwd readCfg root st
      let (e, docs) := doPaths join p.look paths []
      match t with
      | .create c => return (.create p.cwd c docs, e)
      | .openAt root => return (.append p.cwd root docs, e)
  | _ => none

/-- the value of the flag -sigma: 2 if not given (cmd/dupi/extract.go:44) -/
def lastSigma (S : Strconv ℝ) (st : List (Bytes × Bytes)) : ℝ := ((Flag.last st [115, 105, 103, 109, 97]).bind S.parseFloat).getD 2

/-- cmd/dupi/extract.go:53-125, on a command line for which cmd/dupi/dupi.go:93-111 runs the extract command: what is written to standard
output.  `none`: another command, the program ends with a usage message, and if the threshold is not finite (see `extractSigma`).
Values of -sigma that are no real numbers are not modelled. -/
noncomputable def extractRun (S : Strconv ℝ) (join : Bytes → Bytes → Bytes) (J : CfgCodec) (srt : Sorter) (fused fused' : Bool) (grow : Nat → Nat) (ff fuel k : Nat)
    (d : Disk) (p : Proc) (args : List Bytes) : Option (M Bytes) :=
  match main join p.env args with
  | some (.extract, root, rest) =>
    match Flag.parse (verbFlags S .extract) rest with
    | none => none
    | some (st, _) =>
      match d.openIndex J srt p.cwd root with
      | .error e => some (.error e)
      | .ok x => (extractSigma (Flag.lastBool st [106, 115, 111, 110]) fused fused' grow x ff fuel k (lastSigma S st)).map fun r => do
        let out ← r
        return if Flag.lastBool st [106, 115, 111, 110] then extractJson out else if Flag.lastBool st [98] then extractBlots out else extractText out
  | _ => none

end Dupi.Cmd
