import Verif.Model.Commands
/-! # cmd/dupi: the program, from the command line to the exit status

Model/Run and Model/Commands have the verbs; here they are put together as cmd/dupi/dupi.go:93-111 does, with the status the process ends with.

Not modelled: what is written to standard error; the agent started at cmd/dupi/dupi.go:94-98; that adding a document to an index or closing it fails
(cmd/dupi/index.go:87-92); what was written to standard output before a panic (`Runs` allows anything); runs that do not end. -/

namespace Dupi

/-- `FlagSet.Parse` (library, trusted base) meets -h or -help, which is no flag of the set, before any error: then `flag.ExitOnError` ends the program with
status 0, after other errors with status 2 -/
def Flag.helps (fs : Bytes → Option Kind) : List Bytes → Bool
  | [] => false
  | s :: args =>
    match arg s with
    | .other | .dashes | .bad => false
    | .flag n v =>
      match fs n with
      | none => n = [104] || n = [104, 101, 108, 112]
      | some .bool => if (parseBool (v.getD trueB)).isSome then helps fs args else false
      | some (.value ok) =>
        match v with
        | some v => if ok v then helps fs args else false
        | none =>
          match args with
          | [] => false
          | v :: args => if ok v then helps fs args else false

namespace Cmd

/-- the libraries, the machine and the order of maps, all of which the results of runs may depend on (see Model/Run, Model/Commands) -/
structure Lib where
  S : Strconv ℝ
  join : Bytes → Bytes → Bytes
  J : CfgCodec
  srt : Sorter
  u : Uni
  skip : Bytes → Option Bytes
  fl : ℝ → Bytes
  fused : Bool
  fused' : Bool
  grow : Nat → Nat
  ff : Nat
  fuel : Nat
  k : Nat
  ord : Nat → Groups → Groups
  ord' : Nat → List DocKey → List DocKey

/-- `Run` of the verbs that only read an index: what is written to standard output, and whether an error is returned -/
noncomputable def query (L : Lib) (d : Disk) (fs : Files) (p : Proc) (args : List Bytes) : Verb → Option (M (Bytes × Bool))
  | .index => none
  | .extract => match start L.S L.join .extract p.env args with
    | none => none
    | some (root, _) => match d.openIndex L.J L.srt p.cwd root with
      | .error (.err _) => some (.ok ([], true))
      | _ => (extractRun L.S L.join L.J L.srt L.fused L.fused' L.grow L.ff L.fuel L.k d p args).map fun r => r.map fun out => (out, false)
  | .blot => blotRun L.S L.join L.J L.srt L.u d fs p args
  | .unblot => unblotRun L.S L.join L.J L.srt L.u L.skip L.grow L.fuel L.ord d fs p args
  | .inspect => inspectRun L.S L.join L.fl L.J L.srt L.fused d p args
  | .like => likeRun L.S L.join L.J L.srt L.u L.grow L.fuel L.ord' d fs p args

/-- the status after `Run`: `log.Fatal` ends the program with status 1 (cmd/dupi/dupi.go:109-111) -/
def statusOf (err : Bool) : Nat := if err then 1 else 0

/-- `Runs L readCfg d fs p args d' out status`: on the disk `d` the program, started with the arguments `args`, leaves the disk `d'`, writes `out` to standard
output and ends with `status`.  cmd/dupi/dupi.go:93-111. -/
inductive Runs (L : Lib) (readCfg : Bytes → M Config) (d : Disk) (fs : Files) (p : Proc) (args : List Bytes) : Disk → Bytes → Nat → Prop where
  /-- `usageFatal` (cmd/dupi/dupi.go:100-107, also the usage of the global flags) -/
  | usage : main L.join p.env args = none → Runs L readCfg d fs p args d [] 1
  /-- the flags of the verb: cmd/dupi/index.go:82, cmd/dupi/extract.go:54, cmd/dupi/blot.go:45, cmd/dupi/unblot.go:42, cmd/dupi/inspect.go:49, cmd/dupi/like.go:44 -/
  | flags {v : Verb} {root : Bytes} {rest : List Bytes} : main L.join p.env args = some (v, root, rest) → Flag.parse (verbFlags L.S v) rest = none →
      Runs L readCfg d fs p args d [] (if Flag.helps (verbFlags L.S v) rest then 0 else 2)
  | query {v : Verb} {root : Bytes} {rest : List Bytes} {out : Bytes} {err : Bool} : main L.join p.env args = some (v, root, rest) →
      query L d fs p args v = some (.ok (out, err)) → Runs L readCfg d fs p args d out (statusOf err)
  | queryErr {v : Verb} {root : Bytes} {rest : List Bytes} {e : Err} {out : Bytes} : main L.join p.env args = some (v, root, rest) →
      query L d fs p args v = some (.error (.err e)) → Runs L readCfg d fs p args d out 1
  | queryPanic {v : Verb} {root : Bytes} {rest : List Bytes} {out : Bytes} : main L.join p.env args = some (v, root, rest) →
      query L d fs p args v = some (.error .panic) → Runs L readCfg d fs p args d out 2
  /-- cmd/dupi/index.go:81-103 -/
  | index {op : Disk.Op} {err : Bool} {d' : Disk} : indexRun L.S L.join readCfg p args = some (.ok (op, err)) → Disk.Step L.u L.J L.srt d op d' →
      Runs L readCfg d fs p args d' [] (statusOf err)
  /-- `getIndexer` fails before it makes or opens an index (cmd/dupi/index.go:66-76) -/
  | indexErr {e : Err} : indexRun L.S L.join readCfg p args = some (.error (.err e)) → Runs L readCfg d fs p args d [] 1
  /-- `os.Mkdir` fails (indexer.go:55) -/
  | indexThere {cwd : Bytes} {c : Config} {docs : List Doc} {err : Bool} : indexRun L.S L.join readCfg p args = some (.ok (.create cwd c docs, err)) →
      d (Disk.resolve cwd c.indexRoot) ≠ none → Runs L readCfg d fs p args d [] 1
  /-- `OpenIndexer` fails -/
  | indexNone {cwd root : Bytes} {docs : List Doc} {err : Bool} {e : Err} : indexRun L.S L.join readCfg p args = some (.ok (.append cwd root docs, err)) →
      d.openIndexer L.J cwd root = .error (.err e) → Runs L readCfg d fs p args d [] 1

end Cmd
end Dupi
