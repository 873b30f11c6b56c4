import Verif.Model.Config
/-! # cmd/dupi: the command line (cmd/dupi/dupi.go, the flags of the verbs)

Not modelled: messages (the usage is in Model/Usage); exit codes are in Model/Program (here `none`: the program ends without running the verb); the agent started at cmd/dupi/dupi.go:94-98. -/

namespace Dupi

namespace Flag

/-- the kinds of flags: boolean flags need no value; the others have one, which `ok` accepts -/
inductive Kind where
  | bool
  | value (ok : Bytes → Bool)

/-- "true" -/
def trueB : Bytes := [116, 114, 117, 101]

/-- `strconv.ParseBool` (library, trusted base): 1, t, T, TRUE, true, True, 0, f, F, FALSE, false, False -/
def parseBool (v : Bytes) : Option Bool :=
  if v = [49] ∨ v = [116] ∨ v = [84] ∨ v = [84, 82, 85, 69] ∨ v = trueB ∨ v = [84, 114, 117, 101] then some true
  else if v = [48] ∨ v = [102] ∨ v = [70] ∨ v = [70, 65, 76, 83, 69] ∨ v = [102, 97, 108, 115, 101] ∨ v = [70, 97, 108, 115, 101] then some false
  else none

/-- the name and the value, after a '=' that is not the first byte (flag.go, `parseOne`) -/
def cut : Bytes → Bytes × Option Bytes
  | [] => ([], none)
  | b :: bs =>
    match bs.findIdx? (· == 61) with
    | none => (b :: bs, none)
    | some i => (b :: bs.take i, some (bs.drop (i + 1)))

/-- what an argument is -/
inductive Arg where
  /-- not a flag -/
  | other
  /-- "--" -/
  | dashes
  | bad
  | flag (name : Bytes) (value : Option Bytes)

/-- what follows the dashes of a flag -/
def named (n : Bytes) : Arg :=
  match n with
  | [] => .bad
  | b :: _ => if b = 45 ∨ b = 61 then .bad else .flag (cut n).1 (cut n).2

/-- flag.go, `parseOne`, first part -/
def arg : Bytes → Arg
  | 45 :: 45 :: n => if n = [] then .dashes else named n
  | 45 :: b :: n => named (b :: n)
  | _ => .other

/-- `FlagSet.Parse` (library, trusted base; flag.ExitOnError: `none` if the program ends, with -h or after an error): the flags
set, in order, with their values, and the other arguments -/
def parse (fs : Bytes → Option Kind) : List Bytes → Option (List (Bytes × Bytes) × List Bytes)
  | [] => some ([], [])
  | s :: args =>
    match arg s with
    | .other => some ([], s :: args)
    | .dashes => some ([], args)
    | .bad => none
    | .flag n v =>
      match fs n with
      | none => none
      | some .bool =>
        if (parseBool (v.getD trueB)).isSome then (parse fs args).map fun r => ((n, v.getD trueB) :: r.1, r.2) else none
      | some (.value ok) =>
        match v with
        | some v => if ok v then (parse fs args).map fun r => ((n, v) :: r.1, r.2) else none
        | none =>
          match args with
          | [] => none
          | v :: args => if ok v then (parse fs args).map fun r => ((n, v) :: r.1, r.2) else none

/-- the value of a flag: what it was set to last -/
def last (st : List (Bytes × Bytes)) (n : Bytes) : Option Bytes := (st.reverse.find? fun p => p.1 == n).map Prod.snd

/-- the value of a boolean flag that is false if not given -/
def lastBool (st : List (Bytes × Bytes)) (n : Bytes) : Bool := ((last st n).bind parseBool).getD false

end Flag

namespace Cmd

/-- cmd/dupi/dupi.go:31-37: the verbs -/
inductive Verb where
  | index | extract | blot | unblot | inspect | like
deriving DecidableEq, Repr

/-- their names: "index", "extract", "blot", "unblot", "inspect", "like" -/
def Verb.name : Verb → Bytes
  | .index => [105, 110, 100, 101, 120]
  | .extract => [101, 120, 116, 114, 97, 99, 116]
  | .blot => [98, 108, 111, 116]
  | .unblot => [117, 110, 98, 108, 111, 116]
  | .inspect => [105, 110, 115, 112, 101, 99, 116]
  | .like => [108, 105, 107, 101]

/-- `scMap[arg]` -/
def Verb.ofName (arg : Bytes) : Option Verb := [Verb.index, .extract, .blot, .unblot, .inspect, .like].find? fun v => v.name == arg

/-- cmd/dupi/dupi.go:60-71 -/
def splitArgs (args : List Bytes) : List Bytes × List Bytes :=
  match args.findIdx? fun a => (Verb.ofName a).isSome with
  | some i => (args.take i, args.drop i)
  | none => (args.take (args.length - 1), args.drop (args.length - 1))

/-- the environment: the variables DUPIROOT and HOME, empty if not set -/
structure Env where
  dupiroot : Bytes
  home : Bytes

/-- cmd/dupi/dupi.go:39-41: the flag -r, a string -/
def gFlags (n : Bytes) : Option Flag.Kind := if n = [114] then some (.value fun _ => true) else none

/-- cmd/dupi/dupi.go:43-57; `join` is `filepath.Join`, "dupi" is the root without a home -/
def getIndexRoot (join : Bytes → Bytes → Bytes) (env : Env) (st : List (Bytes × Bytes)) : Bytes :=
  let root := (Flag.last st [114]).getD []
  if root ≠ [] then root
  else if env.dupiroot ≠ [] then env.dupiroot
  else if env.home = [] then [100, 117, 112, 105]
  else join env.home [46, 100, 117, 112, 105]

/-- cmd/dupi/dupi.go:99-111: the verb that is run, the index root it will use and its arguments -/
def main (join : Bytes → Bytes → Bytes) (env : Env) (args : List Bytes) : Option (Verb × Bytes × List Bytes) :=
  match (splitArgs args).2 with
  | [] => none
  | v :: rest =>
    match Verb.ofName v with
    | none => none
    | some verb =>
      match Flag.parse gFlags (splitArgs args).1 with
      | none => none
      | some r => some (verb, getIndexRoot join env r.1, rest)

/-- `strconv.ParseInt(v, 0, 64)` and `strconv.ParseFloat(v, 64)` (library, trusted base) -/
structure Strconv (F : Type) where
  parseInt : Bytes → Option Int
  parseFloat : Bytes → Option F

/-- The flags of the verbs: cmd/dupi/index.go:45-50 (-t, -a, -v, -s, -n, -c), cmd/dupi/extract.go:43-45 (-json, -sigma, -b), cmd/dupi/blot.go:36
(-offsets), cmd/dupi/unblot.go:33 (-all), cmd/dupi/inspect.go:39-40 (-json, -files); like has none (cmd/dupi/like.go:34). -/
def verbFlags {F : Type} (S : Strconv F) (v : Verb) (n : Bytes) : Option Flag.Kind :=
  let int : Flag.Kind := .value fun b => (S.parseInt b).isSome
  match v with
  | .index =>
    if n = [116] ∨ n = [115] ∨ n = [110] then some int
    else if n = [97] ∨ n = [118] then some .bool
    else if n = [99] then some (.value fun _ => true)
    else none
  | .extract =>
    if n = [106, 115, 111, 110] ∨ n = [98] then some .bool
    else if n = [115, 105, 103, 109, 97] then some (.value fun b => (S.parseFloat b).isSome)
    else none
  | .blot => if n = [111, 102, 102, 115, 101, 116, 115] then some .bool else none
  | .unblot => if n = [97, 108, 108] then some .bool else none
  | .inspect => if n = [106, 115, 111, 110] ∨ n = [102, 105, 108, 101, 115] then some .bool else none
  | .like => none

/-- the value of a flag of type int -/
def lastInt {F : Type} (S : Strconv F) (st : List (Bytes × Bytes)) (n : Bytes) (default : Int) : Int :=
  ((Flag.last st n).bind S.parseInt).getD default

/-- how the index command gets its indexer -/
inductive Target where
  /-- `OpenIndexer` -/
  | openAt (root : Bytes)
  /-- `IndexerFromConfig` -/
  | create (c : Config)
deriving DecidableEq

/-- cmd/dupi/index.go:58-79 up to the last call; `readCfg` is `ReadConfig` -/
def getIndexer {F : Type} (S : Strconv F) (cwd : Bytes) (readCfg : Bytes → M Config) (root : Bytes) (st : List (Bytes × Bytes)) : M Target :=
  if Flag.lastBool st [97] then .ok (.openAt root)
  else if (Flag.last st [99]).getD [] ≠ [] then do
    let c ← readCfg ((Flag.last st [99]).getD [])
    return .create c
  else do
    let c ← Config.new cwd root (lastInt S st [110] 4) (lastInt S st [116] 10)
    return .create { c with numShatters := lastInt S st [115] 4 }

/-- cmd/dupi/like.go:43-51: the files the like command works on are all arguments, not those left by the flags -/
def likeFiles {F : Type} (S : Strconv F) (args : List Bytes) : Option (List Bytes) :=
  (Flag.parse (verbFlags S .like) args).map fun _ => args

end Cmd
end Dupi
