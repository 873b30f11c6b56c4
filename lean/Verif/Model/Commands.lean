import Verif.Model.Run
/-! # cmd/dupi: whole runs of `dupi inspect`, `dupi blot`, `dupi unblot` and `dupi like`

As in Model/Run, what is logged is not modelled.  The result of a run is what it writes to standard output and whether it ends with an error
(`log.Fatal`); if it panics, what was written before is not modelled. -/

namespace Dupi.Cmd

/-- an ASCII text -/
def ascii (s : String) : Bytes := s.toList.map fun c => UInt8.ofNat c.toNat

/-- cmd/dupi/dupi.go:99-111 with the first lines of `Run` of the verb `v`: the index root, the flags set, the arguments of the verb and those that are no
flags.  `none`: another verb is run, or the program ends with a usage message. -/
def start {F : Type} (S : Strconv F) (join : Bytes → Bytes → Bytes) (v : Verb) (env : Env) (args : List Bytes) :
    Option (Bytes × List (Bytes × Bytes) × List Bytes × List Bytes) :=
  match main join env args with
  | some (v', root, rest) => if v' = v then (Flag.parse (verbFlags S v) rest).map fun r => (root, r.1, rest, r.2) else none
  | none => none

/-- what follows after `dupi.OpenIndex`: an error ends the run (cmd/dupi/blot.go:47-50, cmd/dupi/unblot.go:44-47, cmd/dupi/like.go:46-49, cmd/dupi/inspect.go:54-57) -/
def opened {α : Type} (r : M α) (f : α → M (Bytes × Bool)) : M (Bytes × Bool) :=
  match r with
  | .ok x => f x
  | .error (.err _) => .ok ([], true)
  | .error e => .error e

/-! ## inspect -/

/-- `%d` of a `uint64` -/
def dec64 (n : Nat) : Bytes := digits 8 n

open Classical in
/-- `%.2f` (package fmt, trusted base): rounded to hundredths, to the even one of two -/
noncomputable def fixed2 (x : ℝ) : Bytes :=
  let k := (Fl.rint (100 * |x|)).toNat
  (if x < 0 then [45] else []) ++ (digits 8 (k / 100) ++ 46 :: [digit (k / 10 % 10), digit (k % 10)])

/-- stats.go:29-43 -/
noncomputable def statsText (root : Bytes) (st : Index.Stats) (mean sigma : ℝ) : Bytes :=
  ascii "dupi index at " ++ root ++ ascii ":\n\t- " ++ dec64 st.numDocs ++ ascii " docs\n\t- " ++ dec64 st.numPaths ++ ascii " nodes in path tree\n\t- " ++
    dec64 st.numPosts ++ ascii " posts\n\t- " ++ dec64 st.numBlots ++ ascii " blots\n\t- " ++ fixed2 mean ++ ascii " mean docs per blot\n\t- " ++
    fixed2 sigma ++ ascii " sigma (std deviation)\n"

/-- `json.MarshalIndent(st, "", "\t")` (cmd/dupi/inspect.go:65) with the fields of stats.go:19-27; `fl` is the text of a float64 (encoding/json: the
shortest one that is read back as the same float64) -/
noncomputable def statsJson (fl : ℝ → Bytes) (root : Bytes) (st : Index.Stats) (mean sigma : ℝ) : Bytes :=
  Json.object 0 [Json.member "Root" (Json.encStr root), Json.member "NumDocs" (Json.encNat st.numDocs), Json.member "NumPaths" (Json.encNat st.numPaths),
    Json.member "NumPosts" (Json.encNat st.numPosts), Json.member "NumBlots" (Json.encNat st.numBlots), Json.member "BlotMean" (fl mean),
    Json.member "BlotSigma" (fl sigma)]

/-- cmd/dupi/inspect.go:48-73; the flag -files is not looked at.  `none` also if the statistics are not finite. -/
noncomputable def inspectRun {F : Type} (S : Strconv F) (join : Bytes → Bytes → Bytes) (fl : ℝ → Bytes) (J : CfgCodec) (srt : Sorter) (fused : Bool) (d : Disk) (p : Proc) (args : List Bytes) :
    Option (M (Bytes × Bool)) :=
  match start S join .inspect p.env args with
  | none => none
  | some (root, st, _, _) =>
    match d.openIndex J srt p.cwd root with
    | .ok x => (x.blotStats fused).map fun ms =>
        .ok (if Flag.lastBool st [106, 115, 111, 110] then statsJson fl x.config.indexRoot x.stats ms.1 ms.2 else statsText x.config.indexRoot x.stats ms.1 ms.2, false)
    | r => some (opened r fun _ => .ok ([], false))

/-! ## blot -/

/-- cmd/dupi/blot.go:60-88: a file; an error is logged by the caller -/
def blotFile (u : Uni) (fs : Files) (c : Config) (offsets : Bool) (fname : Bytes) : M Bytes :=
  match fs fname with
  | none => .ok []
  | some dat =>
    if offsets then do
      let out ← blotOffsets u c dat
      return out.flatMap fun r => hex r.1 ++ 32 :: (dec r.2.1 ++ 58 :: (dec r.2.2 ++ [10]))
    else do
      let out ← blots u c dat
      return out.flatMap fun b => hex b ++ [10]

/-- cmd/dupi/blot.go:52-56 -/
def blotFiles (u : Uni) (fs : Files) (c : Config) (offsets : Bool) : List Bytes → M Bytes
  | [] => .ok []
  | f :: files => do
    let a ← blotFile u fs c offsets f
    let b ← blotFiles u fs c offsets files
    return a ++ b

/-- cmd/dupi/blot.go:44-58 -/
def blotRun {F : Type} (S : Strconv F) (join : Bytes → Bytes → Bytes) (J : CfgCodec) (srt : Sorter) (u : Uni) (d : Disk) (fs : Files) (p : Proc) (args : List Bytes) :
    Option (M (Bytes × Bool)) :=
  (start S join .blot p.env args).map fun (root, st, _, files) =>
    opened (d.openIndex J srt p.cwd root) fun x => do
      let out ← blotFiles u fs x.config (Flag.lastBool st [111, 102, 102, 115, 101, 116, 115]) files
      return (out, false)

/-! ## unblot -/

/-- cmd/dupi/unblot.go:79 and cmd/dupi/like.go:136: "\t%s %d:%d\n" -/
def entryText (k : DocKey) : Bytes := 9 :: (k.1 ++ 32 :: (dec k.2.1 ++ 58 :: (dec k.2.2 ++ [10])))

/-- cmd/dupi/unblot.go:77-80 -/
def groupText (g : Bytes × List Doc) : Bytes :=
  ascii "text:\n'''\n" ++ g.1 ++ ascii "'''\n" ++ g.2.flatMap fun d => entryText (dkey d)

/-- cmd/dupi/unblot.go:50-82 from argument number `i` on; `ord i` is the order in which the map is iterated over -/
def unblotArgs (skip : Bytes → Option Bytes) (u : Uni) (fs : Files) (grow : Nat → Nat) (x : Index) (fuel : Nat) (q : QState) (all : Bool)
    (ord : Nat → Groups → Groups) : Nat → List Bytes → M (Bytes × Bool)
  | _, [] => .ok ([], false)
  | i, arg :: args =>
    match scanHex skip arg with
    | none => .ok ([], true)
    | some b => opened (unblot u fs grow x fuel q all b) fun r => do
      let t ← unblotArgs skip u fs grow x fuel q all ord (i + 1) args
      return ((ord i r.1).flatMap groupText ++ t.1, t.2)

/-- cmd/dupi/unblot.go:41-84 -/
def unblotRun {F : Type} (S : Strconv F) (join : Bytes → Bytes → Bytes) (J : CfgCodec) (srt : Sorter) (u : Uni) (skip : Bytes → Option Bytes) (grow : Nat → Nat) (fuel : Nat)
    (ord : Nat → Groups → Groups) (d : Disk) (fs : Files) (p : Proc) (args : List Bytes) : Option (M (Bytes × Bool)) :=
  (start S join .unblot p.env args).map fun (root, st, _, rest) =>
    opened (d.openIndex J srt p.cwd root) fun x => do
      let q ← x.startQuery
      unblotArgs skip u fs grow x fuel q (Flag.lastBool st [97, 108, 108]) ord 0 rest

/-! ## like -/

/-- cmd/dupi/like.go:51-55 with 71-139, from file number `i` on; `ord i` is the order in which the map is iterated over and sorted (all numbers there are 1) -/
def likeFilesRun (u : Uni) (fs : Files) (grow : Nat → Nat) (x : Index) (fuel : Nat) (ord : Nat → List DocKey → List DocKey) : Nat → List Bytes → M (Bytes × Bool)
  | _, [] => .ok ([], false)
  | i, f :: files =>
    match fs f with
    | none => .ok ([], true)
    | some dat => do
      let q ← x.startQuery
      opened (like u fs grow x fuel q dat) fun keys => do
        let t ← likeFilesRun u fs grow x fuel ord (i + 1) files
        return (ascii "like " ++ f ++ ascii ":\n" ++ (ord i keys).flatMap entryText ++ t.1, t.2)

/-- cmd/dupi/like.go:43-57: all arguments are taken for files -/
def likeRun {F : Type} (S : Strconv F) (join : Bytes → Bytes → Bytes) (J : CfgCodec) (srt : Sorter) (u : Uni) (grow : Nat → Nat) (fuel : Nat)
    (ord : Nat → List DocKey → List DocKey) (d : Disk) (fs : Files) (p : Proc) (args : List Bytes) : Option (M (Bytes × Bool)) :=
  (start S join .like p.env args).map fun (root, _, all, _) =>
    opened (d.openIndex J srt p.cwd root) fun x => likeFilesRun u fs grow x fuel ord 0 all

end Dupi.Cmd
