import Verif.Model.Csv
import Verif.Model.Find
import Verif.Model.Main
/-! # cmd/dupenron

Not modelled: the agent (cmd/dupenron/main.go:56-60), messages and progress, `qEnron`, which is not called. -/

namespace Dupi.Enron

/-- `bytes.Index(msg, []byte("\n\n"))` -/
def blankLine : Bytes → Option Nat
  | [] => none
  | b :: bs => if b = 10 ∧ bs.head? = some 10 then some 0 else (blankLine bs).map (· + 1)

/-- cmd/dupenron/main.go:115-124: the document made of a record -/
def docOf (fname : Bytes) (offset : UInt32) (r : Bytes × Bytes) : Doc :=
  let ibody := blankLine r.2
  let msg := match ibody with
    | some i => r.2.drop (i + 2)
    | none => r.2
  let ib : UInt32 := match ibody with
    | some i => UInt32.ofNat i
    | none => 4294967295
  ⟨fname, offset + ib + 2 + UInt32.ofNat r.1.length, offset + UInt32.ofNat msg.length, some msg⟩

/-- cmd/dupenron/main.go:107-130: the documents made of the records, one after the other -/
def docsOf (fname : Bytes) : UInt32 → List (Bytes × Bytes) → List Doc
  | _, [] => []
  | offset, r :: rs => docOf fname offset r :: docsOf fname (docOf fname offset r).stop rs

/-- cmd/dupenron/main.go:82-95: at most `n` records are copied to a buffered writer -/
def copy (direct : Bool) (space : Bytes → Bool) : Nat → Bytes → Csv.Buf → Option Csv.Buf
  | 0, _, o => some o
  | n + 1, s, o =>
    match Csv.read s with
    | none => none
    | some (.record a b, s) => copy direct space n s (o.write direct (Csv.recordPieces space (a, b)))
    | some (_, _) => some o

/-- what a run does -/
inductive Act where
  /-- writes to standard output -/
  | print (out : Bytes)
  /-- makes an index and adds documents; `close`: calls `Close` afterwards -/
  | index (c : Config) (docs : List Doc) (close : Bool)

/-- cmd/dupenron/main.go:32-36: -n, -s, -o, -r, -pprof -/
def flags {F : Type} (S : Cmd.Strconv F) (n : Bytes) : Option Flag.Kind :=
  if n = [110] ∨ n = [115] then some (.value fun b => (S.parseInt b).isSome)
  else if n = [111] then some .bool
  else if n = [114] ∨ n = [112, 112, 114, 111, 102] then some (.value fun _ => true)
  else none

/-- "dupi.idx" -/
def defaultRoot : Bytes := [100, 117, 112, 105, 46, 105, 100, 120]

/-- cmd/dupenron/main.go:50-71 with 73-96 and 98-131.  `none`: usage message.  The error `oEnron` returns is dropped; the indexer is made before
the arguments are looked at and the file is opened, and not closed after an error.  Adding a document is taken to succeed (its error is dropped);
if making the indexer fails (other than `NewConfig`) is up to the disk. -/
def main {F : Type} (S : Cmd.Strconv F) (direct : Bool) (space : Bytes → Bool) (cwd : Bytes) (fs : Files) (args : List Bytes) : Option (M Act) :=
  match Flag.parse (flags S) args with
  | none => none
  | some (st, rest) => some <|
    if Flag.lastBool st [111] then
      match rest with
      | [] => panic'
      | fname :: _ =>
        match fs (absPath cwd fname) with
        | none => .ok (.print [])
        | some s =>
          match copy direct space (Cmd.lastInt S st [110] 16).toNat s ⟨[], []⟩ with
          | none => Except.error .diverge
          | some o => .ok (.print o.out)
    else do
      let c ← Config.new cwd ((Flag.last st [114]).getD defaultRoot) (Cmd.lastInt S st [110] 16) (Cmd.lastInt S st [115] 10)
      match rest with
      | [] => .ok (.index c [] false)
      | fname :: _ =>
        match fs (absPath cwd fname) with
        | none => .ok (.index c [] false)
        | some s =>
          match Csv.readAll (s.length + 1) s with
          | none => Except.error .diverge
          | some (rs, bad) => .ok (.index c (docsOf fname 0 rs) !bad)

end Dupi.Enron
