import Verif.Model.Go
/-! # encoding/csv (library, trusted base): `Reader` as cmd/dupenron sets it up, and `Writer`

cmd/dupenron/main.go:38-48: comma ',', LazyQuotes, two fields per record, no comments, leading space kept.  Written down from the source of Go 1.17.
Not modelled: errors of reading the file; positions in messages. -/

namespace Dupi.Csv

/-- reader.go, `lengthNL` -/
def lengthNL (line : Bytes) : Nat := if line.getLast? = some 10 then 1 else 0

/-- reader.go, `readLine`, the end of the line: "\r\n" becomes "\n" -/
def normalize (line : Bytes) : Bytes :=
  if 2 ≤ line.length ∧ line[line.length - 2]? = some 13 ∧ line.getLast? = some 10 then line.take (line.length - 2) ++ [10] else line

/-- reader.go, `readLine`: the next line with its newline, and what follows.  At the end of the file the line is empty; a "\r" that is the last
byte of a file is dropped. -/
def readLine (s : Bytes) : Bytes × Bytes :=
  match s.findIdx? (· == 10) with
  | some i => (normalize (s.take (i + 1)), s.drop (i + 1))
  | none => (if s.getLast? = some 13 then s.take (s.length - 1) else s, [])

/-- reader.go, `readRecord`, a quoted field, `line` being what follows the opening quote: the field, what follows it on its last line if there is a
comma after it, and the lines not read yet.  `none`: out of fuel. -/
def quoted : Nat → Bytes → Bytes → Bytes → Option (Bytes × Option Bytes × Bytes)
  | 0, _, _, _ => none
  | fuel + 1, line, rest, buf =>
    match line.findIdx? (· == 34) with
    | some i =>
      match line.drop (i + 1) with
      | 34 :: line' => quoted fuel line' rest (buf ++ line.take i ++ [34])
      | 44 :: line' => some (buf ++ line.take i, some line', rest)
      | line' => if lengthNL line' = line'.length then some (buf ++ line.take i, none, rest) else quoted fuel line' rest (buf ++ line.take i ++ [34])
    | none =>
      if 0 < line.length then quoted fuel (readLine rest).1 (readLine rest).2 (buf ++ line) else some (buf, none, rest)

/-- reader.go, `readRecord`: the fields of a record -/
def fields : Nat → Bytes → Bytes → List Bytes → Option (List Bytes × Bytes)
  | 0, _, _, _ => none
  | fuel + 1, line, rest, acc =>
    match line with
    | 34 :: line' =>
      match quoted fuel line' rest [] with
      | none => none
      | some (f, some line'', rest') => fields fuel line'' rest' (acc ++ [f])
      | some (f, none, rest') => some (acc ++ [f], rest')
    | _ =>
      match line.findIdx? (· == 44) with
      | some i => fields fuel (line.drop (i + 1)) rest (acc ++ [line.take i])
      | none => some (acc ++ [line.take (line.length - lengthNL line)], rest)

/-- reader.go, `readRecord`, first part: empty lines are skipped; `none` at the end of the file -/
def skipEmpty : Nat → Bytes → Option (Option (Bytes × Bytes))
  | 0, _ => none
  | fuel + 1, s =>
    if s = [] then some none
    else if lengthNL (readLine s).1 = (readLine s).1.length then skipEmpty fuel (readLine s).2
    else some (some (readLine s))

/-- what `Read` returns -/
inductive Res where
  | eof
  | record (a b : Bytes)
  /-- `ErrFieldCount` -/
  | err
deriving DecidableEq

/-- `Read`, and what of the file follows -/
def read (s : Bytes) : Option (Res × Bytes) :=
  match skipEmpty (s.length + 1) s with
  | none => none
  | some none => some (.eof, [])
  | some (some (line, rest)) =>
    match fields (s.length + 2) line rest [] with
    | none => none
    | some ([a, b], rest) => some (.record a b, rest)
    | some (_, rest) => some (.err, rest)

/-- a call of `Read` after the other until one returns an error: the records, and whether the error is not `io.EOF` -/
def readAll : Nat → Bytes → Option (List (Bytes × Bytes) × Bool)
  | 0, _ => none
  | fuel + 1, s =>
    match read s with
    | none => none
    | some (.eof, _) => some ([], false)
    | some (.err, _) => some ([], true)
    | some (.record a b, s) => (readAll fuel s).map fun r => ((a, b) :: r.1, r.2)

/-- writer.go, `fieldNeedsQuotes`; `space`: the first rune is a space (`unicode.IsSpace`) -/
def needsQuotes (space : Bytes → Bool) (f : Bytes) : Bool :=
  f ≠ [] && (f = [92, 46] || f.any (fun b => b == 44 || b == 34 || b == 13 || b == 10) || space f)

/-- writer.go, `Write`, the strings (and bytes, runes) passed to the buffered writer for a field between quotes: up to a special character, the special
character, and so on (`cur`: since the last one) -/
def chunks (cur : Bytes) : Bytes → List Bytes
  | [] => [cur]
  | b :: bs =>
    if b = 34 then cur :: [34, 34] :: chunks [] bs
    else if b = 13 ∨ b = 10 then cur :: [b] :: chunks [] bs
    else chunks (cur ++ [b]) bs

/-- writer.go, `Write`, a field -/
def fieldPieces (space : Bytes → Bool) (f : Bytes) : List Bytes :=
  if needsQuotes space f then [34] :: chunks [] f ++ [[34]] else [f]

/-- writer.go, `Write`, a record of two fields -/
def recordPieces (space : Bytes → Bool) (r : Bytes × Bytes) : List Bytes := fieldPieces space r.1 ++ [44] :: fieldPieces space r.2 ++ [[10]]

/-- the bytes written for a record -/
def writeRecord (space : Bytes → Bool) (r : Bytes × Bytes) : Bytes := (recordPieces space r).flatten

/-- `bufio.Writer`: what was passed on, and the buffer of 4096 bytes -/
structure Buf where
  out : Bytes
  buf : Bytes

/-- bufio.go, `WriteString` (and `WriteByte`, which does the same with one byte): while there is not enough room, the buffer is filled and passed on.  `direct`: if the
buffer is empty, what is too long for it is passed on as it is (from Go 1.18 on, writing to a file) -/
def Buf.str (direct : Bool) (o : Buf) (s : Bytes) : Buf :=
  if s.length ≤ 4096 - o.buf.length then ⟨o.out, o.buf ++ s⟩
  else if o.buf = [] ∧ direct = true then ⟨o.out ++ s, []⟩
  else Buf.str direct ⟨o.out ++ (o.buf ++ s.take (4096 - o.buf.length)), []⟩ (s.drop (4096 - o.buf.length))
termination_by s.length + o.buf.length
decreasing_by simp only [List.length_drop, List.length_nil]; omega

/-- one string after the other -/
def Buf.write (direct : Bool) (o : Buf) (l : List Bytes) : Buf := l.foldl (Buf.str direct) o

end Dupi.Csv
