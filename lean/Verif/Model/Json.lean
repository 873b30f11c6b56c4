import Verif.Model.Indexer
import Verif.Model.Utf8
/-! # encoding/json, as far as config.go uses it (library code, trusted base)

`json.MarshalIndent(cfg, "", "\t")` on a `Config` and `json.Unmarshal` of arbitrary bytes into a `Config`, written down from the sources of Go 1.17.
Error values are not distinguished. -/

namespace Dupi.Json

/-! ## writing -/

/-- a hexadecimal digit -/
def hexDigit (n : Nat) : UInt8 := if n < 10 then UInt8.ofNat (48 + n) else UInt8.ofNat (87 + n)

/-- `\u00XX` -/
def u00 (b : UInt8) : Bytes := [92, 117, 48, 48, hexDigit (b.toNat / 16), hexDigit (b.toNat % 16)]

/-- encoding/json encodeState.string with HTML escaping, one rune: quote and backslash are escaped, `\n`, `\r`, `\t` have short forms, other
control characters and `<`, `>`, `&` are written as backslash, u and the code, as are U+2028 and U+2029, invalid bytes as U+FFFD in
that form, the rest as it is -/
def encRune (r : Rune) : Bytes :=
  match r.cp, r.enc with
  | none, _ => [92, 117, 102, 102, 102, 100]
  | some c, e =>
    if c = 34 then [92, 34]
    else if c = 92 then [92, 92]
    else if c = 10 then [92, 110]
    else if c = 13 then [92, 114]
    else if c = 9 then [92, 116]
    else if c < 32 ∨ c = 60 ∨ c = 62 ∨ c = 38 then u00 (UInt8.ofNat c)
    else if c = 0x2028 then [92, 117, 50, 48, 50, 56]
    else if c = 0x2029 then [92, 117, 50, 48, 50, 57]
    else e

/-- a quoted string -/
def encStr (s : Bytes) : Bytes := 34 :: (decode s).flatMap encRune ++ [34]

/-- decimal digits, `fuel` at most -/
def natDigits : Nat → Nat → Bytes
  | 0, _ => []
  | fuel + 1, n => if n < 10 then [UInt8.ofNat (48 + n)] else natDigits fuel (n / 10) ++ [UInt8.ofNat (48 + n % 10)]

def encNat (n : Nat) : Bytes := natDigits (n + 1) n

/-- `strconv.AppendInt(nil, i, 10)` -/
def encInt (i : Int) : Bytes := if i < 0 then 45 :: encNat i.natAbs else encNat i.natAbs

/-- a line break and `n` tabs -/
def nl (n : Nat) : Bytes := 10 :: List.replicate n 9

/-- `"key": value` -/
def member (key : String) (v : Bytes) : Bytes := encStr key.toUTF8.toList ++ [58, 32] ++ v

/-- an object of members at depth `n` -/
def object (n : Nat) (ms : List Bytes) : Bytes := [123] ++ nl (n + 1) ++ (ms.intersperse (44 :: nl (n + 1))).flatten ++ nl n ++ [125]

/-- `json.MarshalIndent(cfg, "", "\t")` (config.go:146), with the fields of config.go:28-42, token/config.go:20-23, blotter/config.go:19-22 -/
def marshal (c : Config) : Bytes :=
  object 0 [
    member "IndexRoot" (encStr c.indexRoot),
    member "SeqLen" (encInt c.seqLen),
    member "NumShards" (encInt c.numShards),
    member "NumShatters" (encInt c.numShatters),
    member "DocFlushRate" (encInt c.docFlushRate),
    member "TokenConfig" (object 1 [member "Name" (encStr c.tokenConfig.name)]),
    member "BlotConfig" (object 1 [member "SeqLen" (encInt c.blotConfig.seqLen), member "Interleave" (encInt c.blotConfig.interleave)])]

/-! ## reading -/

inductive Value where
  | null
  | bool (b : Bool)
  | num (lit : Bytes)
  | str (s : Bytes)
  | arr (l : List Value)
  | obj (l : List (Bytes × Value))

/-- a syntax error -/
def bad {α : Type} : M α := fail (.msg "invalid JSON")

def isWs (b : UInt8) : Bool := b = 32 || b = 9 || b = 10 || b = 13

def skipWs (s : Bytes) : Bytes := s.dropWhile isWs

def isDig (b : UInt8) : Bool := 48 ≤ b && b ≤ 57

def hexVal (b : UInt8) : Option Nat :=
  if 48 ≤ b ∧ b ≤ 57 then some (b.toNat - 48)
  else if 97 ≤ b ∧ b ≤ 102 then some (b.toNat - 87)
  else if 65 ≤ b ∧ b ≤ 70 then some (b.toNat - 55)
  else none

/-- four hexadecimal digits -/
def hex4 : Bytes → Option (Nat × Bytes)
  | a :: b :: c :: d :: t => do
    let a ← hexVal a
    let b ← hexVal b
    let c ← hexVal c
    let d ← hexVal d
    return (a * 4096 + b * 256 + c * 16 + d, t)
  | _ => none

/-- the rune of a `\u` escape with value `c`, `t` after it: surrogate pairs are joined, other surrogates become U+FFFD -/
def uEscape (c : Nat) (t : Bytes) : Nat × Bytes :=
  if 0xD800 ≤ c ∧ c < 0xDC00 then
    match t with
    | 92 :: 117 :: t' =>
      match hex4 t' with
      | some (d, t'') => if 0xDC00 ≤ d ∧ d < 0xE000 then ((c - 0xD800) * 1024 + (d - 0xDC00) + 0x10000, t'') else (0xFFFD, t)
      | none => (0xFFFD, t)
    | _ => (0xFFFD, t)
  else (c, t)

/-- the rest of a string after the opening quote: its value and what follows the closing quote -/
def parseStr : Nat → Bytes → M (Bytes × Bytes)
  | 0, _ => bad
  | _ + 1, [] => bad
  | n + 1, b :: t =>
    if b = 34 then .ok ([], t)
    else if b = 92 then
      match t with
      | [] => bad
      | e :: t =>
        if e = 117 then
          match hex4 t with
          | none => bad
          | some (c, t) => do
            let (s, rest) ← parseStr n (uEscape c t).2
            return (encodeRune (uEscape c t).1 ++ s, rest)
        else
          match (if e = 34 ∨ e = 92 ∨ e = 47 then some e else if e = 98 then some 8 else if e = 102 then some 12 else if e = 110 then some 10
            else if e = 114 then some 13 else if e = 116 then some 9 else none : Option UInt8) with
          | none => bad
          | some x => do
            let (s, rest) ← parseStr n t
            return (x :: s, rest)
    else if b < 32 then bad
    else
      let r := decodeRune b t
      do
        let (s, rest) ← parseStr n (t.drop (r.enc.length - 1))
        return ((if r.cp.isSome then r.enc else [0xEF, 0xBF, 0xBD]) ++ s, rest)

/-- the integer part of a number: `0` or digits that do not begin with `0` -/
def parseIntPart (s : Bytes) : M (Bytes × Bytes) :=
  match s with
  | [] => bad
  | b :: t =>
    if b = 48 then .ok ([b], t)
    else if isDig b then .ok (b :: t.takeWhile isDig, t.dropWhile isDig)
    else bad

/-- at least one digit -/
def parseDigits (s : Bytes) : M (Bytes × Bytes) :=
  if (s.takeWhile isDig) = [] then bad else .ok (s.takeWhile isDig, s.dropWhile isDig)

/-- fraction and exponent -/
def parseFrac (s : Bytes) : M (Bytes × Bytes) :=
  match s with
  | 46 :: t => do
    let (ds, t) ← parseDigits t
    return (46 :: ds, t)
  | _ => .ok ([], s)

def parseExp (s : Bytes) : M (Bytes × Bytes) :=
  match s with
  | [] => .ok ([], s)
  | e :: t =>
    if e = 69 ∨ e = 101 then
      match t with
      | g :: t' =>
        if g = 43 ∨ g = 45 then do
          let (ds, t) ← parseDigits t'
          return (e :: g :: ds, t)
        else do
          let (ds, t) ← parseDigits t
          return (e :: ds, t)
      | [] => bad
    else .ok ([], s)

/-- an optional minus sign -/
def parseSign (s : Bytes) : Bytes × Bytes :=
  match s with
  | [] => ([], [])
  | b :: t => if b = 45 then ([b], t) else ([], b :: t)

def parseNum (s : Bytes) : M (Value × Bytes) := do
  let (sign, s) := parseSign s
  let (a, s) ← parseIntPart s
  let (b, s) ← parseFrac s
  let (c, s) ← parseExp s
  return (.num (sign ++ a ++ b ++ c), s)

/-- the members of an object after the opening brace and white space, up to and including the closing brace -/
def parseMembers (pv : Bytes → M (Value × Bytes)) : Nat → Bytes → M (List (Bytes × Value) × Bytes)
  | 0, _ => bad
  | n + 1, s =>
    match s with
    | 34 :: t => do
      let (k, t) ← parseStr t.length t
      match skipWs t with
      | 58 :: t => do
        let (v, t) ← pv (skipWs t)
        match skipWs t with
        | 44 :: t => do
          let (ms, t) ← parseMembers pv n (skipWs t)
          return ((k, v) :: ms, t)
        | 125 :: t => return ([(k, v)], t)
        | _ => bad
      | _ => bad
    | _ => bad

/-- the elements of an array after the opening bracket and white space, up to and including the closing bracket -/
def parseElems (pv : Bytes → M (Value × Bytes)) : Nat → Bytes → M (List Value × Bytes)
  | 0, _ => bad
  | n + 1, s => do
    let (v, t) ← pv s
    match skipWs t with
    | 44 :: t => do
      let (vs, t) ← parseElems pv n (skipWs t)
      return (v :: vs, t)
    | 93 :: t => return ([v], t)
    | _ => bad

/-- a value without white space before it; `d` levels of nesting are left -/
def parseValue : Nat → Bytes → M (Value × Bytes)
  | 0, _ => bad
  | d + 1, s =>
    match s with
    | [] => bad
    | b :: t =>
      if b = 123 then
        if d = 0 then bad
        else match skipWs t with
          | 125 :: t => .ok (.obj [], t)
          | t => do
            let (ms, t) ← parseMembers (parseValue d) t.length t
            return (.obj ms, t)
      else if b = 91 then
        if d = 0 then bad
        else match skipWs t with
          | 93 :: t => .ok (.arr [], t)
          | t => do
            let (vs, t) ← parseElems (parseValue d) t.length t
            return (.arr vs, t)
      else if b = 34 then do
        let (s, t) ← parseStr t.length t
        return (.str s, t)
      else if b = 116 then if t.take 3 = [114, 117, 101] then .ok (.bool true, t.drop 3) else bad
      else if b = 102 then if t.take 4 = [97, 108, 115, 101] then .ok (.bool false, t.drop 4) else bad
      else if b = 110 then if t.take 3 = [117, 108, 108] then .ok (.null, t.drop 3) else bad
      else parseNum s

/-- a whole text: one value with white space around it (checkValid, maxNestingDepth = 10000) -/
def parse (s : Bytes) : M Value := do
  let (v, t) ← parseValue 10001 (skipWs s)
  if skipWs t = [] then return v else bad

/-! ### into a `Config` -/

/-- decimal digits to a number -/
def digitsVal : Nat → Bytes → Option Nat
  | acc, [] => some acc
  | acc, b :: t => if isDig b then digitsVal (acc * 10 + (b.toNat - 48)) t else none

/-- `strconv.ParseInt(lit, 10, 64)` of a JSON number (there is no + in front, and no underscore) -/
def parseInt (lit : Bytes) : M Int :=
  match lit with
  | [] => bad
  | [45] => bad
  | 45 :: t => match digitsVal 0 t with
    | some n => if n ≤ 2 ^ 63 then .ok (-(n : Int)) else bad
    | none => bad
  | t => match digitsVal 0 t with
    | some n => if n < 2 ^ 63 then .ok (n : Int) else bad
    | none => bad

/-- case folding of a key (encoding/json fold.go): ASCII case, and U+017F for s, U+212A for k -/
def foldKey (k : Bytes) : List Nat :=
  (decode k).map fun r => match r.cp with
    | none => 0xFFFD
    | some c => if 65 ≤ c ∧ c ≤ 90 then c + 32 else if c = 0x17F then 115 else if c = 0x212A then 107 else c

/-- the field a key stands for: the one with that name, or else one with that name up to case -/
def field (names : List String) (k : Bytes) : Option String :=
  match names.find? fun n => n.toUTF8.toList = k with
  | some n => some n
  | none => names.find? fun n => foldKey n.toUTF8.toList = foldKey k

def asInt (v : Value) (old : Int) : M Int :=
  match v with
  | .null => .ok old
  | .num lit => parseInt lit
  | _ => bad

def asStr (v : Value) (old : Bytes) : M Bytes :=
  match v with
  | .null => .ok old
  | .str s => .ok s
  | _ => bad

/-- the members one after the other; `set` stores a value in a field -/
def setAll {α : Type} (names : List String) (set : α → String → Value → M α) : α → List (Bytes × Value) → M α
  | c, [] => .ok c
  | c, (k, v) :: ms =>
    match field names k with
    | none => setAll names set c ms
    | some n => do
      let c ← set c n v
      setAll names set c ms

/-- a struct: nothing is changed by null, anything but an object is an error -/
def asStruct {α : Type} (names : List String) (set : α → String → Value → M α) (v : Value) (old : α) : M α :=
  match v with
  | .null => .ok old
  | .obj ms => setAll names set old ms
  | _ => bad

def setToken (c : TokenConfig) (n : String) (v : Value) : M TokenConfig :=
  if n = "Name" then do let s ← asStr v c.name; return { c with name := s }
  else .ok c

def setBlot (c : BlotConfig) (n : String) (v : Value) : M BlotConfig :=
  if n = "SeqLen" then do let i ← asInt v c.seqLen; return { c with seqLen := i }
  else if n = "Interleave" then do let i ← asInt v c.interleave; return { c with interleave := i }
  else .ok c

def configNames : List String := ["IndexRoot", "SeqLen", "NumShards", "NumShatters", "DocFlushRate", "TokenConfig", "BlotConfig"]

def setConfig (c : Config) (n : String) (v : Value) : M Config :=
  if n = "IndexRoot" then do let s ← asStr v c.indexRoot; return { c with indexRoot := s }
  else if n = "SeqLen" then do let i ← asInt v c.seqLen; return { c with seqLen := i }
  else if n = "NumShards" then do let i ← asInt v c.numShards; return { c with numShards := i }
  else if n = "NumShatters" then do let i ← asInt v c.numShatters; return { c with numShatters := i }
  else if n = "DocFlushRate" then do let i ← asInt v c.docFlushRate; return { c with docFlushRate := i }
  else if n = "TokenConfig" then do let t ← asStruct ["Name"] setToken v c.tokenConfig; return { c with tokenConfig := t }
  else if n = "BlotConfig" then do let b ← asStruct ["SeqLen", "Interleave"] setBlot v c.blotConfig; return { c with blotConfig := b }
  else .ok c

/-- the zero value -/
def zeroConfig : Config := ⟨[], 0, 0, 0, 0, ⟨[]⟩, ⟨0, 0⟩⟩

/-- `json.Unmarshal(d, &cfg)` (config.go:128-132) -/
def unmarshal (d : Bytes) : M Config := do
  let v ← parse d
  asStruct configNames setConfig v zeroConfig

/-- encoding/json -/
def codec : CfgCodec := ⟨marshal, unmarshal⟩

end Dupi.Json
