import Verif.Model.ReadFaults
/-! # An index after `Close` (index.go:78-94)

Nothing in an `Index` says that it has been closed: its methods do what they always do, on files that are closed.  A call on a closed
`os.File` returns `os.ErrClosed`, whichever it is.  Calls are made one after the other; queries may have been started before. -/

namespace Dupi

/-- `os.ErrClosed`, within the `PathError` -/
def errClosed : Err := .msg "file already closed"

/-- which of the files of an index are open -/
structure Handles where
  dmd : Bool
  pos : List Bool
  lock : Bool
deriving DecidableEq, Repr

/-- after `OpenIndex` (index.go:39-76): all -/
def Handles.all (n : Nat) : Handles := ⟨true, List.replicate n true, true⟩

/-- `(*os.File).Close`; `e` is what close(2) gives.  The file is closed in any case. -/
def closeFile (isOpen : Bool) (e : Option Err) : Option Err := if isOpen then e else some errClosed

/-- index.go:82-92, with internal/shard/index.go:48-50: shard `i` and those behind it; `e` is the error so far.  (What is logged is not modelled.) -/
def Index.closeShards (fates : Nat → Option Err) : Nat → List Bool → Option Err → Option Err
  | _, [], e => e
  | i, o :: os, e =>
    match closeFile o (fates i) with
    | none => closeShards fates (i + 1) os e
    | some f => closeShards fates (i + 1) os (match e with
      | some e => some e
      | none => some f)

/-- What the system calls of `Close` give: close(2) of dmd and of the posting files, and what the lock gives (lock/file.go:32-42). -/
structure CloseFates where
  dmd : Option Err
  pos : Nat → Option Err
  lock : Option Err

/-- index.go:78-94.  The deferred function assigns to a variable whose value has been returned already: the lock's error is not reported. -/
def Index.close (φ : CloseFates) (h : Handles) : Option Err × Handles :=
  (Index.closeShards φ.pos 0 h.pos (closeFile h.dmd φ.dmd), ⟨false, h.pos.map fun _ => false, false⟩)

/-- what becomes of reads: `Close` closes dmd and the posting files in one go -/
def Handles.fates (h : Handles) : ReadFates := fun _ => if h.dmd then none else some errClosed

/-- an index with what it has been used for -/
structure Holder where
  x : Index
  h : Handles
  queries : List QState

inductive HCall where
  | close (φ : CloseFates)
  | stats
  | start
  /-- `Get` of the `k`th query -/
  | get (k : Nat) (b : Blot)
  /-- `Next` of the `k`th query -/
  | next (k : Nat) (dst : List Blot)

inductive HOut where
  | closed (e : Option Err)
  | stats (s : M Index.Stats)
  | started
  /-- the caller's blot, and the error -/
  | got (b : Blot) (e : Option Err)
  | next (o : Query.NextOut)

namespace Holder

/-- One call: index.go:78-94, index.go:100-124 (`Stat` on dmd, dmd/t.go:42-48, is the only system call), index.go:265-271, query.go:63-88, 90-127.  A query that there
is not is a nil pointer. -/
def call (grow : Nat → Nat) (ff fuel : Nat) (s : Holder) : HCall → M (HOut × Holder)
  | .close φ =>
    let (e, h) := Index.close φ s.h
    .ok (.closed e, { s with h := h })
  | .stats => .ok (.stats (if s.h.dmd then .ok s.x.stats else fail errClosed), s)
  | .start => do
    let q ← s.x.startQuery
    return (.started, { s with queries := s.queries ++ [q] })
  | .get k b =>
    match s.queries[k]? with
    | none => panic'
    | some q => do
      let (b, e) ← Query.getF s.h.fates grow s.x fuel q b
      return (.got b e, s)
  | .next k dst =>
    match s.queries[k]? with
    | none => panic'
    | some q => do
      let o ← Query.nextF s.h.fates grow s.x ff fuel q dst
      return (.next o, { s with queries := s.queries.set k o.state })

/-- calls, one after the other -/
def calls (grow : Nat → Nat) (ff fuel : Nat) : Holder → List HCall → M (List HOut × Holder)
  | s, [] => .ok ([], s)
  | s, c :: cs => do
    let (o, s) ← s.call grow ff fuel c
    let (os, s) ← calls grow ff fuel s cs
    return (o :: os, s)

end Holder
end Dupi
