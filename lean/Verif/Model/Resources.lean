import Verif.Model.Lock
/-! # What is held: open files, the lock, running goroutines

The opening functions and the closing functions once more, reduced to what they open, close and start, with every system call and every step that
can return an error allowed to do so.  What is read and written is left out (Model/Index, Model/Disk have it), so is the text of the errors.
`os.File.Close` gives up the descriptor whether or not it returns an error (close(2) on Linux).  Finalizers are left out: a file that nobody refers
to any more is closed by the garbage collector at some later time, a goroutine never is.  The process itself ends nothing here. -/

namespace Dupi.Resources

/-- an open file; `lock m` is the lock file with the `flock` lock it has -/
inductive Handle where
  | lock (m : Option Lock.Mode)
  | cfg
  | fnm
  | dmd
  | iix (i : Nat)
  | pos (i : Nat)
deriving DecidableEq, Repr

def Handle.isLock : Handle → Bool
  | .lock _ => true
  | _ => false

/-- a goroutine: indexer.go:74, 151 `go shard.Serve()`, shatter.go:44-55 -/
inductive Routine where
  | serve (i : Nat)
  | shatter (i : Nat)
deriving DecidableEq, Repr

/-- what a step that may fail does -/
inductive Call where
  | opening
  | closing
  | locking
  /-- everything else: reading, writing, seeking, making a directory, checking and parsing -/
  | other
deriving DecidableEq, Repr

/-- what the process has open and running, the latest first; `step` counts the steps that could fail -/
structure Held where
  step : Nat
  files : List Handle
  routines : List Routine
deriving DecidableEq, Repr

/-- whether the `k`-th step that can fail succeeds; arbitrary -/
abbrev Luck := Call → Nat → Bool

/-- a function returning `error`: `true` for nil -/
abbrev R := Held → Bool × Held

/-- `if err := a(); err != nil { return err }; return b()` -/
def R.seq (a b : R) : R := fun h => if (a h).1 then b (a h).2 else (false, (a h).2)

/-- both are called, an error of either is an error -/
def R.both (a b : R) : R := fun h => ((a h).1 && (b (a h).2).1, (b (a h).2).2)

/-- `defer b()` before `a`: the error of `b` is dropped -/
def R.deferred (a b : R) : R := fun h => ((a h).1, (b (a h).2).2)

def done : R := fun h => (true, h)

/-- a step that opens and closes nothing -/
def call (f : Luck) (c : Call) : R := fun h => (f c h.step, { h with step := h.step + 1 })

/-- `os.Open`, `os.OpenFile` -/
def opens (f : Luck) (x : Handle) : R := fun h =>
  (f .opening h.step, { h with step := h.step + 1, files := if f .opening h.step then x :: h.files else h.files })

/-- `os.File.Close` -/
def closes (f : Luck) (x : Handle) : R := fun h => (f .closing h.step, { h with step := h.step + 1, files := h.files.erase x })

/-- `go` -/
def starts (g : Routine) : R := fun h => (true, { h with routines := g :: h.routines })

/-- the goroutine `g` is told to return -/
def ends (g : Routine) : R := fun h => (true, { h with routines := h.routines.erase g })

/-- `for i := from; i < from + n; i++`, returning at the first error -/
def each (a : Nat → R) : (n start : Nat) → R
  | 0, _ => done
  | n + 1, start => (a start).seq (each a n (start + 1))

/-- the same loop going on after errors -/
def eachAll (a : Nat → R) : (n start : Nat) → R
  | 0, _ => done
  | n + 1, start => (a start).both (eachAll a n (start + 1))

/-- `f, err := os.Open(…); if err != nil { return err }; defer f.Close()` and the rest of the function -/
def withFile (f : Luck) (x : Handle) (body : R) : R := (opens f x).seq (body.deferred (closes f x))

/-! ## lock/ -/

/-- the first lock handle of the list gets the lock `m` -/
def relock (m : Lock.Mode) : List Handle → List Handle
  | [] => []
  | x :: r => if x.isLock then .lock (some m) :: r else x :: relock m r

/-- lock/unix.go:24-26, 28-30, 32-34 -/
def flock (f : Luck) (m : Lock.Mode) : R := fun h =>
  (f .locking h.step, { h with step := h.step + 1, files := if f .locking h.step then relock m h.files else h.files })

/-- lock/file.go:24-30 -/
def lockNew (f : Luck) : R := opens f (.lock none)

/-- lock/file.go:37: `f.handle.Close()` -/
def lockHandleClose (f : Luck) : R := fun h => (f .closing h.step, { h with step := h.step + 1, files := h.files.eraseP Handle.isLock })

/-- lock/file.go:35-42 -/
def lockClose (f : Luck) : R := (flock f Lock.unlockMode).both (lockHandleClose f)

/-! ## config.go, fnames.go, dmd/ -/

/-- config.go:109-138: `DefaultConfig` (the absolute path), the file, its text, the JSON, `check` -/
def readConfigFromRoot (f : Luck) : R :=
  (call f .other).seq (withFile f .cfg ((call f .other).seq ((call f .other).seq (call f .other))))

/-- config.go:140-160 -/
def configWrite (f : Luck) : R := withFile f .cfg ((call f .other).seq ((call f .other).seq (call f .other)))

/-- indexer.go:163-171 -/
def writeFiles (f : Luck) : R := withFile f .fnm (call f .other)

/-- indexer.go:181-192 -/
def readfiles (f : Luck) : R := withFile f .fnm (call f .other)

/-- dmd/adder.go:77-97 -/
def flush (f : Luck) : R := withFile f .dmd ((call f .other).seq (call f .other))

/-- dmd/adder.go:70-75; `dirty`: the buffer is not empty -/
def adderClose (f : Luck) (dirty : Bool) : R := if dirty then flush f else done

/-- dmd/adder.go:31-51: only `os.Stat` -/
def newAdder (f : Luck) : R := call f .other

/-! ## internal/shard -/

/-- internal/shard/index.go:35-46, 115-148 -/
def shardInit (f : Luck) (i : Nat) : R := (withFile f (.iix i) (call f .other)).seq (opens f (.pos i))

/-- internal/shard/index.go:48-50 -/
def shardIndexClose (f : Luck) (i : Nat) : R := closes f (.pos i)

/-- internal/shard/indexer.go:42-59 -/
def initCreate (f : Luck) (i : Nat) : R := withFile f (.iix i) ((call f .other).seq (opens f (.pos i)))

/-- internal/shard/indexer.go:61-64, 70-105: `readIix`, then the posting file, then the end of every chain is read -/
def initAppend (f : Luck) (i : Nat) : R := (withFile f (.iix i) (call f .other)).seq ((opens f (.pos i)).seq (call f .other))

/-- internal/shard/indexer.go:147-158 -/
def flushInd (f : Luck) (i : Nat) : R := (call f .other).deferred (closes f (.pos i))

/-- internal/shard/indexer.go:120-145 -/
def flushIix (f : Luck) (i : Nat) : R := withFile f (.iix i) (call f .other)

/-- internal/shard/indexer.go:113-118 -/
def shardClose (f : Luck) (i : Nat) : R := (flushInd f i).seq (flushIix f i)

/-! ## index.go -/

/-- index.go:39-76; `n` is `NumShards` of the configuration.  The file list stays open until the function returns (index.go:63). -/
def openIndex (f : Luck) (n : Nat) : R :=
  (lockNew f).seq ((flock f .sh).seq ((readConfigFromRoot f).seq ((opens f .dmd).seq
    (withFile f .fnm ((call f .other).seq (each (shardInit f) n 0))))))

/-- index.go:78-94: `err` is not a named result, so what the deferred function assigns is dropped -/
def indexClose (f : Luck) (n : Nat) : R := ((closes f .dmd).both (eachAll (shardIndexClose f) n 0)).deferred (lockClose f)

/-! ## indexer.go -/

/-- shatter.go:32-58: `blotter.FromConfig` can fail, the goroutine is started -/
def startShatter (f : Luck) (ns : Nat) : R := each (fun i => (call f .other).seq (starts (.shatter i))) ns 0

/-- indexer.go:105-111 and 42-84 with config.go:64-76 -/
def createIndexer (f : Luck) (n ns : Nat) : R :=
  (call f .other).seq ((lockNew f).seq ((flock f .ex).seq ((call f .other).seq ((call f .other).seq ((newAdder f).seq
    ((each (fun i => (initCreate f i).seq (starts (.serve i))) n 0).seq (startShatter f ns)))))))

/-- indexer.go:86-96, 116-160 -/
def openIndexer (f : Luck) (n ns : Nat) : R :=
  (readConfigFromRoot f).seq ((lockNew f).seq ((flock f .sh).seq ((newAdder f).seq ((readfiles f).seq ((call f .other).seq
    ((each (fun i => (initAppend f i).seq (starts (.serve i))) n 0).seq (startShatter f ns)))))))

/-- indexer.go:236-253: the absolute path, and a flush of the document records when the buffer is `full` -/
def add (f : Luck) (full : Bool) : R := (call f .other).seq (if full then flush f else done)

/-- `Add` is called any number of times, whatever it returns -/
def adds (f : Luck) : List Bool → R
  | [] => done
  | full :: r => (add f full).both (adds f r)

/-- indexer.go:198-206: every shatter goroutine takes one shutdown request, closing the channel of a shard ends its `Serve` -/
def stops (n ns : Nat) : R := (each (fun i => ends (.shatter i)) ns 0).seq (each (fun i => ends (.serve i)) n 0)

/-- indexer.go:196-233.  The shards are closed by goroutines that are all waited for, here one after the other: they share nothing of this. -/
def indexerClose (f : Luck) (n ns : Nat) (dirty : Bool) : R :=
  ((stops n ns).seq ((configWrite f).seq ((writeFiles f).seq ((adderClose f dirty).seq (eachAll (shardClose f) n 0))))).deferred (lockClose f)

end Dupi.Resources
