import Verif.Model.Config
/-! # lock/: the lock file of an index

Any number of processes create, append to and read indexes.  The state is the table of the lock handles there ever were.  `flock(2)` is written
down from its manual page: locks belong to open handles, a shared lock is granted when no other handle of the file has an exclusive one, an exclusive
lock when no other handle has any, changing the kind of a lock first gives up the old one, closing the last descriptor gives up the lock.
The lock file is never removed by the code (remove.go removes the directory of the index, not the file beside it), so a path stands for one file.
lock/windows.go is in Model/LockWin. -/

namespace Dupi.Lock

inductive Mode where
  | sh
  | ex
deriving DecidableEq, Repr

/-- what is opened: `IndexerFromConfig` (indexer.go:42-84), `openFromConfig` (indexer.go:116-160), `OpenIndex` (index.go:39-76) -/
inductive Kind where
  | creator
  | appender
  | reader
deriving DecidableEq, Repr

/-- indexer.go:49 `Lock`, indexer.go:124 `LockShared`, index.go:47 `LockShared`, with lock/unix.go:24-26, 32-34 -/
def Kind.mode : Kind → Mode
  | .creator => .ex
  | .appender => .sh
  | .reader => .sh

/-- lock/unix.go:28-30: the mode `Unlock` asks for -/
def unlockMode : Mode := .sh

inductive Phase where
  /-- after `lock.New`, waiting for the lock -/
  | waiting
  /-- the lock was granted, the rest of the opening function runs -/
  | opening
  /-- opened: in the hands of the caller -/
  | live
  /-- the opening function returned an error (the handle is not closed by it) -/
  | failed
  /-- `File.Close` (lock/file.go:32-42) was called (after all other work: the call is deferred) and waits in `Unlock` -/
  | unlocking
  /-- `Unlock` returned -/
  | unlocked
  /-- closed -/
  | gone
deriving DecidableEq, Repr

/-- a handle of the lock file at `file` -/
structure Handle where
  kind : Kind
  file : List Bytes
  phase : Phase
  mode : Option Mode
deriving DecidableEq, Repr

abbrev World := List Handle

/-- the request of handle `i` for a lock of mode `m` on `file` does not have to wait -/
def Free (w : World) (i : Nat) (file : List Bytes) (m : Mode) : Prop :=
  ∀ (j : Nat) o, w[j]? = some o → j ≠ i → o.file = file → match m with
    | .sh => o.mode ≠ some .ex
    | .ex => o.mode = none

/-- the steps of the processes -/
inductive Step : World → World → Prop where
  /-- lock/file.go:24-30 -/
  | new (w : World) (k : Kind) (file : List Bytes) : Step w (w ++ [⟨k, file, .waiting, none⟩])
  /-- `flock` returns -/
  | lock (w : World) (i : Nat) (h : Handle) : w[i]? = some h → h.phase = .waiting → Free w i h.file h.kind.mode →
      Step w (w.set i { h with phase := .opening, mode := some h.kind.mode })
  /-- the opening function returns the object -/
  | ready (w : World) (i : Nat) (h : Handle) : w[i]? = some h → h.phase = .opening → Step w (w.set i { h with phase := .live })
  /-- the opening function returns an error -/
  | fail (w : World) (i : Nat) (h : Handle) : w[i]? = some h → h.phase = .opening → Step w (w.set i { h with phase := .failed })
  /-- `File.Close` calls `Unlock`; a lock of another mode than the one asked for is given up first -/
  | close (w : World) (i : Nat) (h : Handle) : w[i]? = some h → h.phase = .live →
      Step w (w.set i { h with phase := .unlocking, mode := if h.mode = some unlockMode then h.mode else none })
  /-- the `flock` of `Unlock` returns -/
  | unlock (w : World) (i : Nat) (h : Handle) : w[i]? = some h → h.phase = .unlocking → Free w i h.file unlockMode →
      Step w (w.set i { h with phase := .unlocked, mode := some unlockMode })
  /-- the `flock` of `Unlock` fails (interrupted) -/
  | unlockErr (w : World) (i : Nat) (h : Handle) : w[i]? = some h → h.phase = .unlocking → Step w (w.set i { h with phase := .unlocked })
  /-- lock/file.go:36-37: the handle is closed whether or not unlocking failed -/
  | closed (w : World) (i : Nat) (h : Handle) : w[i]? = some h → h.phase = .unlocked → Step w (w.set i { h with phase := .gone, mode := none })
  /-- the handle of a failed opening is collected (finalizer of os.File) -/
  | collect (w : World) (i : Nat) (h : Handle) : w[i]? = some h → h.phase = .failed → Step w (w.set i { h with phase := .gone, mode := none })
  /-- the process dies -/
  | die (w : World) (i : Nat) (h : Handle) : w[i]? = some h → Step w (w.set i { h with phase := .gone, mode := none })

inductive Reach : World → Prop where
  | start : Reach []
  | step (w w' : World) : Reach w → Step w w' → Reach w'

/-- ".lock" -/
def dotLock : Bytes := [46, 108, 111, 99, 107]

/-- config.go:89-91 -/
def lockPath (indexRoot : Bytes) : Bytes := indexRoot ++ dotLock

/-- the lock path of `CreateIndexer(root)` (indexer.go:105-111 with config.go:44-50) and of `OpenIndexer` of an index created under that
root in the same working directory: the root in the configuration is absolute -/
def writerLock (cwd root : Bytes) : Bytes := lockPath (absPath cwd root)

/-- the lock path of `OpenIndex(root)` (index.go:41-43): the root is taken as it is -/
def readerLock (root : Bytes) : Bytes := lockPath root

end Dupi.Lock
