import Verif.Model.Lock
/-! # lock/windows.go

As Model/Lock, for Windows.  `LockFileEx` and `UnlockFileEx` are written down from their documentation: a lock belongs to a handle; an exclusive lock of a range is
granted when no other lock of bytes of the range is held, also not by the same process through another handle; without LOCKFILE_FAIL_IMMEDIATELY the call waits; a lock is
given up by `UnlockFileEx`, when the handle is closed and when the process ends.
Not modelled: that opening the lock file with O_TRUNC (lock/file.go:25) may fail while it is locked. -/

namespace Dupi.LockWin
open Lock

/-- a handle of the lock file at `file`; `locked`: it has the lock (all locks are exclusive and of the same bytes, lock/windows.go:30-34, 42-44) -/
structure Handle where
  kind : Kind
  file : List Bytes
  phase : Phase
  locked : Bool
deriving DecidableEq, Repr

/-- the handles of all processes that use lock/windows.go:30-44 -/
abbrev World := List Handle

/-- lock/windows.go:33: the request of handle `i` for the lock of `file` does not have to wait -/
def Free (w : World) (i : Nat) (file : List Bytes) : Prop := ∀ (j : Nat) o, w[j]? = some o → j ≠ i → o.file = file → o.locked = false

/-- the steps of the processes (lock/windows.go:30-44, lock/file.go:24-42); the callers are as in `Lock.Step`, which cites them -/
inductive Step : World → World → Prop where
  | new (w : World) (k : Kind) (file : List Bytes) : Step w (w ++ [⟨k, file, .waiting, false⟩])
  /-- lock/windows.go:30-34, and 42-44 for `LockShared` -/
  | lock (w : World) (i : Nat) (h : Handle) : w[i]? = some h → h.phase = .waiting → Free w i h.file →
      Step w (w.set i { h with phase := .opening, locked := true })
  | ready (w : World) (i : Nat) (h : Handle) : w[i]? = some h → h.phase = .opening → Step w (w.set i { h with phase := .live })
  | fail (w : World) (i : Nat) (h : Handle) : w[i]? = some h → h.phase = .opening → Step w (w.set i { h with phase := .failed })
  | close (w : World) (i : Nat) (h : Handle) : w[i]? = some h → h.phase = .live → Step w (w.set i { h with phase := .unlocking })
  /-- lock/windows.go:36-40; does not wait -/
  | unlock (w : World) (i : Nat) (h : Handle) : w[i]? = some h → h.phase = .unlocking → Step w (w.set i { h with phase := .unlocked, locked := false })
  | unlockErr (w : World) (i : Nat) (h : Handle) : w[i]? = some h → h.phase = .unlocking → Step w (w.set i { h with phase := .unlocked })
  | closed (w : World) (i : Nat) (h : Handle) : w[i]? = some h → h.phase = .unlocked → Step w (w.set i { h with phase := .gone, locked := false })
  | collect (w : World) (i : Nat) (h : Handle) : w[i]? = some h → h.phase = .failed → Step w (w.set i { h with phase := .gone, locked := false })
  | die (w : World) (i : Nat) (h : Handle) : w[i]? = some h → Step w (w.set i { h with phase := .gone, locked := false })

/-- the states any number of processes can reach with lock/windows.go:30-44, from none -/
inductive Reach : World → Prop where
  | start : Reach []
  | step (w w' : World) : Reach w → Step w w' → Reach w'

end Dupi.LockWin
