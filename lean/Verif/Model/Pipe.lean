import Verif.Model.Commands
/-! # docs/tutorial.md:134: `dupi extract -b | xargs dupi unblot`

xargs (trusted base) reads words and runs the command with some of them at a time.  Quotes and backslashes, which it treats specially, are not
modelled: extract -b prints none. -/

namespace Dupi.Cmd

/-- what separates words for xargs: space, tabulator, newline -/
def isBlank (b : UInt8) : Bool := b == 32 || b == 9 || b == 10

/-- the words xargs reads; `w` is what has been read of a word, reversed -/
def xargsWords (w : Bytes) : Bytes → List Bytes
  | [] => if w = [] then [] else [w.reverse]
  | b :: l => if isBlank b then (if w = [] then xargsWords [] l else w.reverse :: xargsWords [] l) else xargsWords (b :: w) l

/-- the command is run once for each of the batches of words, whatever the exit status of the runs before; `run i` is run number `i`.  What they
print comes one after the other. -/
def xargs (run : Nat → List Bytes → Option (M (Bytes × Bool))) : Nat → List (List Bytes) → Option (M (Bytes × Bool))
  | _, [] => some (.ok ([], false))
  | i, ws :: rest =>
    match run i ws, xargs run (i + 1) rest with
    | some (.ok r), some (.ok t) => some (.ok (r.1 ++ t.1, r.2 || t.2))
    | some (.ok _), t => t
    | r, _ => r

end Dupi.Cmd
