import Verif.Model.Reuse
/-! # Programs that reuse the memory of documents -/

namespace Dupi.Spec
open Reuse

/-- The documents a program adds, each with the data it has at the call of `Add`. -/
def docsAt (m : Mem) : List Act → List Doc
  | [] => []
  | .write b v :: l => docsAt (fun i => if i = b then v else m i) l
  | .add d :: l => ⟨d.path, d.start, d.stop, some (((m d.dat.buf).drop d.dat.lo).take d.dat.len)⟩ :: docsAt m l

/-- The memory after some actions. -/
def memAfter (m : Mem) : List Act → Mem
  | [] => m
  | .write b v :: l => memAfter (fun i => if i = b then v else m i) l
  | .add _ :: l => memAfter m l

/-- Writes do not change the sizes of the buffers. -/
def Sized (m : Mem) : List Act → Prop
  | [] => True
  | .write b v :: l => v.length = (m b).length ∧ Sized (fun i => if i = b then v else m i) l
  | .add _ :: l => Sized m l

/-- No write goes to a buffer of one of the last `n` documents added before it; `h` are the buffers of
the documents added so far, the last one first. -/
def KeepsFrom (n : Nat) (h : List Nat) : List Act → Prop
  | [] => True
  | .write b _ :: l => b ∉ h.take n ∧ KeepsFrom n h l
  | .add d :: l => KeepsFrom n (d.dat.buf :: h) l

/-- A buffer is written to again only after `n` further documents have been added. -/
def Keeps (n : Nat) (prog : List Act) : Prop := KeepsFrom n [] prog

/-- Document number `k` of a program has the data `v` at some moment after its `Add`. -/
def HasLater (m : Mem) (prog : List Act) (k : Nat) (v : Bytes) : Prop :=
  ∃ pre post i, prog = pre ++ post ∧ k < (items pre).length ∧ (items prog)[k]? = some i ∧
    v = ((memAfter m pre i.dat.buf).drop i.dat.lo).take i.dat.len

/-- The buffer of a document is being read by a shatterer. -/
def BeingRead (s : Reuse.St) (b : Nat) (nw : Nat) : Prop :=
  ∃ w, w < nw ∧ ∃ did d, (s.core.workers w).2 = .computing did d ∧ d.2.buf = b

end Dupi.Spec
