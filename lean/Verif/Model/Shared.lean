import Verif.Model.Query
/-! # Slices of documents in memory

`Model/Query` treats the `Docs` of each blot as a list of its own.  Here they are Go slices: windows into memory, which
may lie in one array. -/

namespace Dupi

/-- A non-nil slice: the address of its first element, `len` and `cap`. -/
structure Slice where
  off : Nat
  len : Nat
  cap : Nat
deriving DecidableEq, Repr

/-- blot.go:30-33; `docs = none` is the nil slice -/
structure HBlot where
  blot : UInt32
  docs : Option Slice
deriving DecidableEq, Repr

/-- Memory: the elements of all arrays of documents, one after the other.  Arrays are made at the end and never given
back (garbage is never seen again). -/
abbrev Mem := List Doc

namespace HBlot

/-- `len(b.Docs)`, blot.go:43-45 -/
def len (b : HBlot) : Nat :=
  match b.docs with
  | none => 0
  | some s => s.len

/-- `cap(b.Docs)`, blot.go:39-41 -/
def cap (b : HBlot) : Nat :=
  match b.docs with
  | none => 0
  | some s => s.cap

/-- blot.go:47-55.  `append` writes into the array when the capacity allows it, and otherwise copies the elements to a new
array with `grow n` unused elements. -/
def next (grow : Nat → Nat) (lim : Bool) (m : Mem) (b : HBlot) : M (Mem × HBlot) :=
  match lim, b.docs with
  | true, none => panic'
  | true, some s => if s.len < s.cap then .ok (m, { b with docs := some { s with len := s.len + 1 } }) else panic'
  | false, none => .ok (m ++ Doc.zero :: List.replicate (grow 0) Doc.zero, { b with docs := some ⟨m.length, 1, 1 + grow 0⟩ })
  | false, some s =>
    if s.len < s.cap then .ok (m.set (s.off + s.len) Doc.zero, { b with docs := some { s with len := s.len + 1 } })
    else .ok (m ++ ((m.drop s.off).take s.len ++ Doc.zero :: List.replicate (grow s.len) Doc.zero),
      { b with docs := some ⟨m.length, s.len + 1, s.len + 1 + grow s.len⟩ })

/-- assigning path, start and end of the last document (the pointer `Next` returned), index.go:295-297 -/
def setLast (m : Mem) (b : HBlot) (r : Bytes × UInt32 × UInt32) : Mem :=
  match b.docs with
  | none => m
  | some s => if s.len = 0 then m else m.modify (s.off + s.len - 1) fun d => { d with path := r.1, start := r.2.1, stop := r.2.2 }

end HBlot

namespace Query

/-- query.go:73-87: the loop of Get.  One unit of fuel for each pass. -/
def getLoopH (grow : Nat → Nat) (x : Index) (lim : Bool) : Nat → ReadState → Mem → HBlot → M (Mem × HBlot)
  | 0, _, _, _ => .error .diverge
  | fuel + 1, rs, m, b =>
    if lim && b.len == b.cap then .ok (m, b)
    else match rs.next with
      | .error (.err .eof) => .ok (m, b)
      | .error f => .error f
      | .ok (docid, rs) => do
        let (m, b) ← b.next grow lim m
        match x.docid2Doc docid with
        | .error (.err e) => fail (.wrap "internal error docid2Doc" e)
        | .error f => .error f
        | .ok r => getLoopH grow x lim fuel rs (b.setLast m r) b

/-- query.go:63-88 -/
def getH (grow : Nat → Nat) (x : Index) (fuel : Nat) (q : QState) (m : Mem) (b : HBlot) : M (Mem × HBlot) :=
  if q.n = 0 then panic'
  else
    match x.shards[(b.blot % q.n).toNat]? with
    | none => panic'
    | some sh => do
      let rs ← sh.readStateFor (b.blot / q.n).toUInt16.toNat
      getLoopH grow x b.docs.isSome fuel rs m b

/-- query.go:138-152: the loop of fillBlot -/
def fillLoopH (grow : Nat → Nat) (x : Index) (q : QState) (srcPos : UInt32) (lim : Bool) : Nat → ReadState → Mem → HBlot → M (Mem × HBlot × QState)
  | 0, _, _, _ => .error .diverge
  | fuel + 1, src, m, b =>
    if !lim || b.len < b.cap then
      match src.next with
      | .error (.err .eof) => do
        let q ← advance x q src srcPos
        return (m, b, q)
      | .error f => .error f
      | .ok (docid, src) => do
        let (m, b) ← b.next grow lim m
        let r ← x.docid2Doc docid
        fillLoopH grow x q srcPos lim fuel src (b.setLast m r) b
    else .ok (m, b, { q with shardStates := q.shardStates.set srcPos.toNat (some src) })

/-- query.go:129-153 -/
def fillBlotH (grow : Nat → Nat) (x : Index) (fuel : Nat) (q : QState) (m : Mem) (dst : HBlot) (src : ReadState) (srcPos : UInt32) :
    M (Mem × HBlot × QState) :=
  let dst := { dst with blot := UInt32.ofNat src.blot * q.n + q.i }
  fillLoopH grow x q srcPos dst.docs.isSome fuel src m dst

/-- query.go:115-123: give up a blot with at most one document -/
def dropBlotH (lim : Bool) (b : HBlot) : HBlot :=
  match lim, b.docs with
  | true, some s => { b with docs := some { s with len := 0 } }
  | _, _ => { b with docs := none }

/-- What `Next` leaves, and the memory. -/
structure NextResultH where
  n : Nat
  eof : Bool
  mem : Mem
  dst : List HBlot
  state : QState

/-- query.go:90-127; `n` blots are filled in.  One unit of fuel for each pass, and `ff` for each call of fillBlot. -/
def nextLoopH (grow : Nat → Nat) (x : Index) (ff : Nat) : Nat → QState → Nat → Mem → List HBlot → M NextResultH
  | 0, _, _, _, _ => .error .diverge
  | fuel + 1, q, n, m, dst =>
    match dst[n]? with
    | none => .ok ⟨n, false, m, dst, q⟩
    | some b =>
      match q.shardStates[q.i.toNat]? with
      | none => panic'
      | some none =>
        let q := { q with nilCount := q.nilCount + 1 }
        if q.nilCount = q.n then .ok ⟨n, n == 0, m, dst, q⟩
        else
          let i := q.i + 1
          nextLoopH grow x ff fuel { q with i := if i = q.n then 0 else i } n m dst
      | some (some src) => do
        let (m, b', q) ← fillBlotH grow x ff q m b src q.i
        if b'.len ≤ 1 then
          let q ← advance x q src q.i
          nextLoopH grow x ff fuel q n m (dst.set n (dropBlotH b.docs.isSome b'))
        else nextLoopH grow x ff fuel q (n + 1) m (dst.set n b')

/-- query.go:90-127 -/
def nextH (grow : Nat → Nat) (x : Index) (ff fuel : Nat) (q : QState) (m : Mem) (dst : List HBlot) : M NextResultH :=
  nextLoopH grow x ff fuel q 0 m dst

end Query
end Dupi
